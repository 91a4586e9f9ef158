import Verif.View.Model
import Mathlib.GroupTheory.SpecificGroups.Cyclic.Basic
/- C64: what party zero sees in the clear. -/
namespace Upsi.View
open Upsi Upsi.ElGamal Upsi.Tree Upsi.Num Upsi.Proto

theorem permuteBy_perm {N : Nat} {α : Type} (σ : Equiv.Perm (Fin N)) (l : List α) : (permuteBy σ l).Perm l := by
  unfold permuteBy
  split
  · rename_i h
    subst h
    have h1 := Equiv.Perm.ofFn_comp_perm σ (fun i : Fin l.length => l[i])
    have h2 : List.ofFn (fun i : Fin l.length => l[i]) = l := List.ofFn_getElem
    rw [h2] at h1
    exact h1
  · exact List.Perm.refl _

variable {G : Type} [AddCommGroup G] [DecidableEq G] {P γ κ : Type}

theorem preCands_resample {N : Nat} (F : Func G P γ κ) (hashOf : Nat → List Bool) (pk : PK G)
    (s0 : St0 G P) (s1 : St1 γ) (xs : List P) (ys : List Nat) (ρ : Coins G P κ) (tape : Fin N → Tape) (σ : Equiv.Perm (Fin N)) :
    preCands F hashOf pk s0 s1 xs ys (resample ρ tape σ) = preCands F hashOf pk s0 s1 xs ys ρ := rfl

/-- What a completed exchange went through. -/
theorem exchange_inv {S : Setup G} {F : Func G P γ κ} {c : Codec G} {hashOf : Nat → List Bool} {s0 s0' : St0 G P} {s1 s1' : St1 γ}
    {xs : List P} {ys : List Nat} {ρ : Coins G P κ} {cands : List (Ct G × κ)}
    (h : exchange F c hashOf S.pk S.sk1 s0 s1 xs ys ρ = .ok (s0', s1', cands)) :
    ∃ all out, preCands F hashOf S.pk s0 s1 xs ys ρ = .ok all ∧
      forIdx (fun i x => F.send S.pk S.sk1 (ρ.send i) x) 0 ((ρ.shuffle all).mapIdx (fun i x => F.mask (ρ.masks i) x)) = .ok out ∧
      forIdx (fun _ w => F.deser w) 0 out = .ok cands := by
  simp only [exchange, genII, recvII, Outcome.bind_eq_ok, Outcome.pure_eq, Outcome.ok.injEq,
    Prod.mk.injEq] at h
  obtain ⟨⟨t0, m1⟩, hI, ⟨t1, m2⟩, ⟨other1, ho1, dec1, hdec1, own, hown, out, hout,
    u1, hu1, e1⟩, ⟨t2, cands'⟩, ⟨other0, ho0, cs2, hcs2, e2⟩, e3⟩ := h
  obtain ⟨rfl, rfl⟩ := Prod.mk.inj e1
  obtain ⟨rfl, rfl⟩ := Prod.mk.inj e2
  obtain ⟨rfl, rfl, rfl⟩ := e3
  exact ⟨dec1 ++ own.flatten, out, by simp only [preCands, hI, ho1, hdec1, hown, Outcome.bind_ok, Outcome.pure_eq], hout, hcs2⟩

/-- A completed exchange also completes with other masks and another shuffle if sending and reading the candidates
does. -/
theorem exchange_resample {S : Setup G} {F : Func G P γ κ} {c : Codec G} {hashOf : Nat → List Bool} {s0 s0' : St0 G P} {s1 s1' : St1 γ}
    {xs : List P} {ys : List Nat} {ρ : Coins G P κ} {cands all : List (Ct G × κ)} {N : Nat} (tape : Fin N → Tape) (σ : Equiv.Perm (Fin N))
    (h : exchange F c hashOf S.pk S.sk1 s0 s1 xs ys ρ = .ok (s0', s1', cands))
    (hall : preCands F hashOf S.pk s0 s1 xs ys ρ = .ok all) {out : List EncElem} {cands' : List (Ct G × κ)}
    (h1 : forIdx (fun i x => F.send S.pk S.sk1 (ρ.send i) x) 0 (((resample ρ tape σ).shuffle all).mapIdx
      (fun i x => F.mask ((resample ρ tape σ).masks i) x)) = .ok out)
    (h2 : forIdx (fun _ w => F.deser w) 0 out = .ok cands') :
    exchange F c hashOf S.pk S.sk1 s0 s1 xs ys (resample ρ tape σ) = .ok (s0', s1', cands') := by
  simp only [exchange, genII, recvII, Outcome.bind_eq_ok, Outcome.pure_eq, Outcome.ok.injEq,
    Prod.mk.injEq] at h
  obtain ⟨⟨t0, m1⟩, hI, ⟨t1, m2⟩, ⟨other1, ho1, dec1, hdec1, own, hown, out0, hout,
    u1, hu1, e1⟩, ⟨t2, cands''⟩, ⟨other0, ho0, cs2, hcs2, e2⟩, e3⟩ := h
  obtain ⟨rfl, rfl⟩ := Prod.mk.inj e1
  obtain ⟨rfl, rfl⟩ := Prod.mk.inj e2
  obtain ⟨rfl, rfl, rfl⟩ := e3
  have : all = dec1 ++ own.flatten := by
    simp only [preCands, hI, ho1, hdec1, hown, Outcome.bind_ok, Outcome.pure_eq, Outcome.ok.injEq] at hall
    exact hall.symm
  subst this
  have hI' : genI F hashOf S.pk s0 xs (resample ρ tape σ) = .ok (t0, m1) := hI
  have hown' : forIdx (candII F hashOf S.pk other1 (resample ρ tape σ)) 0 ys = .ok own := hown
  simp only [exchange, genII, recvII, hI', Outcome.bind_ok, ho1, hdec1, hown']
  have h1' : forIdx (fun i x => F.send S.pk S.sk1 ((resample ρ tape σ).send i) x) 0
      (((resample ρ tape σ).shuffle (dec1 ++ own.flatten)).mapIdx (fun i x => F.mask ((resample ρ tape σ).masks i) x)) = .ok out := h1
  simp only [h1', Outcome.bind_ok]
  have hu1' : sendUpdate hashOf id (fun i j y => serNoPayload c (encrypt S.pk ((resample ρ tape σ).enc1 i j) y))
      (resample ρ tape σ).pads1 s1.my ys (resample ρ tape σ).hsh1 = .ok u1 := hu1
  simp only [hu1', Outcome.bind_ok, Outcome.pure_eq, ho0, h2]

/-- Party zero sees a candidate that left party one as `x` through the mask tape `m` as `V m x`. -/
def SeesAs {W : Type} (S : Setup G) (F : Func G P γ κ) (see : Ct G × κ → W) (V : Tape → Ct G × κ → W) : Prop :=
  ∀ m t x w x', F.send S.pk S.sk1 t (F.mask m x) = .ok w → F.deser w = .ok x' → see x' = V m x

theorem forIdx_get {α β : Type} {f : Nat → α → Outcome β} (l : List α) : ∀ (i : Nat) (bs : List β), forIdx f i l = .ok bs →
    bs.length = l.length ∧ ∀ (k : Nat) (h : k < l.length) (h' : k < bs.length), f (i + k) l[k] = .ok bs[k] := by
  induction l with
  | nil => intro i bs h; simp [forIdx] at h; subst h; exact ⟨rfl, fun k h => absurd h (by simp)⟩
  | cons a as ih =>
    intro i bs h
    simp only [forIdx, Outcome.bind_eq_ok, Outcome.pure_eq, Outcome.ok.injEq] at h
    obtain ⟨b, h1, bs', h2, rfl⟩ := h
    obtain ⟨k1, k2⟩ := ih _ _ h2
    refine ⟨by simp [k1], fun k h h' => ?_⟩
    cases k with
    | zero => exact h1
    | succ k =>
      have := k2 k (by simpa using h) (by simpa using h')
      rw [show i + (k + 1) = i + 1 + k by omega]
      exact this

theorem forIdx_total {α β : Type} {f : Nat → α → Outcome β} (l : List α) : ∀ (i : Nat),
    (∀ (k : Nat) (h : k < l.length), ∃ b, f (i + k) l[k] = .ok b) → ∃ bs, forIdx f i l = .ok bs := by
  induction l with
  | nil => intro i _; exact ⟨[], rfl⟩
  | cons a as ih =>
    intro i h
    obtain ⟨b, hb⟩ := h 0 (by simp)
    obtain ⟨bs, hbs⟩ := ih (i + 1) (fun k hk => by
      obtain ⟨b, hb⟩ := h (k + 1) (by simpa using hk)
      exact ⟨b, by rw [show i + 1 + k = i + (k + 1) by omega]; exact hb⟩)
    simp only [Nat.add_zero, List.getElem_cons_zero] at hb
    exact ⟨b :: bs, by simp only [forIdx, hb, Outcome.bind_ok, hbs, Outcome.pure_eq]⟩

/-- What party zero reads, position by position. -/
theorem read_spec {W : Type} {S : Setup G} {F : Func G P γ κ} {see : Ct G × κ → W} {V : Tape → Ct G × κ → W} (hF : SeesAs S F see V)
    {l : List (Ct G × κ)} {masks send : Nat → Tape} {out : List EncElem} {cands : List (Ct G × κ)}
    (h1 : forIdx (fun i x => F.send S.pk S.sk1 (send i) x) 0 (l.mapIdx (fun i x => F.mask (masks i) x)) = .ok out)
    (h2 : forIdx (fun _ w => F.deser w) 0 out = .ok cands) :
    cands.map see = l.mapIdx (fun i x => V (masks i) x) := by
  obtain ⟨a1, a2⟩ := forIdx_get _ _ _ h1
  obtain ⟨b1, b2⟩ := forIdx_get _ _ _ h2
  rw [List.length_mapIdx] at a1
  refine List.ext_getElem (by simp [b1, a1]) fun k hk hk' => ?_
  simp only [List.length_map] at hk
  have hk1 : k < out.length := b1 ▸ hk
  have hk2 : k < l.length := a1 ▸ hk1
  have e1 := a2 k (by simpa using hk2) hk1
  have e2 := b2 k hk1 hk
  simp only [List.getElem_mapIdx] at e1
  simp only [List.getElem_map, List.getElem_mapIdx]
  exact hF _ _ _ _ _ e1 e2

/-- Candidate `j` before the shuffle. -/
def cand (all : List (Ct G × κ)) {N : Nat} (h : all.length = N) (j : Fin N) : Ct G × κ := all[(j : Nat)]'(h.symm ▸ j.isLt)

theorem ofFn_cand {A : Type} (f : Ct G × κ → A) (all : List (Ct G × κ)) {N : Nat} (h : all.length = N) :
    List.ofFn (fun j => f (cand all h j)) = all.map f := by
  subst h
  refine List.ext_getElem (by simp) fun k hk hk' => ?_
  simp only [List.getElem_ofFn, List.getElem_map, cand]

/-- What party zero reads in a resampled run. -/
theorem seen_resample {W K : Type} {S : Setup G} {F : Func G P γ κ} {see : Ct G × κ → W} {V : Tape → Ct G × κ → W} (hF : SeesAs S F see V)
    {c : Codec G} {hashOf : Nat → List Bool} {s0 : St0 G P}
    {s1 : St1 γ} {xs : List P} {ys : List Nat} {ρ : Coins G P κ} {all : List (Ct G × κ)} {N : Nat} (hN : all.length = N)
    (hall : preCands F hashOf S.pk s0 s1 xs ys ρ = .ok all) (tp : K → Tape) (x : (Fin N → K) × Equiv.Perm (Fin N)) {w : List W}
    (h : seen S F see c hashOf s0 s1 xs ys (resample ρ (fun i => tp (x.1 i)) x.2) = .ok w) :
    w = List.ofFn (observe (fun k y => V (tp k) y) (cand all hN) x) := by
  simp only [seen, Outcome.bind_eq_ok, Outcome.pure_eq, Outcome.ok.injEq] at h
  obtain ⟨⟨s0', s1', cands⟩, he, rfl⟩ := h
  obtain ⟨all', out, k1, k2, k3⟩ := exchange_inv he
  rw [preCands_resample, hall] at k1
  obtain rfl := Outcome.ok.inj k1
  have := read_spec hF (masks := (resample ρ (fun i => tp (x.1 i)) x.2).masks) (send := ρ.send) k2 k3
  simp only
  rw [this]
  have hp : (resample ρ (fun i => tp (x.1 i)) x.2).shuffle all = permuteBy x.2 all := rfl
  rw [hp, permuteBy, dif_pos hN]
  refine List.ext_getElem (by simp) fun k hk hk' => ?_
  have hkN : k < N := by simpa using hk'
  simp only [List.getElem_mapIdx, List.getElem_ofFn, observe, cand, resample, dif_pos hkN]

/-- The number of ways a resampled day shows `w`, if the day completes whatever is drawn. -/
theorem seen_ways {W K : Type} [Fintype K] [DecidableEq W] {S : Setup G} {F : Func G P γ κ} {see : Ct G × κ → W} {V : Tape → Ct G × κ → W}
    (hF : SeesAs S F see V) {c : Codec G} {hashOf : Nat → List Bool}
    {s0 : St0 G P} {s1 : St1 γ} {xs : List P} {ys : List Nat} {ρ : Coins G P κ} {all : List (Ct G × κ)} {N : Nat} (hN : all.length = N)
    (hpre : preCands F hashOf S.pk s0 s1 xs ys ρ = .ok all) (tp : K → Tape)
    (hall : ∀ x : (Fin N → K) × Equiv.Perm (Fin N),
      ∃ r, seen S F see c hashOf s0 s1 xs ys (resample ρ (fun i => tp (x.1 i)) x.2) = .ok r) (w : List W) :
    ways (fun x : (Fin N → K) × Equiv.Perm (Fin N) =>
        seen S F see c hashOf s0 s1 xs ys (resample ρ (fun i => tp (x.1 i)) x.2)) (.ok w) =
      ways (fun x => List.ofFn (observe (fun k y => V (tp k) y) (cand all hN) x)) w := by
  unfold ways
  refine Fintype.card_congr (Equiv.subtypeEquivRight fun x => ?_)
  obtain ⟨r, hr⟩ := hall x
  dsimp only
  rw [hr, ← seen_resample hF hN hpre tp x hr]
  exact ⟨Outcome.ok.inj, congrArg _⟩

/-- A masked plaintext. -/
def masked {q : Nat} (k : Fin (q - 1)) (d : G) : G := maskOf k • d

/-- Without assuming completion: at most as many. -/
theorem seen_ways_le {W K : Type} [Fintype K] [DecidableEq W] {S : Setup G} {F : Func G P γ κ} {see : Ct G × κ → W} {V : Tape → Ct G × κ → W}
    (hF : SeesAs S F see V) {c : Codec G} {hashOf : Nat → List Bool}
    {s0 : St0 G P} {s1 : St1 γ} {xs : List P} {ys : List Nat} {ρ : Coins G P κ} {all : List (Ct G × κ)} {N : Nat} (hN : all.length = N)
    (hpre : preCands F hashOf S.pk s0 s1 xs ys ρ = .ok all) (tp : K → Tape) (w : List W) :
    ways (fun x : (Fin N → K) × Equiv.Perm (Fin N) =>
        seen S F see c hashOf s0 s1 xs ys (resample ρ (fun i => tp (x.1 i)) x.2)) (.ok w) ≤
      ways (fun x => List.ofFn (observe (fun k y => V (tp k) y) (cand all hN) x)) w := by
  unfold ways
  exact Fintype.card_le_of_injective
    (fun x => (⟨x.1, (seen_resample hF hN hpre tp x.1 x.2).symm⟩ :
      {x // List.ofFn (observe (fun k y => V (tp k) y) (cand all hN) x) = w}))
    (fun x y h => Subtype.ext (congrArg (fun z => z.1) h))

theorem mask_pos {S : Setup G} (k : Fin (S.q - 1)) : NonZero S (maskOf k) := by
  intro h
  have h1 := Int.le_of_dvd (by unfold maskOf; omega) h
  have h2 := k.isLt
  unfold maskOf at h1; omega

theorem mask_unique (S : Setup G) {d w : G} (hd : d ≠ 0) (hw : w ≠ 0) : ∃ k : Fin (S.q - 1), ∀ l, masked l d = w ↔ l = k := by
  haveI : Fact S.q.Prime := ⟨S.hq⟩
  have hpos := S.hq.pos
  obtain ⟨n, hn⟩ : ∃ n : Int, n • d = w := mem_zmultiples_of_prime_card S.hcard hd (g' := w)
  have hord : addOrderOf d = S.q := by
    have h1 : addOrderOf d ∣ S.q := by rw [← S.hcard]; exact addOrderOf_dvd_natCard d
    rcases (Nat.dvd_prime S.hq).1 h1 with h2 | h2
    · exact absurd (AddMonoid.addOrderOf_eq_one_iff.1 h2) hd
    · exact h2
  have hn0 : n % S.q ≠ 0 := fun h => hw (by
    rw [← hn]; exact (zsmul_eq_zero_iff hord n).2 (Int.dvd_of_emod_eq_zero h))
  have h1 := Int.emod_nonneg n (show (S.q : Int) ≠ 0 by omega)
  have h2 := Int.emod_lt_of_pos n (show (0 : Int) < S.q by omega)
  refine ⟨⟨(n % S.q).toNat - 1, by omega⟩, fun l => ?_⟩
  have key : masked l d = w ↔ (S.q : Int) ∣ maskOf l - n := by
    rw [← zsmul_eq_zero_iff hord, sub_smul, hn, sub_eq_zero]; rfl
  rw [key, Fin.ext_iff]
  have hl := l.isLt
  simp only [maskOf]
  have h3 := Int.emod_eq_of_lt (a := (l : Int) + 1) (b := (S.q : Int)) (by omega) (by omega)
  rw [Int.dvd_iff_emod_eq_zero, ← Int.emod_eq_emod_iff_emod_sub_eq_zero, h3]
  omega

/-- How many masks turn a plaintext into `w`. -/
theorem masked_card (S : Setup G) (d w : G) : Fintype.card {k : Fin (S.q - 1) // masked k d = w} =
    if d = 0 then (if w = 0 then S.q - 1 else 0) else (if w = 0 then 0 else 1) := by
  by_cases hd : d = 0
  · subst hd
    rw [if_pos rfl]
    by_cases hw : w = 0
    · subst hw
      rw [if_pos rfl, Fintype.card_congr (Equiv.subtypeUnivEquiv (fun k => by simp [masked])), Fintype.card_fin]
    · rw [if_neg hw, Fintype.card_eq_zero_iff]
      exact ⟨fun k => hw (by rw [← k.2]; simp [masked])⟩
  · rw [if_neg hd]
    by_cases hw : w = 0
    · subst hw
      rw [if_pos rfl, Fintype.card_eq_zero_iff]
      exact ⟨fun k => hd ((S.smul_zero_iff (mask_pos k.1) d).1 k.2)⟩
    · rw [if_neg hw]
      obtain ⟨k, hk⟩ := mask_unique S hd hw
      rw [Fintype.card_congr (Equiv.subtypeEquivRight hk)]
      exact Fintype.card_unique

/-- Equal numbers of observations give equal numbers of lists. -/
theorem ways_ofFn {K W : Type} [Fintype K] [DecidableEq W] {N : Nat} {f f' : (Fin N → K) × Equiv.Perm (Fin N) → Fin N → W}
    (h : ∀ w, Fintype.card {x // f x = w} = Fintype.card {x // f' x = w}) (w : List W) :
    ways (fun x => List.ofFn (f x)) w = ways (fun x => List.ofFn (f' x)) w := by
  unfold ways
  by_cases hw : w.length = N
  · subst hw
    have e : ∀ g : Fin w.length → W, List.ofFn g = w ↔ g = fun i => w[i] := fun g => by
      have e0 : List.ofFn (fun i : Fin w.length => w[i]) = w := List.ofFn_getElem
      exact ⟨fun hg => List.ofFn_inj.1 (hg.trans e0.symm), fun hg => by rw [hg]; exact e0⟩
    rw [Fintype.card_congr (Equiv.subtypeEquivRight fun x => e (f x)),
      Fintype.card_congr (Equiv.subtypeEquivRight fun x => e (f' x))]
    exact h _
  · rw [Fintype.card_eq_zero_iff.2 ⟨fun x => hw (by rw [← x.2, List.length_ofFn])⟩,
      Fintype.card_eq_zero_iff.2 ⟨fun x => hw (by rw [← x.2, List.length_ofFn])⟩]

theorem ways_congr {K W : Type} [Fintype K] [DecidableEq W] {N : Nat} {f f' : (Fin N → K) × Equiv.Perm (Fin N) → W} {w : W}
    (h : ∀ x, f x = f' x) : ways f w = ways f' w := by
  rw [show f = f' from funext h]

/-- The items of the ideal view. -/
def idealItem (g : G) {N : Nat} (M : Nat) (j : Fin N) : G := if (j : Nat) < M then 0 else g

theorem idealView_eq (g : G) {q N M : Nat} (x : (Fin N → Fin (q - 1)) × Equiv.Perm (Fin N)) :
    idealView g q N M x = List.ofFn (observe (masked (q := q)) (idealItem g M) x) := by
  unfold idealView
  congr 1
  funext i
  simp only [observe, masked, idealItem]
  split <;> simp

theorem card_lt {N M : Nat} (h : M ≤ N) : Fintype.card {j : Fin N // (j : Nat) < M} = M := by
  have e : {j : Fin N // (j : Nat) < M} ≃ Fin M :=
    ⟨fun j => ⟨j.1, j.2⟩, fun i => ⟨⟨i, by omega⟩, i.isLt⟩, fun _ => rfl, fun _ => rfl⟩
  rw [Fintype.card_congr e, Fintype.card_fin]

/-- Masking and shuffling hide everything but the number of items and the number of zeros. -/
theorem observe_masked (S : Setup G) {N : Nat} (D : Fin N → G) {M : Nat} (hM : Fintype.card {j // D j = 0} = M) (w : List G) :
    ways (fun x => List.ofFn (observe (masked (q := S.q)) D x)) w = ways (idealView S.g S.q N M) w := by
  have hMN : M ≤ N := by
    rw [← hM]; exact (Fintype.card_subtype_le _).trans (le_of_eq (Fintype.card_fin N))
  have hz : ∀ j : Fin N, idealItem S.g M j = 0 ↔ (j : Nat) < M := fun j => by
    unfold idealItem
    split
    · simp_all
    · simp_all [S.hg0]
  have hc : ∀ b : Bool, Fintype.card {i // decide (D i = 0) = b} = Fintype.card {i : Fin N // decide (idealItem S.g M i = 0) = b} := by
    have ht : Fintype.card {i // decide (D i = 0) = true} = Fintype.card {i : Fin N // decide (idealItem S.g M i = 0) = true} := by
      rw [Fintype.card_congr (Equiv.subtypeEquivRight fun j => decide_eq_true_iff), hM,
        Fintype.card_congr (Equiv.subtypeEquivRight fun j => decide_eq_true_iff),
        Fintype.card_congr (Equiv.subtypeEquivRight hz), card_lt hMN]
    intro b
    cases b with
    | true => exact ht
    | false =>
      have e : ∀ b : Fin N → Bool, Fintype.card {i // b i = false} = N - Fintype.card {i // b i = true} := fun b => by
        rw [Fintype.card_congr (Equiv.subtypeEquivRight (q := fun i => ¬ b i = true) fun i => by simp), Fintype.card_subtype_compl,
          Fintype.card_fin]
      rw [e, e, ht]
  obtain ⟨τ, hτ⟩ := exists_relabel (f := fun j => decide (D j = 0)) (g := fun j => decide (idealItem S.g M j = 0)) hc
  rw [ways_congr (fun x => idealView_eq S.g x)]
  refine ways_ofFn (fun w => ?_) w
  exact observe_card_eq (cl := fun d : G => decide (d = 0)) (cl' := fun d : G => decide (d = 0))
    (f := fun b w => if b = true then (if w = 0 then S.q - 1 else 0) else (if w = 0 then 0 else 1))
    (fun i w => by rw [masked_card]; simp) (fun i w => by rw [masked_card]; simp) τ hτ w

/-! ### the code -/

/-- The number of candidates party zero finds to be the identity, in terms of the candidates before the shuffle. -/
theorem zeros_card {S : Setup G} {F : Func G P γ κ} (hF : SeesAs S F (seeFirst S) (fun m x => m 0 • S.dec x.1))
    {masks send : Nat → Tape} {shuffle : List (Ct G × κ) → List (Ct G × κ)} {all : List (Ct G × κ)} {out : List EncElem} {cands : List (Ct G × κ)}
    (hsh : (shuffle all).Perm all) (hm : ∀ i, NonZero S (masks i 0))
    (h1 : forIdx (fun i x => F.send S.pk S.sk1 (send i) x) 0 ((shuffle all).mapIdx (fun i x => F.mask (masks i) x)) = .ok out)
    (h2 : forIdx (fun _ w => F.deser w) 0 out = .ok cands) :
    all.length = cands.length ∧
      (all.filter (fun x => S.dec x.1 = 0)).length = (cands.filter (fun x => decrypt S.sk0 x.1 = 0)).length := by
  have hr := read_spec hF h1 h2
  have hlen : all.length = cands.length := by
    have := congrArg List.length hr
    rw [List.length_map, List.length_mapIdx, hsh.length_eq] at this
    exact this.symm
  refine ⟨hlen, ?_⟩
  have e2 : (cands.filter (fun x => decrypt S.sk0 x.1 = 0)).length = ((shuffle all).filter (fun x => S.dec x.1 = 0)).length := by
    have f1 : (cands.filter (fun x => decrypt S.sk0 x.1 = 0)).length =
        (cands.map (fun x => decide (decrypt S.sk0 x.1 = 0))).count true := by
      rw [List.count_eq_length_filter, List.filter_map, List.length_map]
      congr 1
      exact List.filter_congr fun x _ => by simp
    have f2 : ((shuffle all).filter (fun x => S.dec x.1 = 0)).length =
        ((shuffle all).map (fun x => decide (S.dec x.1 = 0))).count true := by
      rw [List.count_eq_length_filter, List.filter_map, List.length_map]
      congr 1
      exact List.filter_congr fun x _ => by simp
    rw [f1, f2]
    congr 1
    refine List.ext_getElem (by simp [hsh.length_eq, hlen]) fun k hk hk' => ?_
    have := List.getElem_of_eq hr (i := k) (by simpa using hk)
    simp only [List.getElem_map, List.getElem_mapIdx, seeFirst] at this ⊢
    rw [this]
    exact decide_eq_decide.2 (S.smul_zero_iff (hm k) _)
  rw [e2]
  exact (hsh.filter _).length_eq.symm

theorem cand_card {S : Setup G} (all : List (Ct G × κ)) {N : Nat} (hN : all.length = N) :
    Fintype.card {j // S.dec (cand all hN j).1 = 0} = (all.filter (fun x => S.dec x.1 = 0)).length := by
  have h1 : Fintype.card {j // S.dec (cand all hN j).1 = 0} =
      Fintype.card {j // (fun j => (fun y : Ct G × κ => decide (S.dec y.1 = 0)) (cand all hN j)) j = true} :=
    Fintype.card_congr (Equiv.subtypeEquivRight fun j => decide_eq_true_iff.symm)
  rw [h1, card_ofFn, ofFn_cand (fun y : Ct G × κ => decide (S.dec y.1 = 0)), List.count_eq_length_filter, List.filter_map, List.length_map]
  congr 1
  refine List.filter_congr fun x _ => ?_
  simp

/-- The first components: party zero's view is the ideal one, except for draws on which the day does not complete. -/
theorem first_ways {S : Setup G} {F : Func G P γ κ} (hF : SeesAs S F (seeFirst S) (fun m x => m 0 • S.dec x.1)) {c : Codec G}
    {hashOf : Nat → List Bool}
    {s0 s0' : St0 G P} {s1 s1' : St1 γ} {xs : List P} {ys : List Nat} {ρ : Coins G P κ} {cands : List (Ct G × κ)}
    (hsh : ∀ l, (ρ.shuffle l).Perm l) (hm : ∀ i, NonZero S (ρ.masks i 0))
    (h : exchange F c hashOf S.pk S.sk1 s0 s1 xs ys ρ = .ok (s0', s1', cands)) {N : Nat} (hN : cands.length = N) :
    (∀ w : List G, ways (fun x : (Fin N → Fin (S.q - 1)) × Equiv.Perm (Fin N) =>
        seen S F (seeFirst S) c hashOf s0 s1 xs ys (resample ρ (fun i => tapeOf (x.1 i)) x.2)) (.ok w) ≤
      ways (idealView S.g S.q N (cands.filter (fun x => decrypt S.sk0 x.1 = 0)).length) w) ∧
    ((∀ x : (Fin N → Fin (S.q - 1)) × Equiv.Perm (Fin N),
      ∃ r, seen S F (seeFirst S) c hashOf s0 s1 xs ys (resample ρ (fun i => tapeOf (x.1 i)) x.2) = .ok r) → 
    ∀ w : List G, ways (fun x : (Fin N → Fin (S.q - 1)) × Equiv.Perm (Fin N) =>
        seen S F (seeFirst S) c hashOf s0 s1 xs ys (resample ρ (fun i => tapeOf (x.1 i)) x.2)) (.ok w) =
      ways (idealView S.g S.q N (cands.filter (fun x => decrypt S.sk0 x.1 = 0)).length) w) := by
  obtain ⟨all, out, k1, k2, k3⟩ := exchange_inv h
  obtain ⟨hlen, hz⟩ := zeros_card hF (hsh all) hm k2 k3
  refine ⟨fun w => ?_, fun hall w => ?_⟩
  · refine (seen_ways_le hF (hlen.trans hN) k1 tapeOf w).trans (le_of_eq ?_)
    rw [← hz, ← cand_card all (hlen.trans hN)]
    exact observe_masked S (fun j => S.dec (cand all (hlen.trans hN) j).1) rfl w
  · rw [seen_ways hF (hlen.trans hN) k1 tapeOf hall w, ← hz, ← cand_card all (hlen.trans hN)]
    exact observe_masked S (fun j => S.dec (cand all (hlen.trans hN) j).1) rfl w

theorem funcCA_first (S : Setup G) (c : Codec G) : SeesAs S (funcCA c) (seeFirst S) (fun m x => m 0 • S.dec x.1) := by
    intro m t x w x' hw hx'
    simp only [funcCA, Outcome.bind_eq_ok, Outcome.pure_eq, Outcome.ok.injEq] at hw hx'
    obtain ⟨z, hz, rfl⟩ := hx'
    obtain ⟨p, hp, rfl⟩ := serNoPayload_inv c hw
    rw [seeFirst, serializeCt_deser c hp hz, S.dec_partial, S.dec_exp]

theorem funcSum_first (S : Setup G) (c : Codec G) : SeesAs S (funcSum c) (seeFirst S) (fun m x => m 0 • S.dec x.1) := by
    intro m t x w x' hw hx'
    have := serElGamal_deser c (x := partialDecrypt S.sk1 (exp x.1 (m 0)))
      (k := reRandomize S.pk (t 0) x.2) hw hx'
    subst this
    simp only [seeFirst]
    rw [S.dec_partial, S.dec_exp]

theorem funcSS_first (S : Setup G) (c : Codec G) (mont : Int → Option Mont) (a b : TPaillier) : SeesAs S (funcSS c mont a b) (seeFirst S) (fun m x => m 0 • S.dec x.1) := by
    intro m t x w x' hw hx'
    simp only [funcSS, Outcome.bind_eq_ok, Outcome.pure_eq, Outcome.ok.injEq] at hw
    obtain ⟨e, he, r, _, v, _, rfl⟩ := hw
    simp only [funcSS, deserPaillier, Outcome.bind_eq_ok, Outcome.pure_eq, Outcome.ok.injEq] at hx'
    obtain ⟨z, hz, rfl⟩ := hx'
    rw [seeFirst, serializeCt_deser c he hz, S.dec_partial, S.dec_exp]

theorem serializeCt_ok_iff (c : Codec G) (x : Ct G) : (∃ p, serializeCt c x = .ok p) ↔ x.u ≠ 0 ∧ x.e ≠ 0 := by
  rcases (C29_wire c x) with ⟨h1, h2⟩
  by_cases hx : x.u ≠ 0 ∧ x.e ≠ 0
  · obtain ⟨p', hp, _⟩ := h1 hx
    exact ⟨fun _ => hx, fun _ => ⟨p', hp⟩⟩
  · obtain ⟨m, hm⟩ := h2 (by tauto)
    exact ⟨fun ⟨p, hp⟩ => by rw [hm] at hp; simp at hp, fun h => absurd h hx⟩

/-- Whether a masked candidate can be sent does not depend on the (non-zero) mask. -/
theorem partial_exp_ok {S : Setup G} {x : Ct G} {k l : Int} (hk : NonZero S k) (hl : NonZero S l)
    (h : (partialDecrypt S.sk1 (exp x k)).u ≠ 0 ∧ (partialDecrypt S.sk1 (exp x k)).e ≠ 0) :
    (partialDecrypt S.sk1 (exp x l)).u ≠ 0 ∧ (partialDecrypt S.sk1 (exp x l)).e ≠ 0 := by
  have e : ∀ k : Int, (partialDecrypt S.sk1 (exp x k)).u = k • x.u ∧ (partialDecrypt S.sk1 (exp x k)).e = k • (x.e - S.sk1 • x.u) := by
    intro k
    refine ⟨rfl, ?_⟩
    simp only [partialDecrypt, decrypt, exp]; module
  rw [(e k).1, (e k).2, Ne, Ne, S.smul_zero_iff hk, S.smul_zero_iff hk] at h
  rw [(e l).1, (e l).2, Ne, Ne, S.smul_zero_iff hl, S.smul_zero_iff hl]
  exact h

theorem resample_nz {S : Setup G} {N : Nat} {ρ : Coins G P κ} {tape : Fin N → Tape} {σ : Equiv.Perm (Fin N)}
    (ht : ∀ i, NonZero S (tape i 0)) (i : Nat) : NonZero S ((resample ρ tape σ).masks i 0) := by
  simp only [resample]
  split
  · exact ht _
  · intro (h1 : (S.q : Int) ∣ 1)
    have := Int.le_of_dvd (by omega) h1
    have := S.hq.two_le
    omega

theorem ssLoop_count {mont : Int → Option Mont} {a : TPaillier} {sk0 : Int} {tape : Nat → Tape} : ∀ {i : Nat} {xs : List (Ct G × Int)}
    {sh sh' : List Int} {pays pays' : List (List UInt8)}, ssLoop mont a sk0 tape i xs sh pays = .ok (sh', pays') →
    sh'.length = sh.length + (xs.filter (fun x => decrypt sk0 x.1 = 0)).length
  | _, [], _, _, _, _, h => by
    simp only [ssLoop, Outcome.ok.injEq, Prod.mk.injEq] at h
    rw [h.1]; simp
  | i, x :: xs, sh, sh', pays, pays', h => by
    rw [ssLoop] at h
    by_cases hx : decrypt sk0 x.1 = 0
    · rw [if_pos hx] at h
      simp only [Outcome.bind_eq_ok] at h
      obtain ⟨_, _, _, _, _, _, _, _, _, _, h⟩ := h
      have := ssLoop_count h
      rw [List.filter_cons_of_pos (by simpa using hx)]
      simp only [List.length_append, List.length_cons, List.length_nil] at this ⊢
      omega
    · rw [if_neg hx] at h
      rw [List.filter_cons_of_neg (by simpa using hx)]
      exact ssLoop_count h

/-- If a day of the cardinality protocol completes, it completes for all other masks and shuffles. -/
theorem ca_total' {S : Setup G} {c : Codec G} {hashOf : Nat → List Bool}
    {s0 s0' : St0 G Nat} {s1 s1' : St1 (Ct G)} {xs ys : List Nat} {ρ : Coins G Nat Unit} {cands : List (Ct G × Unit)}
    (hsh : ∀ l, (ρ.shuffle l).Perm l) (hm : ∀ i, NonZero S (ρ.masks i 0))
    (h : exchange (funcCA c) c hashOf S.pk S.sk1 s0 s1 xs ys ρ = .ok (s0', s1', cands)) {N : Nat} (tape : Fin N → Tape)
    (ht : ∀ i, NonZero S (tape i 0)) (σ : Equiv.Perm (Fin N)) :
    ∃ r, exchange (funcCA c) c hashOf S.pk S.sk1 s0 s1 xs ys (resample ρ tape σ) = .ok (s0', s1', r) := by
  obtain ⟨all, out, k1, k2, k3⟩ := exchange_inv h
  have hgood : ∀ x ∈ all, ∃ k, NonZero S k ∧ (partialDecrypt S.sk1 (exp x.1 k)).u ≠ 0 ∧ (partialDecrypt S.sk1 (exp x.1 k)).e ≠ 0 := by
    intro x hx
    obtain ⟨k, hk, rfl⟩ := List.mem_iff_getElem.1 ((hsh all).symm.subset hx)
    have hk' : k < out.length := by rw [(forIdx_get _ _ _ k2).1]; simpa using hk
    have := (forIdx_get _ _ _ k2).2 k (by simpa using hk) hk'
    simp only [funcCA, List.getElem_mapIdx] at this
    obtain ⟨p, hp, _⟩ := serNoPayload_inv c this
    exact ⟨_, hm k, (serializeCt_ok_iff c _).1 ⟨p, hp⟩⟩
  have hmask : ∀ i, NonZero S ((resample ρ tape σ).masks i 0) := fun i => resample_nz ht i
  have hsend : ∀ i, ∀ x ∈ all, ∃ p, serializeCt c (partialDecrypt S.sk1 (exp x.1 ((resample ρ tape σ).masks i 0))) = .ok p := by
    intro i x hx
    obtain ⟨k, hk, hk'⟩ := hgood x hx
    exact (serializeCt_ok_iff c _).2 (partial_exp_ok hk (hmask i) hk')
  obtain ⟨out', ho⟩ := forIdx_total (f := fun i x => (funcCA c).send S.pk S.sk1 (ρ.send i) x)
    (((resample ρ tape σ).shuffle all).mapIdx (fun i x => (funcCA c).mask ((resample ρ tape σ).masks i) x)) 0 (fun k hk => by
      simp only [List.length_mapIdx] at hk
      obtain ⟨p, hp⟩ := hsend k _ ((permuteBy_perm σ all).subset (List.getElem_mem hk))
      refine ⟨.noPayload p, ?_⟩
      simp only [List.getElem_mapIdx, funcCA, serNoPayload]
      rw [hp]; rfl)
  obtain ⟨cs, hcs⟩ := forIdx_total (f := fun _ w => (funcCA c).deser w) out' 0 (fun k hk => by
      have hk' : k < ((resample ρ tape σ).shuffle all).length := by
        have := (forIdx_get _ _ _ ho).1
        rw [List.length_mapIdx] at this; omega
      have h1 := (forIdx_get _ _ _ ho).2 k (by simpa using hk') hk
      simp only [funcCA, List.getElem_mapIdx] at h1
      obtain ⟨p, hp, hw⟩ := serNoPayload_inv c h1
      obtain ⟨p', hp', hd⟩ := (C29_wire c _).1 ((serializeCt_ok_iff c _).1 ⟨p, hp⟩)
      rw [hp] at hp'
      obtain rfl := Outcome.ok.inj hp'
      rw [hw]
      exact ⟨_, by simp only [funcCA, deserNoPayload, hd, Outcome.bind_ok, Outcome.pure_eq]; rfl⟩)
  exact ⟨_, exchange_resample tape σ h k1 ho hcs⟩

theorem ca_total {S : Setup G} {c : Codec G} {hashOf : Nat → List Bool}
    {s0 s0' : St0 G Nat} {s1 s1' : St1 (Ct G)} {xs ys : List Nat} {ρ : Coins G Nat Unit} {cands : List (Ct G × Unit)}
    (hsh : ∀ l, (ρ.shuffle l).Perm l) (hm : ∀ i, NonZero S (ρ.masks i 0))
    (h : exchange (funcCA c) c hashOf S.pk S.sk1 s0 s1 xs ys ρ = .ok (s0', s1', cands)) {N : Nat} (tape : Fin N → Tape)
    (ht : ∀ i, NonZero S (tape i 0)) (σ : Equiv.Perm (Fin N)) :
    ∃ r, exchange (funcCA c) c hashOf S.pk S.sk1 s0 s1 xs ys (resample ρ tape σ) = .ok r := by
  obtain ⟨r, hr⟩ := ca_total' hsh hm h tape ht σ
  exact ⟨_, hr⟩

end Upsi.View
