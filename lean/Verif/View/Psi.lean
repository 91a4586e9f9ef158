import Verif.View.Add
/- C64: the intersection protocol. -/
namespace Upsi.View
open Upsi Upsi.ElGamal Upsi.Tree Upsi.Num Upsi.Proto

variable {G : Type} [AddCommGroup G] [DecidableEq G]

/-- A doubly masked candidate. -/
def masked2 {q : Nat} (k : Fin (q - 1) × Fin (q - 1)) (d : G × G) : G × G :=
  (maskOf k.1 • d.1, d.2 + maskOf k.2 • maskOf k.1 • d.1)

/-- A candidate of the ideal view. -/
def ideal2 (g : G) {q : Nat} (k : Fin (q - 1) × Fin (q - 1)) (d : Bool × G) : G × G :=
  if d.1 then (0, d.2) else (maskOf k.1 • g, d.2 + maskOf k.2 • g)

/-- How many pairs of masks show `w`. -/
def cnt2 (q : Nat) (cl : Bool × G) (w : G × G) : Nat :=
  if cl.1 then (if w = (0, cl.2) then (q - 1) * (q - 1) else 0) else (if w.1 ≠ 0 ∧ w.2 ≠ cl.2 then 1 else 0)

theorem pair_card (S : Setup G) {V : Fin (S.q - 1) × Fin (S.q - 1) → G × G} {p : G} {w : G × G}
    (h0 : ∀ k, (V k).1 ≠ 0 ∧ (V k).2 ≠ p)
    (h : w.1 ≠ 0 → w.2 ≠ p → ∃ k, ∀ l, V l = w ↔ l = k) :
    Fintype.card {k // V k = w} = if w.1 ≠ 0 ∧ w.2 ≠ p then 1 else 0 := by
  by_cases hw : w.1 ≠ 0 ∧ w.2 ≠ p
  · rw [if_pos hw]
    obtain ⟨k, hk⟩ := h hw.1 hw.2
    rw [Fintype.card_congr (Equiv.subtypeEquivRight hk)]
    exact Fintype.card_unique
  · rw [if_neg hw, Fintype.card_eq_zero_iff]
    exact ⟨fun k => hw (by rw [← k.2]; exact h0 k.1)⟩

theorem masked2_card (S : Setup G) (d w : G × G) :
    Fintype.card {k : Fin (S.q - 1) × Fin (S.q - 1) // masked2 k d = w} = cnt2 S.q (decide (d.1 = 0), d.2) w := by
  obtain ⟨d, p⟩ := d
  unfold cnt2
  by_cases hd : d = 0
  · subst hd
    have e : ∀ k : Fin (S.q - 1) × Fin (S.q - 1), masked2 k ((0 : G), p) = (0, p) := fun k => by simp [masked2]
    simp only [decide_true, if_true]
    by_cases hw : w = (0, p)
    · rw [if_pos hw, hw, Fintype.card_congr (Equiv.subtypeUnivEquiv e), Fintype.card_prod, Fintype.card_fin]
    · rw [if_neg hw, Fintype.card_eq_zero_iff]
      exact ⟨fun k => hw (by rw [← k.2, e])⟩
  · simp only [hd, decide_false, Bool.false_eq_true, if_false]
    refine pair_card S (fun k => ?_) (fun h1 h2 => ?_)
    · have a : maskOf k.1 • d ≠ 0 := fun h => hd ((S.smul_zero_iff (mask_pos k.1) d).1 h)
      refine ⟨a, fun h => a ((S.smul_zero_iff (mask_pos k.2) _).1 ?_)⟩
      simpa [masked2] using h
    · obtain ⟨k1, hk1⟩ := mask_unique S hd h1
      obtain ⟨k2, hk2⟩ := mask_unique S h1 (sub_ne_zero.2 h2)
      refine ⟨(k1, k2), fun l => ?_⟩
      have e : masked2 l (d, p) = w ↔ masked l.1 d = w.1 ∧ masked l.2 w.1 = w.2 - p := by
        simp only [masked2, masked, Prod.ext_iff]
        refine and_congr_right fun h => ?_
        rw [h, eq_sub_iff_add_eq']
      rw [e, hk1, hk2, Prod.ext_iff]

theorem ideal2_card (S : Setup G) (d : Bool × G) (w : G × G) :
    Fintype.card {k : Fin (S.q - 1) × Fin (S.q - 1) // ideal2 S.g k d = w} = cnt2 S.q d w := by
  obtain ⟨b, p⟩ := d
  unfold cnt2
  cases b with
  | true =>
    have e : ∀ k : Fin (S.q - 1) × Fin (S.q - 1), ideal2 S.g k (true, p) = (0, p) := fun k => rfl
    simp only [if_true]
    by_cases hw : w = (0, p)
    · rw [if_pos hw, hw, Fintype.card_congr (Equiv.subtypeUnivEquiv e), Fintype.card_prod, Fintype.card_fin]
    · rw [if_neg hw, Fintype.card_eq_zero_iff]
      exact ⟨fun k => hw (by rw [← k.2, e])⟩
  | false =>
    simp only [Bool.false_eq_true, if_false]
    have hne : ∀ k : Fin (S.q - 1), maskOf k • S.g ≠ 0 := fun k h => S.hg0 ((S.smul_zero_iff (mask_pos k) S.g).1 h)
    refine pair_card S (fun k => ?_) (fun h1 h2 => ?_)
    · refine ⟨hne k.1, fun h => hne k.2 ?_⟩
      simpa [ideal2] using h
    · obtain ⟨k1, hk1⟩ := mask_unique S S.hg0 h1
      obtain ⟨k2, hk2⟩ := mask_unique S S.hg0 (sub_ne_zero.2 h2)
      refine ⟨(k1, k2), fun l => ?_⟩
      have e : ideal2 S.g l (false, p) = w ↔ masked l.1 S.g = w.1 ∧ masked l.2 S.g = w.2 - p := by
        simp only [ideal2, masked, Prod.ext_iff, Bool.false_eq_true, if_false]
        rw [eq_sub_iff_add_eq']
      rw [e, hk1, hk2, Prod.ext_iff]

theorem idealView2_eq (g : G) {q N : Nat} (items : Fin N → Bool × G) (x : (Fin N → Fin (q - 1) × Fin (q - 1)) × Equiv.Perm (Fin N)) :
    idealView2 g q items x = List.ofFn (observe (ideal2 g (q := q)) items x) := rfl

/-- Masking and shuffling hide everything but the kinds of the candidates. -/
theorem observe_masked2 (S : Setup G) {N : Nat} (D : Fin N → G × G) {items : Fin N → Bool × G}
    (hp : (List.ofFn (fun j => (decide ((D j).1 = 0), (D j).2))).Perm (List.ofFn items)) (w : List (G × G)) :
    ways (fun x => List.ofFn (observe (masked2 (q := S.q)) D x)) w = ways (idealView2 S.g S.q items) w := by
  obtain ⟨τ, hτ⟩ := exists_relabel_of_perm hp
  rw [ways_congr (fun x => idealView2_eq S.g items x)]
  refine ways_ofFn (fun w => ?_) w
  exact observe_card_eq (cl := fun d : G × G => (decide (d.1 = 0), d.2)) (cl' := id)
    (f := cnt2 S.q) (fun i w => masked2_card S _ w) (fun i w => ideal2_card S _ w) τ hτ w

theorem funcPSI_both (S : Setup G) (c cu : Codec G) : SeesAs S (funcPSI c cu) (seeBoth S)
    (fun m x => (m 0 • S.dec x.1, S.dec x.2 + m 1 • m 0 • S.dec x.1)) := by
  intro m t x w x' hw hx'
  have := serElGamal_deser c (x := partialDecrypt S.sk1 (exp x.1 (m 0)))
    (k := partialDecrypt S.sk1 (mul x.2 (exp (exp x.1 (m 0)) (m 1)))) hw hx'
  subst this
  simp only [seeBoth]
  rw [S.dec_partial, S.dec_partial, S.dec_mul, S.dec_exp (exp x.1 (m 0)), S.dec_exp]

/-! ### how often the day fails -/

/-- If for every permutation and every first mask at most one second mask is bad at position `i`, at most one draw in
`card B` is bad at position `i`. -/
theorem bad_card {N : Nat} {A B : Type} [Fintype A] [Fintype B] [DecidableEq B] (R : Fin N → A → B → Prop)
    (hR : ∀ j a b b', R j a b → R j a b' → b = b') (i : Fin N)
    [DecidablePred fun x : (Fin N → A × B) × Equiv.Perm (Fin N) => R (x.2 i) (x.1 i).1 (x.1 i).2] :
    Fintype.card {x : (Fin N → A × B) × Equiv.Perm (Fin N) // R (x.2 i) (x.1 i).1 (x.1 i).2} * Fintype.card B ≤
      Fintype.card ((Fin N → A × B) × Equiv.Perm (Fin N)) := by
  rw [← Fintype.card_prod]
  refine Fintype.card_le_of_injective (fun z => (Function.update z.1.1.1 i ((z.1.1.1 i).1, z.2), z.1.1.2)) ?_
  rintro ⟨⟨⟨k, σ⟩, hx⟩, b⟩ ⟨⟨⟨k', σ'⟩, hx'⟩, b'⟩ h
  simp only [Prod.mk.injEq] at h
  obtain ⟨h1, rfl⟩ := h
  have hi := congrFun h1 i
  simp only [Function.update_self, Prod.mk.injEq] at hi
  obtain ⟨ha, rfl⟩ := hi
  simp only at hx hx'
  have hb : (k i).2 = (k' i).2 := hR _ _ _ _ hx (ha ▸ hx')
  have hk : k = k' := by
    funext j
    by_cases hj : j = i
    · subst hj; exact Prod.ext ha hb
    · have := congrFun h1 j
      simpa [Function.update_of_ne hj] using this
  subst hk
  rfl

/-- `a + k₂ • k₁ • b = 0` determines `k₂`. -/
theorem shift_unique (S : Setup G) {a b : G} (hb : b ≠ 0) (k : Fin (S.q - 1)) (l l' : Fin (S.q - 1))
    (h : a + maskOf l • maskOf k • b = 0) (h' : a + maskOf l' • maskOf k • b = 0) : l = l' := by
  have h0 : maskOf k • b ≠ 0 := fun h => hb ((S.smul_zero_iff (mask_pos k) b).1 h)
  have e : masked l (maskOf k • b) = -a := (neg_eq_of_add_eq_zero_right h).symm
  have e' : masked l' (maskOf k • b) = -a := (neg_eq_of_add_eq_zero_right h').symm
  have hn : -a ≠ 0 := fun hz => by
    rw [hz] at e
    exact h0 ((S.smul_zero_iff (mask_pos l) _).1 e)
  obtain ⟨m, hm⟩ := mask_unique S h0 hn
  rw [(hm l).1 e, (hm l').1 e']

/-- What is sent as second component. -/
theorem second_eq (sk : Int) (f p : Ct G) (k l : Int) :
    (partialDecrypt sk (mul p (exp (exp f k) l))).u = p.u + l • k • f.u ∧
      (partialDecrypt sk (mul p (exp (exp f k) l))).e = (p.e - sk • p.u) + l • k • (f.e - sk • f.u) := by
  constructor
  · simp only [partialDecrypt, decrypt, exp, mul]
  · simp only [partialDecrypt, decrypt, exp, mul]; module

/-- The draws under which candidate `y` cannot be sent. -/
def badU (S : Setup G) (y : Ct G × Ct G) (k l : Fin (S.q - 1)) : Prop := y.2.u + maskOf l • maskOf k • y.1.u = 0
/-- The draws under which candidate `y` cannot be sent. -/
def badE (S : Setup G) (y : Ct G × Ct G) (k l : Fin (S.q - 1)) : Prop :=
  (y.2.e - S.sk1 • y.2.u) + maskOf l • maskOf k • (y.1.e - S.sk1 • y.1.u) = 0

instance (S : Setup G) (y : Ct G × Ct G) (k l : Fin (S.q - 1)) : Decidable (badU S y k l) := inferInstanceAs (Decidable (_ = _))
instance (S : Setup G) (y : Ct G × Ct G) (k l : Fin (S.q - 1)) : Decidable (badE S y k l) := inferInstanceAs (Decidable (_ = _))

/-- If a day of the intersection protocol completes, its candidates have non-zero first components, and it also
completes with other masks and shuffles unless one of the candidates becomes the point at infinity. -/
theorem psi_total {S : Setup G} {c cu : Codec G} {hashOf : Nat → List Bool}
    {s0 s0' : St0 G Nat} {s1 s1' : St1 (Ct G)} {xs ys : List Nat} {ρ : Coins G Nat (Ct G)} {cands all : List (Ct G × Ct G)}
    (hsh : ∀ l, (ρ.shuffle l).Perm l) (hm : ∀ i, NonZero S (ρ.masks i 0))
    (h : exchange (funcPSI c cu) c hashOf S.pk S.sk1 s0 s1 xs ys ρ = .ok (s0', s1', cands))
    (hpre : preCands (funcPSI c cu) hashOf S.pk s0 s1 xs ys ρ = .ok all) :
    (∀ y ∈ all, y.1.u ≠ 0 ∧ y.1.e - S.sk1 • y.1.u ≠ 0) ∧
    ∀ {N : Nat} (hN : all.length = N) (x : (Fin N → Fin (S.q - 1) × Fin (S.q - 1)) × Equiv.Perm (Fin N)),
      (∀ i, ¬ badU S (cand all hN (x.2 i)) (x.1 i).1 (x.1 i).2 ∧ ¬ badE S (cand all hN (x.2 i)) (x.1 i).1 (x.1 i).2) →
      ∃ r, exchange (funcPSI c cu) c hashOf S.pk S.sk1 s0 s1 xs ys (resample ρ (fun i => tapeOf2 (x.1 i)) x.2) = .ok r := by
  obtain ⟨all', out, k1, k2, k3⟩ := exchange_inv h
  rw [hpre] at k1
  obtain rfl := Outcome.ok.inj k1
  have e : ∀ (x : Ct G) (k : Int), (partialDecrypt S.sk1 (exp x k)).u = k • x.u ∧ (partialDecrypt S.sk1 (exp x k)).e = k • (x.e - S.sk1 • x.u) := by
    intro x k
    refine ⟨rfl, ?_⟩
    simp only [partialDecrypt, decrypt, exp]; module
  have hgood : ∀ y ∈ all, y.1.u ≠ 0 ∧ y.1.e - S.sk1 • y.1.u ≠ 0 := by
    intro x hx
    obtain ⟨k, hk, rfl⟩ := List.mem_iff_getElem.1 ((hsh all).symm.subset hx)
    have hk' : k < out.length := by rw [(forIdx_get _ _ _ k2).1]; simpa using hk
    have := (forIdx_get _ _ _ k2).2 k (by simpa using hk) hk'
    simp only [funcPSI, List.getElem_mapIdx, serElGamal, Outcome.bind_eq_ok] at this
    obtain ⟨a, ha, _⟩ := this
    have := (serializeCt_ok_iff c _).1 ⟨a, ha⟩
    rw [(e _ _).1, (e _ _).2, Ne, Ne, S.smul_zero_iff (hm k), S.smul_zero_iff (hm k)] at this
    exact this
  refine ⟨hgood, fun {N} hN x hx => ?_⟩
  have hsend : ∀ (k : Nat) (hk : k < ((permuteBy x.2 all).mapIdx (fun i y => (funcPSI c cu).mask
      ((resample ρ (fun i => tapeOf2 (x.1 i)) x.2).masks i) y)).length), ∃ w, (funcPSI c cu).send S.pk S.sk1 (ρ.send k)
        (((permuteBy x.2 all).mapIdx (fun i y => (funcPSI c cu).mask ((resample ρ (fun i => tapeOf2 (x.1 i)) x.2).masks i) y))[k]) = .ok w ∧
        ∃ z, (funcPSI c cu).deser w = .ok z := by
    intro k hk
    have hkN : k < N := by
      simp only [List.length_mapIdx] at hk
      rw [(permuteBy_perm x.2 all).length_eq, hN] at hk; exact hk
    have hget : ((permuteBy x.2 all).mapIdx (fun i y => (funcPSI c cu).mask ((resample ρ (fun i => tapeOf2 (x.1 i)) x.2).masks i) y))[k] =
        (funcPSI c cu).mask (tapeOf2 (x.1 ⟨k, hkN⟩)) (cand all hN (x.2 ⟨k, hkN⟩)) := by
      rw [List.getElem_mapIdx]
      have h1 : (resample ρ (fun i => tapeOf2 (x.1 i)) x.2).masks k = tapeOf2 (x.1 ⟨k, hkN⟩) := by
        simp only [resample, dif_pos hkN]
      rw [h1]
      congr 1
      simp only [permuteBy, dif_pos hN, List.getElem_ofFn, cand]
    rw [hget]
    generalize hy : cand all hN (x.2 ⟨k, hkN⟩) = y at *
    have hmem : y ∈ all := by rw [← hy]; exact List.getElem_mem _
    obtain ⟨b1, b2⟩ := hx ⟨k, hkN⟩
    rw [hy] at b1 b2
    have g1 := hgood y hmem
    generalize x.1 ⟨k, hkN⟩ = kk at *
    have w1 : (partialDecrypt S.sk1 (exp y.1 (maskOf kk.1))).u ≠ 0 ∧ (partialDecrypt S.sk1 (exp y.1 (maskOf kk.1))).e ≠ 0 := by
      rw [(e _ _).1, (e _ _).2, Ne, Ne, S.smul_zero_iff (mask_pos _), S.smul_zero_iff (mask_pos _)]
      exact g1
    have w2 : (partialDecrypt S.sk1 (mul y.2 (exp (exp y.1 (maskOf kk.1)) (maskOf kk.2)))).u ≠ 0 ∧
        (partialDecrypt S.sk1 (mul y.2 (exp (exp y.1 (maskOf kk.1)) (maskOf kk.2)))).e ≠ 0 := by
      rw [(second_eq _ _ _ _ _).1, (second_eq _ _ _ _ _).2]
      exact ⟨b1, b2⟩
    obtain ⟨a, ha, ha'⟩ := (C29_wire c _).1 w1
    obtain ⟨b, hb, hb'⟩ := (C29_wire c _).1 w2
    refine ⟨.elgamal a b, ?_, (partialDecrypt S.sk1 (exp y.1 (maskOf kk.1)),
      partialDecrypt S.sk1 (mul y.2 (exp (exp y.1 (maskOf kk.1)) (maskOf kk.2)))), ?_⟩
    · show serElGamal c (partialDecrypt S.sk1 (exp y.1 (maskOf kk.1)))
        (partialDecrypt S.sk1 (mul y.2 (exp (exp y.1 (maskOf kk.1)) (maskOf kk.2)))) = _
      simp only [serElGamal, ha, hb, Outcome.bind_ok, Outcome.pure_eq]
    · simp only [funcPSI, deserElGamal, ha', hb', Outcome.bind_ok, Outcome.pure_eq]
  obtain ⟨out', ho⟩ := forIdx_total (f := fun i x => (funcPSI c cu).send S.pk S.sk1 (ρ.send i) x)
    (((resample ρ (fun i => tapeOf2 (x.1 i)) x.2).shuffle all).mapIdx (fun i y => (funcPSI c cu).mask
      ((resample ρ (fun i => tapeOf2 (x.1 i)) x.2).masks i) y)) 0 (fun k hk => by
      obtain ⟨w, hw, _⟩ := hsend k hk
      exact ⟨w, by rw [Nat.zero_add]; exact hw⟩)
  obtain ⟨cs, hcs⟩ := forIdx_total (f := fun _ w => (funcPSI c cu).deser w) out' 0 (fun k hk => by
      obtain ⟨q1, q2⟩ := forIdx_get _ _ _ ho
      obtain ⟨w, hw, z, hz⟩ := hsend k (q1 ▸ hk)
      have h1 := q2 k (q1 ▸ hk) hk
      rw [Nat.zero_add] at h1
      have : out'[k] = w := Outcome.ok.inj (h1.symm.trans hw)
      exact ⟨z, by rw [this]; exact hz⟩)
  exact ⟨_, exchange_resample _ _ h hpre ho hcs⟩

/-- The number of matches of a day of the intersection protocol. -/
theorem psiLoop_length {cu : Codec G} {sk0 : Int} {m : Mapping} : ∀ {l : List (Ct G × Ct G)} {out out' : List (Option Nat)},
    psiLoop cu sk0 m l out = .ok out' → out'.length = out.length + (l.filter (fun x => decrypt sk0 x.1 = 0)).length
  | [], _, _, h => by
    simp only [psiLoop, Outcome.ok.injEq] at h
    rw [h]; simp
  | x :: l, out, out', h => by
    rw [psiLoop] at h
    by_cases hx : decrypt sk0 x.1 = 0
    · rw [if_pos hx] at h
      simp only [Outcome.bind_eq_ok] at h
      obtain ⟨k, _, h⟩ := h
      rw [psiLoop_length h, List.filter_cons_of_pos (by simpa using hx)]
      simp only [List.length_append, List.length_cons, List.length_nil]
      omega
    · rw [if_neg hx] at h
      rw [List.filter_cons_of_neg (by simpa using hx)]
      exact psiLoop_length h

/-- **C64** (intersection) Take any states and any day that completes with non-zero masks and any shuffle.  Describe
each candidate party one holds before masking by whether it is a match and by the element of party zero that is
attached to it (`items`).  If both masks of every candidate are drawn uniformly from `[1, q - 1]` and the permutation
uniformly, then no view of party zero (both plaintexts of all candidates) is more likely than in the ideal experiment,
which only knows `items`; the ideal distribution does not depend on the order of `items`; and the probability that the
day fails instead of showing the ideal view is at most `2 N / (q - 1)` for `N` candidates. -/
theorem C64_psi_view (S : Setup G) (c cu : Codec G) (hashOf : Nat → List Bool) (s s' : StPSI G) (d : DayIn G Nat (Ct G))
    (hsh : ∀ l, (d.coins.shuffle l).Perm l) (hm : ∀ i, NonZero S (d.coins.masks i 0))
    (h : dayPSI c cu hashOf S.pk S.sk0 S.sk1 s d.xs d.ys d.coins = .ok s') :
    ∃ v all, ∃ items : Fin v.length → Bool × G, viewPSI S c cu hashOf s d = .ok v ∧
      preCands (funcPSI c cu) hashOf S.pk s.p0 s.p1 d.xs d.ys d.coins = .ok all ∧
      List.ofFn items = all.map (fun x => (decide (S.dec x.1 = 0), S.dec x.2)) ∧
      s'.intersection.length - s.intersection.length = ((List.ofFn items).filter (fun x => x.1)).length ∧
      (∀ w, ways (fun x : (Fin v.length → Fin (S.q - 1) × Fin (S.q - 1)) × Equiv.Perm (Fin v.length) =>
          viewPSI S c cu hashOf s (redraw tapeOf2 d x)) (.ok w) ≤ ways (idealView2 S.g S.q items) w) ∧
      (∀ items' : Fin v.length → Bool × G, (List.ofFn items').Perm (List.ofFn items) → ∀ w,
          ways (idealView2 S.g S.q items') w = ways (idealView2 S.g S.q items) w) ∧
      Fintype.card {x : (Fin v.length → Fin (S.q - 1) × Fin (S.q - 1)) × Equiv.Perm (Fin v.length) //
          (viewPSI S c cu hashOf s (redraw tapeOf2 d x)).isOk = false} * (S.q - 1) ≤
        2 * v.length * Fintype.card ((Fin v.length → Fin (S.q - 1) × Fin (S.q - 1)) × Equiv.Perm (Fin v.length)) := by
  simp only [dayPSI, Outcome.bind_eq_ok, Outcome.pure_eq, Outcome.ok.injEq] at h
  obtain ⟨m, _, ⟨p0, p1, cands⟩, he, out, ho, rfl⟩ := h
  obtain ⟨all, out1, k1, k2, k3⟩ := exchange_inv he
  have hF : SeesAs S (funcPSI c cu) (seeFirst S) (fun m x => m 0 • S.dec x.1) := fun m t x w x' h1 h2 =>
    congrArg Prod.fst (funcPSI_both S c cu m t x w x' h1 h2)
  obtain ⟨hlen, hz⟩ := zeros_card hF (hsh all) hm k2 k3
  have hN : all.length = (cands.map (seeBoth S)).length := by rw [List.length_map]; exact hlen
  refine ⟨_, all, fun j => (decide (S.dec (cand all hN j).1 = 0), S.dec (cand all hN j).2), seen_of_exchange he, k1,
    ofFn_cand (fun x => (decide (S.dec x.1 = 0), S.dec x.2)) all hN, ?_, fun w => ?_, fun items' hp w => ?_, ?_⟩
  · rw [ofFn_cand (fun x => (decide (S.dec x.1 = 0), S.dec x.2)) all hN, psiLoop_length ho, ← hz, Nat.add_sub_cancel_left, List.filter_map,
      List.length_map]
    rfl
  · refine (seen_ways_le (funcPSI_both S c cu) hN k1 tapeOf2 w).trans (le_of_eq ?_)
    exact observe_masked2 S (fun j => (S.dec (cand all hN j).1, S.dec (cand all hN j).2)) (List.Perm.refl _) w
  · obtain ⟨τ, hτ⟩ := exists_relabel_of_perm hp
    rw [ways_congr (fun x => idealView2_eq S.g items' x), ways_congr (fun x => idealView2_eq S.g _ x)]
    exact ways_ofFn (fun w => observe_card_eq (cl := id) (cl' := id) (f := cnt2 S.q) (fun i w => ideal2_card S _ w)
      (fun i w => ideal2_card S _ w) τ hτ w) w
  · generalize (cands.map (seeBoth S)).length = N at hN ⊢
    obtain ⟨hg, ht⟩ := psi_total hsh hm he k1
    have hbad : ∀ x : (Fin N → Fin (S.q - 1) × Fin (S.q - 1)) × Equiv.Perm (Fin N),
        (viewPSI S c cu hashOf s (redraw tapeOf2 d x)).isOk = false →
        ∃ i, badU S (cand all hN (x.2 i)) (x.1 i).1 (x.1 i).2 ∨ badE S (cand all hN (x.2 i)) (x.1 i).1 (x.1 i).2 := by
      intro x hx
      by_contra hc
      push_neg at hc
      obtain ⟨r, hr⟩ := ht hN x hc
      have e : viewPSI S c cu hashOf s (redraw tapeOf2 d x) = .ok _ := seen_of_exchange hr
      rw [e] at hx
      simp [Outcome.isOk] at hx
    have hmem : ∀ j, cand all hN j ∈ all := fun j => List.getElem_mem _
    have hU := fun i => bad_card (fun j a b => badU S (cand all hN j) a b)
      (fun j a b b' h h' => shift_unique S (hg _ (hmem j)).1 a b b' h h') i
    have hE := fun i => bad_card (fun j a b => badE S (cand all hN j) a b)
      (fun j a b b' h h' => shift_unique S (hg _ (hmem j)).2 a b b' h h') i
    simp only [Fintype.card_fin] at hU hE
    set T := Fintype.card ((Fin N → Fin (S.q - 1) × Fin (S.q - 1)) × Equiv.Perm (Fin N)) with hT
    have hsum : Fintype.card {x : (Fin N → Fin (S.q - 1) × Fin (S.q - 1)) × Equiv.Perm (Fin N) //
        (viewPSI S c cu hashOf s (redraw tapeOf2 d x)).isOk = false} ≤
        ∑ i : Fin N, (Fintype.card {x : (Fin N → Fin (S.q - 1) × Fin (S.q - 1)) × Equiv.Perm (Fin N) //
            badU S (cand all hN (x.2 i)) (x.1 i).1 (x.1 i).2} +
          Fintype.card {x : (Fin N → Fin (S.q - 1) × Fin (S.q - 1)) × Equiv.Perm (Fin N) //
            badE S (cand all hN (x.2 i)) (x.1 i).1 (x.1 i).2}) := by
      simp only [Fintype.card_subtype]
      refine (Finset.card_le_card (t := Finset.univ.biUnion fun i : Fin N =>
        (Finset.univ.filter fun x : (Fin N → Fin (S.q - 1) × Fin (S.q - 1)) × Equiv.Perm (Fin N) =>
          badU S (cand all hN (x.2 i)) (x.1 i).1 (x.1 i).2) ∪
        (Finset.univ.filter fun x : (Fin N → Fin (S.q - 1) × Fin (S.q - 1)) × Equiv.Perm (Fin N) =>
          badE S (cand all hN (x.2 i)) (x.1 i).1 (x.1 i).2)) ?_).trans
        (Finset.card_biUnion_le.trans (Finset.sum_le_sum fun i _ => Finset.card_union_le _ _))
      intro x hx
      obtain ⟨i, hi⟩ := hbad x (Finset.mem_filter.1 hx).2
      simp only [Finset.mem_biUnion, Finset.mem_univ, true_and, Finset.mem_union, Finset.mem_filter]
      exact ⟨i, hi⟩
    refine (Nat.mul_le_mul_right _ hsum).trans ?_
    rw [Finset.sum_mul]
    refine (Finset.sum_le_sum (g := fun _ => 2 * T) fun i _ => ?_).trans ?_
    · rw [Nat.add_mul]
      have := hU i; have := hE i
      omega
    · rw [Finset.sum_const, Finset.card_univ, Fintype.card_fin, smul_eq_mul]
      exact le_of_eq (by ring)

end Upsi.View
