import Verif.Mock.Lemmas
import Verif.Proto.AddProps
/-
Helper lemmas for C78: the candidate exchange of the addition-only protocols when some ciphertexts in the copies of the
trees encrypt zero instead of the entry they stand for.
-/
namespace Upsi.Mock
open Upsi Upsi.ElGamal Upsi.Tree Upsi.Num Upsi.Proto

variable {α β γ κ P G : Type} [AddCommGroup G] [DecidableEq G]

/-- Invariant of the two parties' trees: like `Inv`, but an entry of party zero (one) whose element does not satisfy
`N0` (`N1`) may be mirrored by an encryption of zero. -/
structure InvN (N0 N1 : Nat → Prop) (S : Setup G) (F : Func G P γ κ) (Pay : P → κ → Prop) (hashOf : Nat → List Bool)
    (B : Nat) (X : List P) (Y : List Nat) (s0 : St0 G P) (s1 : St1 γ) : Prop where
  wf0 : TWF (fun p => hashOf (F.key p)) s0.my
  wf1 : TWF hashOf s1.my
  size0 : s0.my.actualSize = X.length
  size1 : s1.my.actualSize = Y.length
  all0 : (s0.my.contents ++ s0.lost).Perm X
  all1 : (s1.my.contents ++ s1.lost).Perm Y
  mir0 : Mirror (fun p c => (S.dec (F.first c) = (F.key p : Int) • S.g ∧ Pay p (F.second c)) ∨
      (¬ N0 (F.key p) ∧ S.dec (F.first c) = 0))
    (fun p => B ≤ F.key p ∧ F.key p < S.q) s0.my s1.other
  mir1 : Mirror (fun (y : Nat) c => S.dec c = (y : Int) • S.g ∨ (¬ N1 y ∧ S.dec c = 0)) (fun y => B ≤ y ∧ y < S.q)
    s1.my s0.other

/-- The relation between an abstract pair (entry of party zero, element of party one) and a
candidate before masking. -/
def CandRelN (S : Setup G) (key : P → Nat) (Pay : P → κ → Prop) (pr : P × Nat) (x : Ct G × κ) : Prop :=
  (S.dec x.1 = 0 ↔ key pr.1 = pr.2) ∧ (key pr.1 = pr.2 → Pay pr.1 x.2)

theorem exchangeN_spec {N0 N1 : Nat → Prop} {S : Setup G} {F : Func G P γ κ} {Pay Pay' : P → κ → Prop}
    {Good : Tape → Prop} (hF : FuncOK S F Pay Pay' Good) (c : Codec G) {hashOf : Nat → List Bool}
    (hh : ∀ e, (hashOf e).length = 256) {B : Nat} (hB : B ≤ S.q) {X xs : List P} {Y ys : List Nat}
    {s0 s0' : St0 G P} {s1 s1' : St1 γ} (hI : InvN N0 N1 S F Pay hashOf B X Y s0 s1)
    {ρ : Coins G P κ} (h00 : ∀ k, ¬ N0 k → ¬ N0 0)
    (h10 : ∀ k, ¬ N1 k → ¬ N1 0) (hNx : ∀ p ∈ xs, N1 (F.key p)) (hNy : ∀ y ∈ ys, N0 y)
    (hρ : ρ.WF S F.key B Good xs ys)
    (hX : ∀ p ∈ X ++ xs, F.key p < B) (hY : ∀ y ∈ Y ++ ys, y < B)
    (ht0 : (X ++ xs).length < 2 ^ 30) (ht1 : (Y ++ ys).length < 2 ^ 30)
    {cands : List (Ct G × κ)}
    (h : exchange F c hashOf S.pk S.sk1 s0 s1 xs ys ρ = .ok (s0', s1', cands)) :
    InvN N0 N1 S F Pay hashOf B (X ++ xs) (Y ++ ys) s0' s1' ∧ s0.lost <+: s0'.lost ∧ s1.lost <+: s1'.lost ∧
    (s0'.lost = [] → s1'.lost = [] →
      ∃ ms, ms.Perm (matched F.key xs Y ++ matched F.key (X ++ xs) ys) ∧
        List.Forall₂ (fun p x => Pay' p x.2) ms
          (cands.filter (fun x => decrypt S.sk0 x.1 = 0))) := by
  classical
  simp only [exchange, genI, genII, recvII, Outcome.bind_eq_ok, Outcome.pure_eq, Outcome.ok.injEq,
    Prod.mk.injEq] at h
  obtain ⟨⟨t0, m1⟩, ⟨u0, hu0, cs, hcs, e0⟩, ⟨t1, m2⟩, ⟨other1, ho1, dec1, hdec1, own, hown, out, hout,
    u1, hu1, e1⟩, ⟨t2, cands'⟩, ⟨other0, ho0, cs2, hcs2, e2⟩, e3⟩ := h
  obtain ⟨rfl, rfl⟩ := Prod.mk.inj e0
  obtain ⟨rfl, rfl⟩ := Prod.mk.inj e1
  obtain ⟨rfl, rfl⟩ := Prod.mk.inj e2
  obtain ⟨rfl, rfl, rfl⟩ := e3
  simp only [List.length_append] at ht0 ht1
  have hh' : ∀ e, 256 ≤ (hashOf e).length := fun e => by rw [hh e]
  -- trees
  obtain ⟨a1, a2, a3⟩ := mirror_step (PostOK.id _) (fun p => hh' (F.key p)) hρ.pads0 hI.wf0 hI.mir0
    hρ.hsh0 (by rw [hI.size0]; omega) (fun i j p _ w c hw hc => Or.inl (hF.tree _ p w c hw hc)) hu0 ho1
  obtain ⟨b1, b2, b3⟩ := mirror_step (PostOK.id _) hh' hρ.pads1 hI.wf1 hI.mir1
    hρ.hsh1 (by rw [hI.size1]; omega) (fun i j y _ w x hw hx => by
      simp only [serNoPayload, Outcome.bind_eq_ok, Outcome.pure_eq, Outcome.ok.injEq] at hw
      obtain ⟨p, hp, rfl⟩ := hw
      left
      rw [serializeCt_deser c hp hx]
      simp only [Setup.dec, decrypt, encrypt, encryptPoint, Setup.pk]; module) hu1 ho0
  have a4 := sendUpdate_all (fun p => hh' (F.key p)) hI.wf0 hρ.hsh0 (by rw [hI.size0]; omega) hu0
  have b4 := sendUpdate_all hh' hI.wf1 hρ.hsh1 (by rw [hI.size1]; omega) hu1
  have a5 : (u0.tree.contents ++ (s0.lost ++ u0.lost)).Perm (X ++ xs) := by
    have : (u0.tree.contents ++ (s0.lost ++ u0.lost)).Perm ((u0.tree.contents ++ u0.lost) ++ s0.lost) := by
      rw [List.append_assoc]; exact List.Perm.append_left _ List.perm_append_comm
    refine this.trans ((a4.append_right _).trans ?_)
    have : ((s0.my.contents ++ xs) ++ s0.lost).Perm ((s0.my.contents ++ s0.lost) ++ xs) := by
      rw [List.append_assoc, List.append_assoc]; exact List.Perm.append_left _ List.perm_append_comm
    exact this.trans (hI.all0.append_right _)
  have b5 : (u1.tree.contents ++ (s1.lost ++ u1.lost)).Perm (Y ++ ys) := by
    have : (u1.tree.contents ++ (s1.lost ++ u1.lost)).Perm ((u1.tree.contents ++ u1.lost) ++ s1.lost) := by
      rw [List.append_assoc]; exact List.Perm.append_left _ List.perm_append_comm
    refine this.trans ((b4.append_right _).trans ?_)
    have : ((s1.my.contents ++ ys) ++ s1.lost).Perm ((s1.my.contents ++ s1.lost) ++ ys) := by
      rw [List.append_assoc, List.append_assoc]; exact List.Perm.append_left _ List.perm_append_comm
    exact this.trans (hI.all1.append_right _)
  refine ⟨⟨a1, b1, by simp [a2, hI.size0], by simp [b2, hI.size1], a5, b5, a3, b3⟩,
    List.prefix_append _ _, List.prefix_append _ _, ?_⟩
  intro l0 l1
  simp only [List.append_eq_nil_iff] at l0 l1
  -- nothing was lost
  have hYc : s1.my.contents.Perm Y := by have := hI.all1; rw [l1.1, List.append_nil] at this; exact this
  have hXc : u0.tree.contents.Perm (X ++ xs) := by rw [l0.1, l0.2] at a5; simpa using a5
  have hYb : ∀ y ∈ s1.my.contents, y < B := fun y hy => hY y (by
    rw [List.mem_append]; exact Or.inl (hYc.subset hy))
  have hXb : ∀ p ∈ u0.tree.contents, F.key p < B := fun p hp => hX p (hXc.subset hp)
  -- party zero's candidates
  have hA := forIdx_forall₂ _ _ _ hcs
  obtain ⟨specA, A1, A2⟩ := exists_specs (δ := P) (R := fun (pr : P × Nat) w => ∀ x, F.deser w = .ok x →
      CandRelN S F.key Pay pr x) (fun pr : P × Nat => decide (F.key pr.1 = pr.2)) Prod.fst
    (fun p => List.replicate (Y.count (F.key p)) p) hA (by
      rintro p hp b ⟨i, hb⟩
      simp only [candI, Outcome.bind_eq_ok] at hb
      obtain ⟨path, hpath, pay, hpay, hb⟩ := hb
      have hpB : F.key p < B := hX p (by simp [hp])
      obtain ⟨l, k1, k2, k3⟩ := path_mirror (key := id) hh hI.wf1 hI.mir1 hB hYb hpB hpath
      refine ⟨l.map (fun y => (p, y)), ?_, ?_⟩
      · apply forall₂_map_left
        refine forall₂_mono (forall₂_comp k1 (forIdx_forall₂ _ _ _ hb) (T := fun (y : Nat) w => ∃ ct : Ct G, (S.dec ct = (y : Int) • S.g ∨ (¬ N1 y ∧ S.dec ct = 0)) ∧
          ∃ j, F.ser (reRandomize S.pk (ρ.rr i j) (mul ct (invert (encrypt S.pk (ρ.x0 i 0) (F.key p))))) pay = .ok w)
          (fun y ct w h1 ⟨j, h2⟩ => ⟨ct, h1, j, h2⟩)) ?_
        rintro y hy w ⟨ct, h1, j, h2⟩ x hx
        have := hF.ser _ _ _ _ h2 hx
        subst this
        refine ⟨?_, fun _ => hF.payload _ _ _ hpay⟩
        have hdec : S.dec (reRandomize S.pk (ρ.rr i j) (mul ct (invert (encrypt S.pk (ρ.x0 i 0) (F.key p))))) =
            S.dec ct - (F.key p : Int) • S.g := by
          simp only [Setup.dec, decrypt, reRandomize, mul, invert, encrypt, encryptPoint, Setup.pk]
          module
        simp only
        rcases h1 with h1 | ⟨hn, h1⟩
        · rw [hdec, h1, S.smul_eq_iff (a := y) (k2 y hy) (b := F.key p) (by omega)]
          exact eq_comm
        · have hk := hNx p hp
          have h0 : F.key p ≠ 0 := fun h => h10 y hn (h ▸ hk)
          rw [hdec, h1]
          have := S.smul_eq_iff (a := 0) (b := F.key p) S.hq.pos (by omega)
          simp only [Nat.cast_zero, zero_smul] at this
          rw [this]
          exact ⟨fun h => absurd h.symm h0, fun h => absurd (h ▸ hk) hn⟩
      · rw [filter_map_const_left]
        have : l.count (F.key p) = Y.count (F.key p) := by
          rw [← hYc.count_eq]
          have := k3.length_eq
          simp only [id] at this
          rw [List.count_eq_length_filter, List.count_eq_length_filter]
          simpa [beq_eq_decide] using this
        rw [this])
  -- party one's candidates
  have hBf := forIdx_forall₂ _ _ _ hown
  obtain ⟨specB, B1, B2⟩ := exists_specs (δ := P) (R := CandRelN S F.key Pay)
    (fun pr : P × Nat => decide (F.key pr.1 = pr.2)) Prod.fst
    (fun y => (X ++ xs).filter (fun p => F.key p = y)) hBf (by
      rintro y hy b ⟨i, hb⟩
      simp only [candII, Outcome.bind_eq_ok, Outcome.pure_eq, Outcome.ok.injEq] at hb
      obtain ⟨path, hpath, rfl⟩ := hb
      have hyB : y < B := hY y (by simp [hy])
      obtain ⟨l, k1, k2, k3⟩ := path_mirror hh a1 a3 hB hXb hyB hpath
      refine ⟨l.map (fun p => (p, y)), ?_, ?_⟩
      · rw [List.forall₂_map_left_iff, List.forall₂_map_right_iff]
        refine forall₂_mono k1 ?_
        rintro p hp ct h12
        have hdec : S.dec (mul (F.first ct) (invert (encrypt S.pk (ρ.x1 i) (y : Int)))) =
            S.dec (F.first ct) - (y : Int) • S.g := by
          simp only [Setup.dec, decrypt, mul, invert, encrypt, encryptPoint, Setup.pk]
          module
        rcases h12 with ⟨h1, h2⟩ | ⟨hn, h1⟩
        · refine ⟨?_, fun _ => h2⟩
          simp only
          rw [hdec, h1, S.smul_eq_iff (k2 p hp) (by omega)]
        · have hk := hNy y hy
          have h0 : y ≠ 0 := fun h => h00 _ hn (h ▸ hk)
          have hne : F.key p ≠ y := fun h => hn (h ▸ hk)
          refine ⟨?_, fun h => absurd h hne⟩
          simp only
          rw [hdec, h1]
          have := S.smul_eq_iff (a := 0) (b := y) S.hq.pos (by omega)
          simp only [Nat.cast_zero, zero_smul] at this
          rw [this]
          exact ⟨fun h => absurd h.symm h0, fun h => absurd h hne⟩
      · rw [List.filter_map, List.map_map]
        have : (Prod.fst ∘ fun p : P => (p, y)) = id := by funext p; rfl
        rw [this, List.map_id]
        exact k3.trans (hXc.filter _))
  -- decoded candidates of message I
  have hD : List.Forall₂ (CandRelN S F.key Pay) specA dec1 := by
    refine forall₂_comp A1 (forIdx_forall₂ _ _ _ hdec1) ?_
    rintro pr w x h1 ⟨_, h2⟩
    exact h1 x h2
  have hall : List.Forall₂ (CandRelN S F.key Pay) (specA ++ specB) (dec1 ++ own.flatten) :=
    List.rel_append hD B1
  have hcomp : (Relation.Comp (List.Forall₂ (CandRelN S F.key Pay)) List.Perm)
      (specA ++ specB) (ρ.shuffle (dec1 ++ own.flatten)) := ⟨_, hall, (hρ.shuffle _).symm⟩
  rw [List.forall₂_comp_perm_eq_perm_comp_forall₂] at hcomp
  obtain ⟨spec, hsp, hperm⟩ := hcomp
  -- masking and sending
  have hmask : List.Forall₂ (fun pr z => ∃ i x, CandRelN S F.key Pay pr x ∧ z = F.mask (ρ.masks i) x) spec
      ((ρ.shuffle (dec1 ++ own.flatten)).mapIdx (fun i x => F.mask (ρ.masks i) x)) :=
    forall₂_mapIdx _ hperm (fun i a b hab => ⟨i, b, hab, rfl⟩)
  have hfin : List.Forall₂ (fun pr (x' : Ct G × κ) => (decrypt S.sk0 x'.1 = 0 ↔ F.key pr.1 = pr.2) ∧
      (F.key pr.1 = pr.2 → Pay' pr.1 x'.2)) spec cs2 := by
    refine forall₂_comp (forall₂_comp hmask (forIdx_forall₂ _ _ _ hout)
      (T := fun pr w => ∃ i j x, CandRelN S F.key Pay pr x ∧ F.send S.pk S.sk1 (ρ.send j) (F.mask (ρ.masks i) x) = .ok w)
      ?_) (forIdx_forall₂ _ _ _ hcs2) ?_
    · rintro pr z w ⟨i, x, h1, rfl⟩ ⟨j, h2⟩
      exact ⟨i, j, x, h1, h2⟩
    · rintro pr w x' ⟨i, j, x, h1, h2⟩ ⟨_, h3⟩
      obtain ⟨k1, k2⟩ := hF.send _ _ _ _ _ (hρ.masks i) h2 h3
      exact ⟨k1.trans h1.1, fun hk => k2 (h1.1.2 hk) _ (h1.2 hk)⟩
  refine ⟨(spec.filter (fun pr => F.key pr.1 = pr.2)).map Prod.fst, ?_, ?_⟩
  · have h1 : ((spec.filter (fun pr => F.key pr.1 = pr.2)).map Prod.fst).Perm
        (((specA ++ specB).filter (fun pr => F.key pr.1 = pr.2)).map Prod.fst) :=
      (hsp.symm.filter _).map _
    refine h1.trans ?_
    rw [List.filter_append, List.map_append]
    exact A2.append (B2.trans (matched_comm F.key (X ++ xs) ys))
  · rw [List.forall₂_map_left_iff]
    exact forall₂_filter hfin (fun pr x' ⟨k1, k2⟩ => ⟨by
      simp only [decide_eq_decide]; exact k1.symm, fun hp => k2 (by simpa using hp)⟩)


end Upsi.Mock
