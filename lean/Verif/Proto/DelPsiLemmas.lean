import Mathlib.Tactic.Tauto
import Verif.Proto.DelProps
import Verif.Proto.DelPsiModel
/- Helper lemmas for C47. -/
namespace Upsi.Proto
open Upsi Upsi.Tree Upsi.Tree.Props Upsi.Num Upsi.Paillier

variable {p q : Nat} {mont : Int → Option Mont} {pk : Public} {sk : Private}

/-! ### circuit phase and second phase -/

theorem forall₂_eq_map {α β : Type} {f : α → β} {l : List α} {l' : List β}
    (h : List.Forall₂ (fun a b => b = f a) l l') : l' = l.map f := by
  induction h with
  | nil => rfl
  | cons h _ ih => rw [List.map_cons, ← h, ← ih]

theorem gcGroups_spec (K : KeyPair p q mont pk sk) {ro : List UInt8 → Nat} {aliceSends : Bool} {ρ : Nat → GcCoins}
    (its : List (List Item)) : ∀ (i : Nat) (ys : List (List Int)) (ws : List Int) (fs : List Phase),
    List.Forall₂ (fun w (g : List Item × List Int) => GroupOK (p * q) w g.1 g.2) ws (its.zip ys) →
    gcGroups ro mont pk sk aliceSends ρ i its ys = .ok fs → (∀ f ∈ fs, f.Clean ro) →
    (∀ w ∈ ws, 2 * |w| < ((p * q : Nat) : Int)) →
    List.Forall₂ (fun w (f : Phase) => f.sender + f.receiver = UInt64.ofInt w) ws fs := by
  induction its with
  | nil =>
    intro i ys ws fs h hr _ _
    cases ys with
    | nil => simp only [gcGroups, Outcome.ok.injEq] at hr; subst hr; cases h; exact .nil
    | cons => simp [gcGroups] at hr
  | cons g its ih =>
    intro i ys ws fs h hr hc hb
    cases ys with
    | nil => simp [gcGroups] at hr
    | cons y ys =>
      simp only [gcGroups, Outcome.bind_eq_ok, Outcome.pure_eq, Outcome.ok.injEq] at hr
      obtain ⟨f, hf, fs', hfs, rfl⟩ := hr
      rw [List.zip_cons_cons] at h
      cases h with
      | cons h1 h2 =>
        have c := hc f (by simp)
        exact .cons (gcPhase_spec K h1 hf c.1 c.2 (hb _ (by simp)))
          (ih _ _ _ _ h2 hfs (fun f hf => hc f (by simp [hf])) (fun w hw => hb w (by simp [hw])))

theorem transmit_spec {n b : Nat} (hb : cntBlock n = .ok b) {c m c' : Int} (h : PEnc n c m)
    (ht : transmit b c = .ok c') : c' = c := by
  obtain ⟨l, u⟩ := h.bounds
  obtain ⟨bl, e1, _, e2⟩ := C33_block_roundtrip c b l (lt_of_lt_of_le u (cntBlock_spec hb))
  simp only [transmit, e1, Outcome.bind_ok, Outcome.pure_eq, Outcome.ok.injEq] at ht
  rw [← ht, e2]

theorem secondPhase_spec (K : KeyPair p q mont pk sk) (hn : 2 ^ 65 ≤ p * q) {ρ : DelPsiCoins}
    (hsh : ∀ l, (ρ.shuffle l).Perm l) {words : List (UInt64 × UInt64)} {us : List UInt64}
    (h : secondPhase mont sk pk ρ words = .ok us) :
    us.Perm ((words.map (fun w => w.1 + w.2)).filter (fun w => 0 < w)) := by
  simp only [secondPhase, Outcome.bind_eq_ok] at h
  obtain ⟨b0, hb0, b1, hb1, h⟩ := h
  rw [K.priv.ns, pow_one] at hb0
  split at h
  · simp at h
  · simp only [Outcome.bind_eq_ok, Outcome.pure_eq, Outcome.ok.injEq] at h
    obtain ⟨enc, henc, ds, hds, rfl⟩ := h
    have h1 : List.Forall₂ (fun (w : UInt64 × UInt64) c => PEnc (p * q) c ((w.1.toNat : Int) + w.2.toNat)) words enc := by
      refine forall₂_mono (forIdx_forall₂ _ _ _ henc) ?_
      rintro w _ c ⟨i, hc⟩
      simp only [Outcome.bind_eq_ok] at hc
      obtain ⟨a, ha, a', ha', b, hb, hadd⟩ := hc
      have e1 := K.enc_priv ha
      have := transmit_spec hb0 e1 ha'
      subst this
      exact K.add e1 (K.enc_pub hb) hadd
    have hcomp : (Relation.Comp (List.Forall₂ (fun (w : UInt64 × UInt64) c =>
        PEnc (p * q) c ((w.1.toNat : Int) + w.2.toNat))) List.Perm) words (ρ.shuffle enc) := ⟨_, h1, (hsh _).symm⟩
    rw [List.forall₂_comp_perm_eq_perm_comp_forall₂] at hcomp
    obtain ⟨words', hp, h2⟩ := hcomp
    have h3 : List.Forall₂ (fun (w : UInt64 × UInt64) d => d = w.1 + w.2) words' ds := by
      refine forall₂_comp h2 (forIdx_forall₂ _ _ _ hds) ?_
      rintro w c d hm ⟨_, hd⟩
      simp only [Outcome.bind_eq_ok] at hd
      obtain ⟨c', hc', d', hd', hi⟩ := hd
      have := transmit_spec hb0 hm hc'
      subst this
      have hdec := K.dec hm hd'
      have l1 := w.1.toNat_lt
      have l2 := w.2.toNat_lt
      rw [Int.emod_eq_of_lt (by omega) (by omega)] at hdec
      have hval : (if d' ≥ 2 ^ 64 then d' - 2 ^ 64 else d') = (((w.1.toNat + w.2.toNat) % 2 ^ 64 : Nat) : Int) := by
        rw [hdec]
        split <;> omega
      rw [hval, toIntValue] at hi
      have hlt : ((((w.1.toNat + w.2.toNat) % 2 ^ 64 : Nat) : Int)).natAbs < 2 ^ 64 := by
        rw [Int.natAbs_natCast]; exact Nat.mod_lt _ (by norm_num)
      rw [if_pos hlt, Outcome.ok.injEq, Int.natAbs_natCast] at hi
      rw [← hi]
      apply UInt64.toNat_inj.1
      rw [UInt64.toNat_add, UInt64.toNat_ofNat']
      omega
    have h4 : ds = words'.map (fun w => w.1 + w.2) := forall₂_eq_map h3
    rw [h4]
    exact (hp.symm.map _).filter _

/-! ### the output loop -/

/-- Updates of a day whose order is harmless: when an element is both removed and inserted, the removal
comes first. -/
def OrderOK (u : List Int) : Prop := u.Pairwise (fun a b => a = -b → a < 0)

theorem applyUpdates_result (u : List Int) : ∀ (r : UInt64) (l : List Int) (r' : UInt64) (l' : List Int),
    applyUpdates (r, l) u = .ok (r', l') →
    r' = r + UInt64.ofInt ((u.filter (fun z => 0 ≤ z)).length - (u.filter (fun z => z < 0)).length) := by
  induction u with
  | nil => intro r l r' l' h; simp [applyUpdates] at h; rw [h.1]; simp [show UInt64.ofInt 0 = 0 from rfl]
  | cons a u ih =>
    intro r l r' l' h
    simp only [applyUpdates, Outcome.bind_eq_ok, Prod.exists] at h
    obtain ⟨r1, l1, h1, h2⟩ := h
    rw [applyUpdate] at h1
    split at h1
    · simp at h1
    · simp only [Outcome.ok.injEq, Prod.mk.injEq] at h1
      have := ih _ _ _ _ h2
      rw [this, ← h1.1]
      by_cases ha : a < 0
      · have ha' : ¬ 0 ≤ a := by omega
        simp only [ha, ha', List.filter_cons, decide_true, decide_false, if_true, if_false, Bool.false_eq_true,
          List.length_cons]
        push_cast
        rw [show ((List.filter (fun z => decide (0 ≤ z)) u).length : Int) -
            (((List.filter (fun z => decide (z < 0)) u).length : Int) + 1) =
            (-1) + (((List.filter (fun z => decide (0 ≤ z)) u).length : Int) -
            ((List.filter (fun z => decide (z < 0)) u).length : Int)) by ring, UInt64.ofInt_add, ← UInt64.add_assoc,
          UInt64.sub_eq_add_neg, show UInt64.ofInt (-1) = -1 by decide]
      · have ha' : 0 ≤ a := by omega
        simp only [ha, ha', List.filter_cons, decide_true, decide_false, if_true, if_false, Bool.false_eq_true,
          List.length_cons]
        push_cast
        rw [show ((List.filter (fun z => decide (0 ≤ z)) u).length : Int) + 1 -
            (((List.filter (fun z => decide (z < 0)) u).length : Int)) =
            1 + (((List.filter (fun z => decide (0 ≤ z)) u).length : Int) -
            ((List.filter (fun z => decide (z < 0)) u).length : Int)) by ring, UInt64.ofInt_add, ← UInt64.add_assoc]
        congr 1

/-- What the output loop does to the reported list: an update `-k` cancels a reported `k` or is itself
reported, an update `k` cancels a reported `-k` or is itself reported. -/
theorem applyUpdates_set (u : List Int) : ∀ (r : UInt64) (l : List Int) (r' : UInt64) (l' : List Int),
    (∀ z ∈ l, z ≠ 0 ∧ -z ∉ l) → l.Nodup → u.Nodup → (∀ z ∈ u, z ≠ 0) → OrderOK u →
    applyUpdates (r, l) u = .ok (r', l') →
    l'.Nodup ∧ (∀ z ∈ l', z ≠ 0 ∧ -z ∉ l') ∧
    (∀ z, 0 < z → (z ∈ l' ↔ (z ∈ l ∧ -z ∉ u) ∨ (z ∈ u ∧ -z ∉ l ∧ (-z ∉ u ∨ z ∈ l))) ∧
      (-z ∈ l' ↔ (-z ∈ l ∧ z ∉ u) ∨ (-z ∈ u ∧ z ∉ l ∧ z ∉ u))) := by
  induction u with
  | nil =>
    intro r l r' l' hl hn _ _ _ h
    simp only [applyUpdates, Outcome.ok.injEq, Prod.mk.injEq] at h
    rw [← h.2]
    exact ⟨hn, hl, fun z _ => by simp⟩
  | cons a u ih =>
    intro r l r' l' hl hn hu hz ho h
    simp only [applyUpdates, Outcome.bind_eq_ok, Prod.exists] at h
    obtain ⟨r1, l1, h1, h2⟩ := h
    rw [applyUpdate] at h1
    split at h1
    · simp at h1
    · simp only [Outcome.ok.injEq, Prod.mk.injEq] at h1
      obtain ⟨_, h1⟩ := h1
      rw [List.nodup_cons] at hu
      obtain ⟨ho1, ho2⟩ := List.pairwise_cons.1 ho
      have ha0 := hz a (by simp)
      have hmem : ∀ z, z ∈ l1 ↔ (z ∈ l ∧ z ≠ -a) ∨ (z = a ∧ -a ∉ l) := by
        intro z
        rw [← h1]
        split
        · rename_i hc
          rw [hn.mem_erase_iff]
          tauto
        · rename_i hc
          split
          · rename_i hd
            constructor
            · intro hm
              exact Or.inl ⟨hm, fun e => hc (e ▸ hm)⟩
            · rintro (hm | ⟨rfl, -⟩)
              · exact hm.1
              · exact hd
          · simp only [List.mem_cons]
            constructor
            · rintro (rfl | hm)
              · exact Or.inr ⟨rfl, hc⟩
              · exact Or.inl ⟨hm, fun e => hc (e ▸ hm)⟩
            · rintro (hm | ⟨rfl, -⟩)
              · exact Or.inr hm.1
              · exact Or.inl rfl
      have hnd : l1.Nodup := by
        rw [← h1]; split
        · exact hn.erase _
        · split
          · exact hn
          · exact List.nodup_cons.2 ⟨by assumption, hn⟩
      have hl1 : ∀ z ∈ l1, z ≠ 0 ∧ -z ∉ l1 := by
        intro z hm
        rcases (hmem z).1 hm with ⟨hm, hne⟩ | ⟨rfl, hm⟩
        · refine ⟨(hl z hm).1, fun hc => ?_⟩
          rcases (hmem _).1 hc with ⟨hc, -⟩ | ⟨hc, -⟩
          · exact (hl z hm).2 hc
          · omega
        · refine ⟨ha0, fun hc => ?_⟩
          rcases (hmem _).1 hc with ⟨hc, hne⟩ | ⟨hc, -⟩
          · exact hm hc
          · omega
      obtain ⟨k1, k2, k3⟩ := ih _ _ _ _ hl1 hnd hu.2 (fun z h => hz z (by simp [h])) ho2 h2
      refine ⟨k1, k2, fun z hz0 => ?_⟩
      obtain ⟨e1, e2⟩ := k3 z hz0
      have m1 := hmem z
      have m2 := hmem (-z)
      by_cases c1 : a = z
      · subst c1
        have hna : -a ∉ u := fun h => by have := ho1 _ h (by omega); omega
        have c2 : ¬ a = -a := by omega
        have c3 : ¬ -a = a := by omega
        have hla := hl a
        have hua := hu.1
        simp only [ne_eq, c2, c3, not_true_eq_false, not_false_eq_true, and_true, true_and, and_false, false_and,
          or_false, false_or] at m1 m2
        rw [e1, e2, m1, m2]
        simp only [List.mem_cons, c3, hua, hna, false_or, true_or, not_true_eq_false, not_false_eq_true, and_true,
          and_false, or_false, true_and, false_and]
      · by_cases c2 : a = -z
        · subst c2
          have hua := hu.1
          have hla := hl z
          have hlb := hl (-z)
          simp only [Int.neg_neg] at *
          have c3 : ¬ z = -z := by omega
          have c4 : ¬ -z = z := by omega
          simp only [ne_eq, c3, c4, not_true_eq_false, not_false_eq_true, and_true, true_and, and_false, false_and,
            or_false, false_or] at m1 m2
          rw [e1, e2, m1, m2]
          simp only [List.mem_cons, c3, hua, false_or, true_or, not_true_eq_false, not_false_eq_true, and_true,
            and_false, or_false, true_and, false_and]
          have f1 : z ∈ l → -z ∉ l := fun h => (hla h).2
          clear hla hlb e1 e2 m1 m2 hmem k3 k2 hl hl1 hz ih ho ho1 ho2
          by_cases g1 : z ∈ l
          · have f2 := f1 g1
            by_cases g3 : z ∈ u <;> simp [g1, f2, g3]
          · by_cases g2 : -z ∈ l <;> by_cases g3 : z ∈ u <;> simp [g1, g2, g3]
        · have d1 : ¬ z = a := fun h => c1 h.symm
          have d2 : ¬ -z = a := fun h => c2 h.symm
          have d3 : ¬ z = -a := by omega
          have d4 : ¬ -z = -a := by omega
          simp only [ne_eq, d1, d2, d3, d4, not_false_eq_true, and_true, false_and, or_false] at m1 m2
          rw [e1, e2, m1, m2]
          simp only [List.mem_cons, d1, d2, false_or, and_self]

theorem signed_ofInt {z : Int} (h1 : -2 ^ 63 < z) (h2 : z < 2 ^ 63) : signed (UInt64.ofInt z) = z := by
  have : (UInt64.ofInt z).toNat = (z % 2 ^ 64).toNat := by
    unfold UInt64.ofInt
    rw [UInt64.toNat_ofNat']
    have := Int.emod_nonneg z (show (2 ^ 64 : Int) ≠ 0 by norm_num)
    have := Int.emod_lt_of_pos z (show (0 : Int) < 2 ^ 64 by norm_num)
    omega
  unfold signed
  rw [this]
  have := Int.emod_nonneg z (show (2 ^ 64 : Int) ≠ 0 by norm_num)
  have := Int.emod_lt_of_pos z (show (0 : Int) < 2 ^ 64 by norm_num)
  split <;> rename_i h <;> omega

theorem ofInt_pos_iff {z : Int} (h1 : -2 ^ 63 < z) (h2 : z < 2 ^ 63) : 0 < UInt64.ofInt z ↔ z ≠ 0 := by
  have h := signed_ofInt h1 h2
  rw [UInt64.lt_iff_toNat_lt]
  unfold signed at h
  have : (0 : UInt64).toNat = 0 := rfl
  rw [this]
  constructor
  · rintro h0 rfl
    exact absurd h0 (by decide)
  · intro h0
    rcases Nat.eq_zero_or_pos (UInt64.ofInt z).toNat with h' | h'
    · rw [h'] at h
      simp at h
      exact absurd h.symm h0
    · exact h'

end Upsi.Proto
