import Verif.Num.BigNum
import Verif.Num.BytesProps
import Mathlib.Tactic.Linarith
import Mathlib.Tactic.Positivity
/-
C68: the methods of `BigNum` compute what integers say.
-/
namespace Upsi.Num.BN
open Upsi Upsi.Num

variable {a b m p : BN}

/-- The integer a method returns, if it returns. -/
def vals (o : Outcome BN) : Outcome Int := do
  let r ← o
  pure r.val

theorem wf_setNeg (n : Nat) (s : Bool) : (setNeg n s).WF := by
  intro h; simp only [setNeg, Bool.and_eq_true, decide_eq_true_eq] at h; exact h.2

theorem val_setNeg (n : Nat) (s : Bool) : (setNeg n s).val = if s then -(n : Int) else n := by
  cases s <;> by_cases h : n = 0 <;> simp [setNeg, val, h]

theorem wf_pos (n : Nat) : (BN.mk false n).WF := fun h => absurd h (by simp)
theorem val_pos (n : Nat) : (BN.mk false n).val = n := rfl
theorem val_neg (n : Nat) : (BN.mk true n).val = -(n : Int) := rfl

theorem wf_ofInt (x : Int) : (ofInt x).WF := by
  intro h
  simp only [ofInt, decide_eq_true_eq] at h ⊢
  omega

theorem val_ofInt (x : Int) : (ofInt x).val = x := by
  by_cases h : x < 0
  · simp only [ofInt, h, decide_true, val, if_true]; omega
  · simp only [ofInt, h, decide_false, val]; simp; omega

/-- **C68** Every integer has exactly one representation, so comparing representations is comparing integers. -/
theorem C68_unique (ha : a.WF) (hb : b.WF) : a.val = b.val ↔ a = b := by
  constructor
  · intro h
    obtain ⟨na, x⟩ := a
    obtain ⟨nb, y⟩ := b
    simp only [WF] at ha hb
    cases na <;> cases nb <;> simp only [val, if_true, Bool.false_eq_true, if_false, forall_true_left] at h ha hb
    · simp only [BN.mk.injEq, true_and]; omega
    · exfalso; omega
    · exfalso; omega
    · simp only [BN.mk.injEq, true_and]; omega
  · rintro rfl; rfl

theorem val_zero_iff : a.val = 0 ↔ a.mag = 0 := by
  obtain ⟨n, x⟩ := a
  cases n <;> simp [val]

theorem val_nonneg_iff (ha : a.WF) : 0 ≤ a.val ↔ a.neg = false := by
  obtain ⟨n, x⟩ := a
  cases n
  · simp [val]
  · have := ha rfl
    simp only [val, if_true] at this ⊢
    simp; omega

theorem natAbs_val : a.val.natAbs = a.mag := by
  obtain ⟨n, x⟩ := a
  cases n <;> simp [val]

theorem ucmp_neg (a b : BN) : ucmp a b < 0 ↔ a.mag < b.mag := by
  unfold ucmp; split <;> [simp_all; (split <;> simp_all)]

theorem diff_spec (x y : Nat) : (if x < y then (⟨true, y - x⟩ : BN) else ⟨false, x - y⟩).WF ∧
    (if x < y then (⟨true, y - x⟩ : BN) else ⟨false, x - y⟩).val = (x : Int) - y := by
  split
  · rename_i h
    refine ⟨fun _ => ?_, ?_⟩
    · change y - x ≠ 0; omega
    · rw [val_neg]; omega
  · exact ⟨wf_pos _, by rw [val_pos]; omega⟩

theorem add_spec (ha : a.WF) (hb : b.WF) : (bnAdd a b).WF ∧ (bnAdd a b).val = a.val + b.val := by
  obtain ⟨na, x⟩ := a
  obtain ⟨nb, y⟩ := b
  cases na <;> cases nb
  · exact ⟨wf_pos _, by rw [val_pos, val_pos]; exact Int.natCast_add x y⟩
  · have : bnAdd ⟨false, x⟩ ⟨true, y⟩ = if x < y then (⟨true, y - x⟩ : BN) else ⟨false, x - y⟩ := by
      simp [bnAdd, ucmp_neg, usub]
    rw [this, val_pos, val_neg]
    exact diff_spec x y
  · have : bnAdd ⟨true, x⟩ ⟨false, y⟩ = if y < x then (⟨true, x - y⟩ : BN) else ⟨false, y - x⟩ := by
      simp [bnAdd, ucmp_neg, usub]
    rw [this, val_pos, val_neg]
    exact ⟨(diff_spec y x).1, by rw [(diff_spec y x).2]; ring⟩
  · have hx : x ≠ 0 := ha rfl
    refine ⟨fun _ => ?_, ?_⟩
    · change x + y ≠ 0; omega
    · change -((x + y : Nat) : Int) = _
      rw [val_neg, val_neg]; push_cast; ring

theorem sub_spec (ha : a.WF) (hb : b.WF) : (bnSub a b).WF ∧ (bnSub a b).val = a.val - b.val := by
  obtain ⟨na, x⟩ := a
  obtain ⟨nb, y⟩ := b
  cases na <;> cases nb
  · have : bnSub ⟨false, x⟩ ⟨false, y⟩ = if x < y then (⟨true, y - x⟩ : BN) else ⟨false, x - y⟩ := by
      simp [bnSub, ucmp_neg, usub]
    rw [this, val_pos, val_pos]
    exact diff_spec x y
  · refine ⟨wf_pos _, ?_⟩
    change ((x + y : Nat) : Int) = _
    rw [val_pos, val_neg]; push_cast; ring
  · have hx : x ≠ 0 := ha rfl
    refine ⟨fun _ => ?_, ?_⟩
    · change x + y ≠ 0; omega
    · change -((x + y : Nat) : Int) = _
      rw [val_neg, val_pos]; push_cast; ring
  · have : bnSub ⟨true, x⟩ ⟨true, y⟩ = if y < x then (⟨true, x - y⟩ : BN) else ⟨false, y - x⟩ := by
      simp [bnSub, ucmp_neg, usub]
    rw [this, val_neg, val_neg]
    exact ⟨(diff_spec y x).1, by rw [(diff_spec y x).2]; ring⟩

theorem mul_spec : (bnMul a b).WF ∧ (bnMul a b).val = a.val * b.val := by
  refine ⟨wf_setNeg _ _, ?_⟩
  obtain ⟨na, x⟩ := a
  obtain ⟨nb, y⟩ := b
  cases na <;> cases nb <;> simp [bnMul, val_setNeg, val_pos, val_neg]

/-- **C68** Sum, difference, product and negative of `BigNum`s are those of the integers. -/
theorem C68_ring (ha : a.WF) (hb : b.WF) :
    ((add a b).WF ∧ (add a b).val = a.val + b.val) ∧ ((sub a b).WF ∧ (sub a b).val = a.val - b.val) ∧
    ((mul a b).WF ∧ (mul a b).val = a.val * b.val) ∧ ((neg' a).WF ∧ (neg' a).val = -a.val) := by
  refine ⟨add_spec ha hb, sub_spec ha hb, mul_spec, wf_setNeg _ _, ?_⟩
  obtain ⟨na, x⟩ := a
  cases na <;> simp [neg', val_setNeg, val_pos, val_neg]

/-- **C68** `CompareTo` returns the sign of the difference. -/
theorem C68_compare (ha : a.WF) (hb : b.WF) : compareTo a b = (a.val - b.val).sign := by
  obtain ⟨na, x⟩ := a
  obtain ⟨nb, y⟩ := b
  have hu : ∀ x y : Nat, (if x < y then -1 else if x = y then 0 else 1 : Int) = ((x : Int) - y).sign := by
    intro x y
    split
    · rw [Int.sign_eq_neg_one_of_neg (by omega)]
    · split
      · rename_i h; subst h; simp
      · rw [Int.sign_eq_one_of_pos (by omega)]
  cases na <;> cases nb
  · change (if x < y then -1 else if x = y then 0 else 1 : Int) = _
    rw [hu]; rfl
  · have hy : y ≠ 0 := hb rfl
    change (1 : Int) = _
    rw [val_pos, val_neg, Int.sign_eq_one_of_pos (by omega)]
  · have hx : x ≠ 0 := ha rfl
    change (-1 : Int) = _
    rw [val_pos, val_neg, Int.sign_eq_neg_one_of_neg (by omega)]
  · change -(if x < y then -1 else if x = y then 0 else 1 : Int) = _
    rw [hu, val_neg, val_neg, ← Int.sign_neg]
    congr 1; ring

/-- **C68** Hence the operators `==`, `<`, `>`, `<=`, `>=` (big_num.h:220-240) compare the integers. -/
theorem C68_operators (ha : a.WF) (hb : b.WF) : (compareTo a b = 0 ↔ a.val = b.val) ∧ (compareTo a b = -1 ↔ a.val < b.val) ∧
    (compareTo a b = 1 ↔ b.val < a.val) ∧ (compareTo a b ≤ 0 ↔ a.val ≤ b.val) ∧ (0 ≤ compareTo a b ↔ b.val ≤ a.val) := by
  rw [C68_compare ha hb]
  rcases lt_trichotomy (a.val - b.val) 0 with h | h | h
  · rw [Int.sign_eq_neg_one_of_neg h]; omega
  · rw [h]; simp; omega
  · rw [Int.sign_eq_one_of_pos h]; omega

theorem check_none : check (none : Option α) = .abort := rfl
theorem check_some (x : α) : check (some x) = .ok x := rfl

theorem div_val (hb : b.mag ≠ 0) : ∃ q r, bnDiv a b = some (q, r) ∧ q.WF ∧ r.WF ∧ q.val = a.val.tdiv b.val ∧ r.val = a.val.tmod b.val := by
  refine ⟨_, _, by rw [bnDiv, if_neg hb], wf_setNeg _ _, wf_setNeg _ _, ?_, ?_⟩
  · obtain ⟨na, x⟩ := a
    obtain ⟨nb, y⟩ := b
    cases na <;> cases nb <;> simp [val_setNeg, val_pos, val_neg, Int.tdiv_neg, Int.neg_tdiv]
  · obtain ⟨na, x⟩ := a
    obtain ⟨nb, y⟩ := b
    cases na <;> cases nb <;> simp [val_setNeg, val_pos, val_neg, Int.tmod_neg, Int.neg_tmod] <;>
      exact (Int.tmod_eq_emod_of_nonneg (Int.natCast_nonneg x)).symm

/-- **C68** `DivAndTruncate` rounds towards zero; both divisions abort for a zero divisor, and `Div` aborts exactly when the
quotient is not exact. -/
theorem C68_division (a b : BN) :
    (b.val = 0 → div a b = .abort ∧ divTrunc a b = .abort) ∧
    (b.val ≠ 0 → ∃ q, divTrunc a b = .ok q ∧ q.WF ∧ q.val = a.val.tdiv b.val) ∧
    (b.val ≠ 0 → b.val ∣ a.val → ∃ q, div a b = .ok q ∧ q.WF ∧ q.val * b.val = a.val) ∧
    (¬ b.val ∣ a.val → div a b = .abort) := by
  have h0 : b.mag = 0 → div a b = .abort ∧ divTrunc a b = .abort := by
    intro h
    simp only [div, divTrunc, bnDiv, if_pos h, check_none]
    exact ⟨rfl, rfl⟩
  refine ⟨fun h => h0 (val_zero_iff.1 h), fun h => ?_, fun h hd => ?_, fun hd => ?_⟩
  · obtain ⟨q, r, e, wq, _, vq, _⟩ := div_val (a := a) (b := b) (fun hz => h (val_zero_iff.2 hz))
    exact ⟨q, by simp only [divTrunc, e, check_some, Outcome.bind_ok, Outcome.pure_eq], wq, vq⟩
  · obtain ⟨q, r, e, wq, _, vq, vr⟩ := div_val (a := a) (b := b) (fun hz => h (val_zero_iff.2 hz))
    have hr : r.mag = 0 := by rw [← val_zero_iff, vr]; exact Int.tmod_eq_zero_of_dvd hd
    refine ⟨q, ?_, wq, ?_⟩
    · simp only [div, e, check_some, Outcome.bind_ok, isZero, hr, decide_true, if_true, Outcome.pure_eq]
    · rw [vq]; exact Int.tdiv_mul_cancel hd
  · by_cases h : b.mag = 0
    · exact (h0 h).1
    · obtain ⟨q, r, e, _, _, _, vr⟩ := div_val (a := a) (b := b) h
      have hr : r.mag ≠ 0 := by
        intro hz
        rw [← val_zero_iff, vr] at hz
        exact hd (Int.dvd_of_tmod_eq_zero hz)
      simp only [div, e, check_some, Outcome.bind_ok, isZero, hr, decide_false, Bool.false_eq_true, if_false]

theorem emod_eq_of_lt_abs {x d : Int} (h0 : 0 ≤ x) (h1 : x < |d|) : x % d = x := by
  rw [← Int.emod_abs]; exact Int.emod_eq_of_lt h0 h1

theorem nnmod_spec (hm : m.WF) (h : m.mag ≠ 0) : ∃ r, bnNnmod a m = some r ∧ r.WF ∧ r.val = a.val % m.val := by
  obtain ⟨q, r, e, _, wr, _, vr⟩ := div_val (a := a) (b := m) h
  have hm0 : m.val ≠ 0 := fun hz => h (val_zero_iff.1 hz)
  simp only [bnNnmod, e]
  have hemod : r.val % m.val = a.val % m.val := by
    rw [vr]
    have := Int.tmod_add_mul_tdiv a.val m.val
    conv_rhs => rw [← this]
    rw [Int.add_mul_emod_self_left]
  have habs : |r.val| < |m.val| := by
    rw [vr, Int.abs_eq_natAbs, Int.abs_eq_natAbs, Int.natAbs_tmod]
    exact_mod_cast Nat.mod_lt _ (Int.natAbs_pos.2 hm0)
  by_cases hn : r.neg = false
  · refine ⟨r, by simp [hn], wr, ?_⟩
    rw [← hemod, emod_eq_of_lt_abs]
    · exact (val_nonneg_iff wr).2 hn
    · have := (val_nonneg_iff wr).2 hn
      rwa [abs_of_nonneg this] at habs
  · have hn' : r.neg = true := by simpa using hn
    have hlt : r.val < 0 := by
      by_contra hc
      exact hn ((val_nonneg_iff wr).1 (by omega))
    by_cases hmn : m.neg = true
    · refine ⟨bnSub r m, by simp [hn', hmn], (sub_spec wr hm).1, ?_⟩
      have hml : m.val < 0 := by
        by_contra hc
        have := (val_nonneg_iff hm).1 (by omega)
        rw [hmn] at this; exact absurd this (by simp)
      rw [(sub_spec wr hm).2, ← hemod, ← Int.sub_emod_right r.val m.val, emod_eq_of_lt_abs]
      · rw [abs_of_neg hlt, abs_of_neg hml] at habs; omega
      · rw [abs_of_neg hml]; omega
    · have hmf : m.neg = false := by simpa using hmn
      refine ⟨bnAdd r m, by simp [hn', hmf], (add_spec wr hm).1, ?_⟩
      have hml : 0 ≤ m.val := (val_nonneg_iff hm).2 hmf
      rw [(add_spec wr hm).2, ← hemod, ← Int.add_emod_right r.val m.val, emod_eq_of_lt_abs]
      · rw [abs_of_neg hlt, abs_of_nonneg hml] at habs; omega
      · rw [abs_of_nonneg hml]; omega

theorem vals_check_nnmod (hm : m.WF) : vals (check (bnNnmod a m)) = Num.mod a.val m.val ∧
    ∀ r, check (bnNnmod a m) = .ok r → r.WF := by
  by_cases h : m.mag = 0
  · have e : bnNnmod a m = none := by simp [bnNnmod, bnDiv, h]
    rw [e, check_none, Num.mod, if_pos (val_zero_iff.2 h)]
    exact ⟨rfl, fun r hr => by simp at hr⟩
  · obtain ⟨r, e, w, v⟩ := nnmod_spec (a := a) hm h
    rw [e, check_some, Num.mod, if_neg (fun hz => h (val_zero_iff.1 hz)), ← v]
    refine ⟨rfl, fun r' hr => ?_⟩
    cases hr; exact w

/-- **C68** `Mod` and the modular sum, difference, product and square: a zero modulus aborts; otherwise the result is the
residue in `[0, |m|)`, also for negative operands and negative moduli. -/
theorem C68_modular (ha : a.WF) (hb : b.WF) (hm : m.WF) :
    (m.val = 0 → mod a m = .abort ∧ modAdd a b m = .abort ∧ modSub a b m = .abort ∧ modMul a b m = .abort ∧ modSqr a m = .abort) ∧
    (m.val ≠ 0 → ∀ o x, (o, x) ∈ [(mod a m, a.val), (modAdd a b m, a.val + b.val), (modSub a b m, a.val - b.val),
        (modMul a b m, a.val * b.val), (modSqr a m, a.val * a.val)] →
      ∃ r, o = .ok r ∧ r.WF ∧ 0 ≤ r.val ∧ r.val < |m.val| ∧ m.val ∣ x - r.val) := by
  constructor
  · intro h
    have hz := val_zero_iff.1 h
    have e : ∀ c, bnNnmod c m = none := fun c => by simp [bnNnmod, bnDiv, hz]
    have e' : ∀ c, bnDiv c m = none := fun c => by simp [bnDiv, hz]
    simp only [mod, modAdd, modSub, modMul, modSqr, e, e', Option.map_none, check_none, and_self]
  · intro h o x hx
    have hz : m.mag ≠ 0 := fun hz => h (val_zero_iff.2 hz)
    have key : ∀ c : BN, ∃ r, check (bnNnmod c m) = .ok r ∧ r.WF ∧ 0 ≤ r.val ∧ r.val < |m.val| ∧ m.val ∣ c.val - r.val := by
      intro c
      obtain ⟨r, e, w, v⟩ := nnmod_spec (a := c) hm hz
      refine ⟨r, by rw [e, check_some], w, v ▸ Int.emod_nonneg _ h, v ▸ Int.emod_lt_abs _ h, ?_⟩
      rw [v]; exact Int.dvd_self_sub_emod
    simp only [List.mem_cons, Prod.mk.injEq, List.not_mem_nil, or_false] at hx
    rcases hx with ⟨rfl, rfl⟩ | ⟨rfl, rfl⟩ | ⟨rfl, rfl⟩ | ⟨rfl, rfl⟩ | ⟨rfl, rfl⟩
    · exact key a
    · rw [← (add_spec ha hb).2]; exact key _
    · rw [← (sub_spec ha hb).2]; exact key _
    · rw [← (mul_spec (a := a) (b := b)).2]; exact key _
    · obtain ⟨q, r, e, _, w, _, v⟩ := div_val (a := ⟨false, a.mag * a.mag⟩) (b := m) hz
      have hs : (BN.mk false (a.mag * a.mag)).val = a.val * a.val := by
        rw [val_pos, ← Int.natAbs_mul_self' a.val, natAbs_val]; push_cast; rfl
      rw [hs] at v
      have h0 : 0 ≤ a.val * a.val := mul_self_nonneg _
      have v' : r.val = a.val * a.val % m.val := by rw [v, Int.tmod_eq_emod_of_nonneg h0]
      refine ⟨r, by rw [modSqr, e]; rfl, w, v' ▸ Int.emod_nonneg _ h, v' ▸ Int.emod_lt_abs _ h, ?_⟩
      rw [v']; exact Int.dvd_self_sub_emod

theorem expGo_spec (f : Nat) : ∀ (v : BN) (e : Nat) (r : BN), e < 2 ^ f → r.WF → (expGo f v e r).WF ∧ (expGo f v e r).val = r.val * v.val ^ e := by
  induction f with
  | zero =>
    intro v e r he hr
    have : e = 0 := by simpa using he
    subst this
    exact ⟨hr, by simp [expGo]⟩
  | succ f ih =>
    intro v e r he hr
    rw [expGo]
    have hr' : (if e % 2 = 1 then bnMul r v else r).WF := by split <;> [exact mul_spec.1; exact hr]
    obtain ⟨h1, h2⟩ := ih (bnMul v v) (e / 2) _ (by rw [Nat.pow_succ] at he; omega) hr'
    refine ⟨h1, ?_⟩
    rw [h2, mul_spec.2, ← pow_two, ← pow_mul]
    split
    · rename_i ho
      rw [mul_spec.2, mul_assoc, ← pow_succ']
      congr 2; omega
    · congr 2; omega

/-- **C68** `Exp` is the integer power; the sign of the exponent is ignored. -/
theorem C68_exp (a p : BN) : (exp a p).WF ∧ (exp a p).val = a.val ^ p.val.natAbs := by
  have := expGo_spec (bitLength p) a p.mag ⟨false, 1⟩ (Nat.lt_size_self p.mag) (wf_pos 1)
  rw [natAbs_val]
  exact ⟨this.1, by rw [exp, this.2, val_pos]; simp⟩

theorem expModGo_spec (m : Nat) (f : Nat) : ∀ v e r, e < 2 ^ f → r % m = r → expModGo m f v e r = r * v ^ e % m := by
  induction f with
  | zero =>
    intro v e r he hr
    have : e = 0 := by simpa using he
    subst this
    simp [expModGo, hr]
  | succ f ih =>
    intro v e r he hr
    rw [expModGo, ih _ _ _ (by rw [Nat.pow_succ] at he; omega) (by split <;> [exact Nat.mod_mod _ _; exact hr])]
    have hs : (v * v % m) ^ (e / 2) % m = v ^ (2 * (e / 2)) % m := by
      rw [← Nat.pow_mod, ← pow_two, ← pow_mul]
    split
    · rename_i ho
      rw [Nat.mul_mod, hs, Nat.mod_mod, ← Nat.mul_mod, mul_assoc, ← pow_succ']
      congr 3; omega
    · rw [Nat.mul_mod, hs, ← Nat.mul_mod]
      congr 3; omega

/-- **C68** `ModExp` aborts for a negative exponent and for a modulus that is not positive; otherwise it returns the residue
of the power in `[0, m)`. -/
theorem C68_mod_exp (_ha : a.WF) (hp : p.WF) (hm : m.WF) :
    (p.val < 0 ∨ m.val ≤ 0 → modExp a p m = .abort) ∧
    (0 ≤ p.val → 0 < m.val → ∃ r, modExp a p m = .ok r ∧ r.WF ∧ r.val = a.val ^ p.val.toNat % m.val) := by
  constructor
  · intro h
    unfold modExp
    split
    · rename_i hnn
      have hp0 : 0 ≤ p.val := (val_nonneg_iff hp).2 (by simpa [isNonNegative] using hnn)
      have hm0 : m.val ≤ 0 := by omega
      by_cases hmn : m.neg = true
      · simp [bnModExp, hmn, check_none]
      · have := (val_nonneg_iff hm).2 (by simpa using hmn)
        have hz := val_zero_iff.1 (show m.val = 0 by omega)
        have e : bnNnmod a m = none := by simp [bnNnmod, bnDiv, hz]
        simp [bnModExp, hmn, e, check_none]
    · rfl
  · intro h0 h1
    have hpn : isNonNegative p = true := by simp [isNonNegative, (val_nonneg_iff hp).1 h0]
    have hmn : m.neg = false := (val_nonneg_iff hm).1 (by omega)
    have hz : m.mag ≠ 0 := fun hz => by rw [val_zero_iff.2 hz] at h1; omega
    obtain ⟨b, e, w, v⟩ := nnmod_spec (a := a) hm hz
    have hmv : m.val = m.mag := by simp [val, hmn]
    have hb0 : b.neg = false := (val_nonneg_iff w).1 (v ▸ Int.emod_nonneg _ (by omega))
    have hbv : b.val = b.mag := by simp [val, hb0]
    refine ⟨⟨false, expModGo m.mag (bitLength p) b.mag p.mag (1 % m.mag)⟩, ?_, wf_pos _, ?_⟩
    · simp [modExp, hpn, bnModExp, hmn, e, check_some]
    · rw [val_pos, expModGo_spec m.mag (bitLength p) b.mag p.mag (1 % m.mag) (Nat.lt_size_self p.mag) (Nat.mod_mod _ _), Nat.mod_mul_mod, one_mul]
      have hpt : p.val.toNat = p.mag := by
        have := (val_nonneg_iff hp).1 h0
        simp [val, this]
      rw [hpt, hmv, Int.natCast_mod, Nat.cast_pow, ← hbv, v, hmv]
      exact Int.ModEq.pow p.mag (Int.mod_modEq a.val m.mag)

/-- **C68** `ModNegate` of a non-zero number is `m` minus its residue — so `m` itself, not 0, for a non-zero multiple of
`m`; of zero it is zero, whatever the modulus. -/
theorem C68_mod_negate (_ha : a.WF) (hm : m.WF) :
    (a.val = 0 → modNegate a m = .ok a) ∧
    (a.val ≠ 0 → m.val = 0 → modNegate a m = .abort) ∧
    (a.val ≠ 0 → m.val ≠ 0 → ∃ r, modNegate a m = .ok r ∧ r.WF ∧ r.val = m.val - a.val % m.val) := by
  have hz : ∀ {x : BN}, x.val ≠ 0 → isZero x = false := fun {x} h => by
    simp only [isZero, decide_eq_false_iff_not]; exact fun hz => h (val_zero_iff.2 hz)
  refine ⟨fun h => ?_, fun h h' => ?_, fun h h' => ?_⟩
  · simp [modNegate, isZero, val_zero_iff.1 h]
  · have e : bnNnmod a m = none := by simp [bnNnmod, bnDiv, val_zero_iff.1 h']
    rw [modNegate, hz h]
    simp only [Bool.false_eq_true, if_false, mod, e, check_none]
    rfl
  · obtain ⟨r, e, w, v⟩ := nnmod_spec (a := a) hm (fun hz => h' (val_zero_iff.2 hz))
    refine ⟨bnSub m r, ?_, (sub_spec hm w).1, by rw [(sub_spec hm w).2, v]⟩
    rw [modNegate, hz h]
    simp only [Bool.false_eq_true, if_false, mod, e, check_some, Outcome.bind_ok, Outcome.pure_eq]

/-- **C68** Shifts multiply by a power of two and divide by it rounding towards zero; a negative shift aborts.
`GetLastNBits` keeps the low bits of the magnitude and the sign, `IsBitSet` and `BitLength` look at the magnitude. -/
theorem C68_bits (ha : a.WF) (n : Nat) :
    (∃ r, lshift a n = .ok r ∧ r.WF ∧ r.val = a.val * 2 ^ n) ∧ (∃ r, rshift a n = .ok r ∧ r.WF ∧ r.val = a.val.tdiv (2 ^ n)) ∧
    (∀ k : Int, k < 0 → lshift a k = .abort ∧ rshift a k = .abort ∧ lastNBits a k = a ∧ isBitSet a k = false) ∧
    ((lastNBits a n).WF ∧ (lastNBits a n).val = a.val.tmod (2 ^ n)) ∧
    (isBitSet a n = decide (a.val.natAbs / 2 ^ n % 2 = 1)) ∧ (bitLength a ≤ n ↔ a.val.natAbs < 2 ^ n) := by
  have hn : ¬ (n : Int) < 0 := by omega
  have h2 : ((2 ^ n : Nat) : Int) = 2 ^ n := by push_cast; rfl
  have hd := div_val (a := a) (b := ⟨false, 2 ^ n⟩) (by change 2 ^ n ≠ 0; positivity)
  obtain ⟨q, r, e, wq, wr, vq, vr⟩ := hd
  rw [bnDiv, if_neg (by change 2 ^ n ≠ 0; positivity)] at e
  obtain ⟨rfl, rfl⟩ := Prod.mk.inj (Option.some.inj e)
  rw [val_pos, h2] at vq vr
  rw [Bool.bne_false] at vq
  have hp : 0 < 2 ^ n := by positivity
  refine ⟨⟨⟨a.neg, a.mag * 2 ^ n⟩, by simp [lshift, hn], ?_, ?_⟩, ⟨setNeg (a.mag / 2 ^ n) a.neg, by simp only [rshift, if_neg hn, Int.toNat_natCast], wf_setNeg _ _, ?_⟩, ?_, ⟨?_, ?_⟩, ?_, ?_⟩
  · intro hneg
    exact Nat.mul_ne_zero (ha hneg) hp.ne'
  · obtain ⟨na, x⟩ := a
    cases na <;> simp [val]
  · exact vq
  · intro k hk
    simp [lshift, rshift, lastNBits, isBitSet, hk]
  · rw [lastNBits, if_neg hn]; exact wf_setNeg _ _
  · rw [lastNBits, if_neg hn, Int.toNat_natCast]; exact vr
  · rw [isBitSet, if_neg hn, Int.toNat_natCast, natAbs_val, Nat.testBit_eq_decide_div_mod_eq]
  · rw [natAbs_val, bitLength, Nat.size_le]

/-- **C68** `Gcd` is the non-negative greatest common divisor; the tests `IsZero`, `IsOne`, `IsNonNegative` are exact. -/
theorem C68_gcd_tests (ha : a.WF) : ((gcd a b).WF ∧ (gcd a b).val = Int.gcd a.val b.val) ∧ (isZero a = true ↔ a.val = 0) ∧
    (isOne a = true ↔ a.val = 1) ∧ (isNonNegative a = true ↔ 0 ≤ a.val) := by
  refine ⟨⟨wf_pos _, ?_⟩, ?_, ?_, ?_⟩
  · rw [gcd, val_pos, Int.gcd, natAbs_val, natAbs_val]
  · rw [val_zero_iff]; simp [isZero]
  · obtain ⟨n, x⟩ := a
    cases n
    · simp [isOne, val]
    · simp only [isOne, val, if_true]; simp; omega
  · rw [val_nonneg_iff ha]; simp [isNonNegative]

end Upsi.Num.BN
