import Verif.Data.GenProps
import Mathlib.Tactic.Ring
import Mathlib.Algebra.Order.BigOperators.Group.List
/-
C40, C54, C57: exact limits — parameters rejected by the generators, the range of the reported result, numeric strings
that are too long, the least 64-bit value.
-/
namespace Upsi.Data
open Upsi

theorem wrap64_spec (z : Int) : -2 ^ 63 ≤ wrap64 z ∧ wrap64 z < 2 ^ 63 ∧ wrap64 z % 2 ^ 64 = z % 2 ^ 64 := by
  unfold wrap64; omega

/-- **C54** The result reported for a generated deletion history is the true difference of the correct results at the end
and at the start, as a signed 64-bit number: equal when it fits, and otherwise off by a multiple of `2^64`. -/
theorem C54_deletion_result (days daily start maxValue : Nat) (func : Functionality) (R : DelRand)
    (htot : start + days * daily < 2 ^ 32) (hd : 0 < daily) (hk : 0 < days) (hmax : func = .SUM → 1 < maxValue)
    (hs : R.shared.length = (start + days * daily) / 3)
    (h0 : R.diff0.length = start + days * daily - (start + days * daily) / 3)
    (h1 : R.diff1.length = start + days * daily - (start + days * daily) / 3)
    (hn0 : (R.shared ++ R.diff0).Nodup) (hn1 : (R.shared ++ R.diff1).Nodup)
    (hv : ∀ e ∈ R.shared ++ R.diff0, ∀ j, ∃ v, delValue func (R.payload j) e = .ok v ∧ 0 < v) :
    ∃ g t0 ds0 t1 ds1, genDeletionSets days daily start maxValue func R = .ok g ∧
      g.tree0 = .ofRows t0 ∧ g.days0 = ds0.map .ofRows ∧ g.tree1 = .ofRows t1 ∧ g.days1 = ds1.map .ofRows ∧
      GoodHistory start days daily t0 ds0 ∧ GoodHistory start days daily t1 ds1 ∧
      -2 ^ 63 ≤ g.sum ∧ g.sum < 2 ^ 63 ∧
      g.sum % 2 ^ 64 = (expected func (t0 ++ ds0.flatten) (t1 ++ ds1.flatten) - expected func t0 t1) % 2 ^ 64 := by
  obtain ⟨g, t0, ds0, t1, ds1, e, a, b, c, d, i, j, hsum⟩ := C54_deletion days daily start maxValue func R htot hd hk hmax hs h0 h1 hn0 hn1 hv
  obtain ⟨w1, w2, w3⟩ := wrap64_spec (expected func (t0 ++ ds0.flatten) (t1 ++ ds1.flatten) - expected func t0 t1)
  exact ⟨g, t0, ds0, t1, ds1, e, a, b, c, d, i, j, by rw [hsum]; exact w1, by rw [hsum]; exact w2, by rw [hsum]; exact w3⟩

/-- **C54** Parameters the addition-only generator refuses: more shared elements than a party has, and a possible sum above
`2^63 - 1`, are errors; no values to draw from (a maximum of 0) terminates the process as soon as there is an element. -/
theorem C54_add_only_rejects (days daily start shared maxValue : Nat) (R : AddRand) (htot : start + days * daily < 2 ^ 32) :
    (start + days * daily < shared → ∃ m, genAddOnly days daily start shared maxValue R = .err m) ∧
    (shared ≤ start + days * daily → 2 ^ 63 ≤ shared * maxValue → ∃ m, genAddOnly days daily start shared maxValue R = .err m) ∧
    (shared ≤ start + days * daily → maxValue = 0 → 0 < start + days * daily →
      genAddOnly days daily start shared maxValue R = .abort) := by
  unfold genAddOnly
  rw [Nat.mod_eq_of_lt htot]
  refine ⟨fun h => ⟨_, by rw [if_pos h]⟩, fun h h' => ?_, fun h h' h'' => ?_⟩
  · have hm : 0 < maxValue := Nat.pos_of_ne_zero (by rintro rfl; simp at h')
    refine ⟨"[DataUtil] shared_size * max_value is larger than int64_t::max", ?_⟩
    rw [if_neg (by omega), if_pos ⟨hm, (Nat.div_lt_iff_lt_mul hm).2 (by omega)⟩]
  · rw [if_neg (by omega), if_neg (by omega), if_pos ⟨h', h''⟩]

/-- **C54** Parameters the deletion generator does not survive: a sum with a maximum of at most 1 terminates the process; a
daily size of 0 is a division by zero. -/
theorem C54_deletion_rejects (days daily start maxValue : Nat) (R : DelRand) (htot : start + days * daily < 2 ^ 32) :
    (maxValue ≤ 1 → 0 < start + days * daily → genDeletionSets days daily start maxValue .SUM R = .abort) ∧
    (∀ rnd del tot pool cur, genDeletionDays rnd 0 del tot pool cur = .ub) ∧
    (∀ func, genDeletionSets days 0 0 maxValue func ⟨[], [], [], R.payload, R.idx0, R.idx1, R.start0, R.start1⟩ = .ub) := by
  refine ⟨fun h h' => ?_, fun _ _ _ _ _ => rfl, fun func => ?_⟩
  · unfold genDeletionSets
    simp only [if_neg (Nat.not_le.2 htot)]
    rw [if_pos ⟨trivial, h, h'⟩]
  · unfold genDeletionSets
    simp [fillGo, startGo, genDeletionDays]

/-- **C54** The loop computing the expected sum never wraps silently: it gives the exact sum when no partial sum reaches
`2^63`, and undefined behaviour otherwise. -/
theorem C54_sum_exact (p1 : List Bytes) : ∀ (es : List Bytes) (vs : List Int) (s : Int), es.length ≤ vs.length → (∀ v ∈ vs, 0 ≤ v) →
    (s + ((es.zip vs).map (fun e => if e.1 ∈ p1 then e.2 else 0)).sum < 2 ^ 63 →
      sumGo p1 es vs s = .ok (s + ((es.zip vs).map (fun e => if e.1 ∈ p1 then e.2 else 0)).sum)) ∧
    (s < 2 ^ 63 → 2 ^ 63 ≤ s + ((es.zip vs).map (fun e => if e.1 ∈ p1 then e.2 else 0)).sum → sumGo p1 es vs s = .ub) := by
  intro es
  induction es with
  | nil => intro vs s _ _; simp [sumGo]
  | cons e es ih =>
    intro vs s hl hv
    cases vs with
    | nil => simp at hl
    | cons v vs =>
      have hv0 := hv v (by simp)
      have hnn : 0 ≤ ((es.zip vs).map (fun e => if e.1 ∈ p1 then e.2 else 0)).sum := by
        refine List.sum_nonneg ?_
        intro x hx
        obtain ⟨y, hy, rfl⟩ := List.mem_map.1 hx
        split
        · exact hv _ (by simp [(List.of_mem_zip hy).2])
        · exact le_rfl
      simp only [List.zip_cons_cons, List.map_cons, List.sum_cons, sumGo]
      by_cases hm : e ∈ p1
      · simp only [if_pos hm]
        obtain ⟨i1, i2⟩ := ih vs (s + v) (by simpa using hl) (fun x hx => hv x (by simp [hx]))
        constructor
        · intro h
          rw [if_pos (by omega), i1 (by omega)]
          exact congrArg Outcome.ok (by omega)
        · intro h h'
          by_cases hb : s + v < 2 ^ 63
          · rw [if_pos hb]; exact i2 hb (by omega)
          · rw [if_neg hb]
      · simp only [if_neg hm, zero_add]
        exact ih vs s (by simpa using hl) (fun x hx => hv x (by simp [hx]))

/-- **C40** `NumericString2uint` returns the value of every non-empty numeric string below `2^63 - 48`; above it the
arithmetic overflows (the digit is added before 48 is subtracted). -/
theorem C40_numeric_exact (l : Bytes) (hl : l ≠ []) (h : ∀ c ∈ l, isDigit c = true) :
    (digitsValue l + 48 < 2 ^ 63 → numericString2uint 0 l = .ok (digitsValue l : Nat)) ∧
    (2 ^ 63 ≤ digitsValue l + 48 → numericString2uint 0 l = .ub) := by
  have key : ∀ (l : Bytes) (x : Nat), l ≠ [] → (∀ c ∈ l, isDigit c = true) →
      (x * 10 ^ l.length + digitsValue l + 48 < 2 ^ 63 → numericString2uint x l = .ok ((x * 10 ^ l.length + digitsValue l : Nat) : Int)) ∧
      (2 ^ 63 ≤ x * 10 ^ l.length + digitsValue l + 48 → numericString2uint x l = .ub) := by
    intro l
    induction l with
    | nil => intro x h; exact absurd rfl h
    | cons c l ih =>
      intro x _ h
      have hc := isDigit_bounds (h c (by simp))
      have hval : x * 10 ^ (c :: l).length + digitsValue (c :: l) = (x * 10 + (c.toNat - 48)) * 10 ^ l.length + digitsValue l := by
        rw [digitsValue_cons, List.length_cons, Nat.pow_succ']; ring
      rw [hval]
      have hp : 1 ≤ 10 ^ l.length := Nat.pow_pos (by omega)
      by_cases hs : x * 10 + c.toNat < 2 ^ 63
      · have hstep : num2uintStep x c = .ok ((x * 10 + (c.toNat - 48) : Nat) : Int) := by
          unfold num2uintStep
          rw [if_pos (by refine ⟨?_, ?_, ?_⟩ <;> omega)]
          exact congrArg Outcome.ok (by omega)
        rw [numericString2uint, hstep, Outcome.bind_ok]
        by_cases hnil : l = []
        · subst hnil
          simp only [numericString2uint, List.length_nil, pow_zero, mul_one, digitsValue, List.foldl_nil, Nat.add_zero]
          exact ⟨fun _ => trivial, fun h' => by omega⟩
        · exact ih _ hnil (fun y hy => h y (by simp [hy]))
      · have hstep : num2uintStep x c = .ub := by
          unfold num2uintStep
          rw [if_neg (by omega)]
        rw [numericString2uint, hstep]
        refine ⟨fun h' => ?_, fun _ => rfl⟩
        have : x * 10 + (c.toNat - 48) ≤ (x * 10 + (c.toNat - 48)) * 10 ^ l.length := Nat.le_mul_of_pos_right _ hp
        omega
  have := key l 0 hl h
  simpa using this

/-- **C57** The least 64-bit value cannot be converted: undefined behaviour, while every other value (positive or negative)
is converted exactly. -/
theorem C57_least_value (v : Int) :
    (v ≠ -(2 ^ 63) → valueBigNum v = .ok v) ∧ valueBigNum (-(2 ^ 63)) = .ub := by
  refine ⟨fun h => ?_, by unfold valueBigNum; simp⟩
  unfold valueBigNum
  split
  · simp
  · rfl

example : numericString2uint 0 [57, 50, 50, 51, 51, 55, 50, 48, 51, 54, 56, 53, 52, 55, 55, 53, 55, 53, 57] = .ok (2 ^ 63 - 49) ∧
    numericString2uint 0 [57, 50, 50, 51, 51, 55, 50, 48, 51, 54, 56, 53, 52, 55, 55, 53, 55, 54, 48] = .ub := by decide +kernel
example : genAddOnly 1 1 0 1 0 toyAddRand = .abort := rfl
example : wrap64 (2 ^ 63) = -2 ^ 63 ∧ wrap64 (-5) = -5 := by decide

end Upsi.Data
