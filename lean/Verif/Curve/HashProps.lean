import Verif.Curve.HashToCurve
import Verif.Curve.OracleProps
import Mathlib.NumberTheory.LegendreSymbol.Basic
import Mathlib.AlgebraicGeometry.EllipticCurve.Affine.Point
/-
Property theorems C27: hashing to the curve.
-/
namespace Upsi.Curve
open Upsi Upsi.Num

/-! ### Specification -/

/-- The value of the random oracle below `p` (0 if it aborts). -/
def oracleValue (H : Bytes → Bytes) (len p : Nat) (x : Bytes) : Nat :=
  match randomOracle H len x p with
  | .ok v => v
  | _ => 0

/-- The x candidates: the oracle value of the input, then always the oracle value of the previous candidate. -/
def candidate (H : Bytes → Bytes) (len p : Nat) (m : Bytes) : Nat → Nat
  | 0 => oracleValue H len p m
  | i + 1 => oracleValue H len p (natBytes (candidate H len p m i))

/-- `x` is the abscissa of a point that is not its own inverse: the right-hand side of the curve equation is a
non-zero square modulo `p`. -/
def Usable (C : Params) (x : Nat) : Prop := ∃ r, 0 < r ∧ r < C.p ∧ r * r % C.p = (x ^ 3 + C.a * x + C.b) % C.p

/-- What is assumed of `BN_mod_sqrt`: on squares it returns one of the roots. -/
def SqrtMod (p : Nat) (f : Nat → Nat) : Prop := ∀ q, q < p → (∃ r, r * r % p = q) → f q < p ∧ f q * f q % p = q

/-! ### Lemmas -/

theorem isSquare_iff (C : Params) (hp : C.p.Prime) (h2 : C.p ≠ 2) (q : Nat) (hq : q < C.p) :
    isSquare C q = true ↔ ∃ r, 0 < r ∧ r < C.p ∧ r * r % C.p = q := by
  haveI : Fact C.p.Prime := ⟨hp⟩
  have hodd : C.p % 2 = 1 := by
    rcases hp.eq_two_or_odd with h | h
    · exact absurd h h2
    · exact h
  have hpos := hp.two_le
  have hhalf : (C.p - 1) / 2 = C.p / 2 := by omega
  have key : isSquare C q = true ↔ ((q : ZMod C.p)) ^ (C.p / 2) = 1 := by
    unfold isSquare
    rw [decide_eq_true_iff, powMod_eq, hhalf]
    have : ((q : ZMod C.p)) ^ (C.p / 2) = 1 ↔ (((q : Int) ^ (C.p / 2) : Int) : ZMod C.p) = ((1 : Int) : ZMod C.p) := by
      push_cast; rfl
    rw [this, ZMod.intCast_eq_intCast_iff]
    unfold Int.ModEq
    rw [show (1 : Int) % (C.p : Int) = 1 from Int.emod_eq_of_lt (by decide) (by omega)]
  rw [key]
  constructor
  · intro h
    have hq0 : (q : ZMod C.p) ≠ 0 := by
      intro h0
      rw [h0, zero_pow (by omega)] at h
      exact zero_ne_one h
    obtain ⟨r, hr⟩ := (ZMod.euler_criterion C.p hq0).2 h
    refine ⟨r.val, ?_, ZMod.val_lt r, ?_⟩
    · rcases Nat.eq_zero_or_pos r.val with h0 | h0
      · rw [ZMod.val_eq_zero] at h0
        subst h0
        simp at hr
        exact absurd hr hq0
      · exact h0
    · have : ((r.val * r.val : Nat) : ZMod C.p) = (q : Nat) := by
        push_cast; rw [ZMod.natCast_val, ZMod.cast_id]; exact hr.symm
      have := (ZMod.natCast_eq_natCast_iff' _ _ _).1 this
      rwa [Nat.mod_eq_of_lt hq] at this
  · rintro ⟨r, h0, hlt, hr⟩
    have hr' : (q : ZMod C.p) = (r : ZMod C.p) * r := by
      rw [← Nat.cast_mul]
      refine (ZMod.natCast_eq_natCast_iff' _ _ _).2 ?_
      rw [Nat.mod_eq_of_lt hq, hr]
    have hr0 : (r : ZMod C.p) ≠ 0 := by
      intro h
      have := (ZMod.natCast_eq_zero_iff _ _).1 h
      exact absurd (Nat.le_of_dvd h0 this) (by omega)
    have hq0 : (q : ZMod C.p) ≠ 0 := by rw [hr']; exact mul_ne_zero hr0 hr0
    exact (ZMod.euler_criterion C.p hq0).1 ⟨r, hr'⟩

/-- Two even roots below an odd prime are equal. -/
theorem even_root_unique {p : Nat} (hp : p.Prime) (h2 : p ≠ 2) {r s : Nat} (hr : r < p) (hs : s < p)
    (er : r % 2 = 0) (es : s % 2 = 0) (h : r * r % p = s * s % p) : r = s := by
  haveI : Fact p.Prime := ⟨hp⟩
  have hodd : p % 2 = 1 := by
    rcases hp.eq_two_or_odd with h | h
    · exact absurd h h2
    · exact h
  have hz : (r : ZMod p) * r = (s : ZMod p) * s := by
    rw [← Nat.cast_mul, ← Nat.cast_mul]
    exact (ZMod.natCast_eq_natCast_iff' _ _ _).2 h
  have : ((r : ZMod p) - s) * (r + s) = 0 := by ring_nf; rw [pow_two, pow_two, hz]; ring
  rcases mul_eq_zero.1 this with h | h
  · have := sub_eq_zero.1 h
    have := (ZMod.natCast_eq_natCast_iff' _ _ _).1 this
    rwa [Nat.mod_eq_of_lt hr, Nat.mod_eq_of_lt hs] at this
  · rw [← Nat.cast_add] at h
    obtain ⟨k, hk⟩ := (ZMod.natCast_eq_zero_iff _ _).1 h
    have : k < 2 := by
      by_contra hk2
      have : p * 2 ≤ p * k := Nat.mul_le_mul_left p (by omega)
      omega
    interval_cases k <;> omega

/-- The even root the point creation receives. -/
theorem hashInternal_usable (C : Params) (hp : C.p.Prime) (h2 : C.p ≠ 2) (sqrt : Nat → Nat) (hsq : SqrtMod C.p sqrt)
    (x : Nat) (hx : x < C.p) (hu : Usable C x) :
    ∃ y, hashInternal C sqrt x = .ok (x, y) ∧ 0 < y ∧ y < C.p ∧ y % 2 = 0 ∧
      y * y % C.p = (x ^ 3 + C.a * x + C.b) % C.p := by
  have hodd : C.p % 2 = 1 := by
    rcases hp.eq_two_or_odd with h | h
    · exact absurd h h2
    · exact h
  have hlt : ySquare C x < C.p := Nat.mod_lt _ hp.pos
  have hs := (isSquare_iff C hp h2 (ySquare C x) hlt).2 hu
  obtain ⟨r, r0, rlt, hr⟩ := hu
  obtain ⟨sl, sr⟩ := hsq (ySquare C x) hlt ⟨r, hr⟩
  have s0 : 0 < sqrt (ySquare C x) := by
    rcases Nat.eq_zero_or_pos (sqrt (ySquare C x)) with h | h
    · rw [h] at sr
      have : r * r % C.p = 0 := by rw [hr]; exact sr.symm.trans (by simp)
      have := (hp.dvd_mul.1 (Nat.dvd_of_mod_eq_zero this))
      have : C.p ∣ r := by tauto
      exact absurd (Nat.le_of_dvd r0 this) (by omega)
    · exact h
  unfold hashInternal
  simp only [Nat.mod_eq_of_lt hx, hs, if_true]
  generalize hsv : sqrt (ySquare C x) = s at *
  by_cases hb : s.testBit 0
  · rw [if_pos hb]
    have hneg : modNegate (s : Int) C.p = .ok ((C.p : Int) - s) := by
      simp only [modNegate, mod, if_neg (show ¬ (s : Int) = 0 by omega), if_neg (show ¬ (C.p : Int) = 0 by omega),
        Outcome.bind_ok, Outcome.pure_eq]
      rw [Int.emod_eq_of_lt (by omega) (by omega)]
    have htn : ((C.p : Int) - s).toNat = C.p - s := by omega
    have hroot : (C.p - s) * (C.p - s) % C.p = ySquare C x := by
      rw [← sr]
      have : (((C.p - s : Nat)) : ZMod C.p) = -(s : ZMod C.p) := by
        rw [Nat.cast_sub (by omega)]; simp
      refine (ZMod.natCast_eq_natCast_iff' _ _ _).1 ?_
      push_cast
      rw [this]; ring
    rw [hneg]
    refine ⟨C.p - s, ?_, by omega, by omega, ?_, hroot⟩
    · simp only [Outcome.bind_ok, htn, createXY, if_pos hroot]
    · simp [Nat.testBit_zero] at hb; omega
  · rw [if_neg hb]
    refine ⟨s, by simp only [createXY, if_pos sr], s0, sl, ?_, sr⟩
    simp [Nat.testBit_zero] at hb; omega

theorem hashInternal_unusable (C : Params) (hp : C.p.Prime) (h2 : C.p ≠ 2) (sqrt : Nat → Nat)
    (x : Nat) (hx : x < C.p) (hu : ¬ Usable C x) : ∃ e, hashInternal C sqrt x = .err e := by
  have hlt : ySquare C x < C.p := Nat.mod_lt _ hp.pos
  have hs : isSquare C (ySquare C x) = false := by
    rw [← Bool.not_eq_true, isSquare_iff C hp h2 (ySquare C x) hlt]; exact hu
  refine ⟨"Could not hash x to the curve.", ?_⟩
  unfold hashInternal
  simp only [Nat.mod_eq_of_lt hx, hs]
  rfl

/-- **C27** Point creation is checked: whatever square root the library returns, a point that is returned lies on the curve, and
if the root of a usable candidate is wrong the process ends. -/
theorem C27_checked (C : Params) (hp : C.p.Prime) (h2 : C.p ≠ 2) (sqrt : Nat → Nat) (hlt : ∀ q, sqrt q < C.p) (x : Nat) :
    (∀ pt, hashInternal C sqrt x = .ok pt → pt.1 = x % C.p ∧ pt.2 * pt.2 % C.p = (pt.1 ^ 3 + C.a * pt.1 + C.b) % C.p) ∧
    (Usable C (x % C.p) → sqrt (ySquare C (x % C.p)) * sqrt (ySquare C (x % C.p)) % C.p ≠ ySquare C (x % C.p) →
      hashInternal C sqrt x = .abort) := by
  have hcr : ∀ a y pt, createXY C a y = .ok pt → pt.1 = a ∧ pt.2 * pt.2 % C.p = (pt.1 ^ 3 + C.a * pt.1 + C.b) % C.p := by
    intro a y pt h
    unfold createXY at h
    split at h
    · rename_i hc
      obtain rfl := Outcome.ok.inj h
      exact ⟨rfl, hc⟩
    · simp at h
  constructor
  · intro pt h
    unfold hashInternal at h
    simp only at h
    split at h
    · split at h
      · simp only [Outcome.bind_eq_ok] at h
        obtain ⟨n, _, h⟩ := h
        exact hcr _ _ _ h
      · exact hcr _ _ _ h
    · simp at h
  · intro hu hw
    have hsl : ySquare C (x % C.p) < C.p := Nat.mod_lt _ hp.pos
    have hs := (isSquare_iff C hp h2 _ hsl).2 hu
    have hl := hlt (ySquare C (x % C.p))
    unfold hashInternal
    simp only [hs, if_true]
    generalize sqrt (ySquare C (x % C.p)) = s at *
    by_cases hb : s.testBit 0
    · rw [if_pos hb]
      have s0 : 0 < s := by
        rcases Nat.eq_zero_or_pos s with h | h
        · subst h; simp at hb
        · exact h
      have hneg : modNegate (s : Int) C.p = .ok ((C.p : Int) - s) := by
        simp only [modNegate, mod, if_neg (show ¬ (s : Int) = 0 by omega), if_neg (show ¬ (C.p : Int) = 0 by omega),
          Outcome.bind_ok, Outcome.pure_eq]
        rw [Int.emod_eq_of_lt (by omega) (by omega)]
      have htn : ((C.p : Int) - s).toNat = C.p - s := by omega
      have hroot : (C.p - s) * (C.p - s) % C.p = s * s % C.p := by
        have : (((C.p - s : Nat)) : ZMod C.p) = -(s : ZMod C.p) := by
          rw [Nat.cast_sub (by omega)]; simp
        refine (ZMod.natCast_eq_natCast_iff' _ _ _).1 ?_
        push_cast
        rw [this]; ring
      rw [hneg]
      simp only [Outcome.bind_ok, htn, createXY]
      rw [if_neg (by rw [hroot]; exact hw)]
    · rw [if_neg hb, createXY, if_neg hw]

/-- The chain of candidates from a given one. -/
def chain (f : Bytes → Nat) (x : Nat) : Nat → Nat
  | 0 => x
  | i + 1 => f (natBytes (chain f x i))

theorem chain_shift (f : Bytes → Nat) (x : Nat) (i : Nat) : chain f x (i + 1) = chain f (f (natBytes x)) i := by
  induction i with
  | zero => rfl
  | succ i ih => rw [chain, ih, chain]

theorem hashLoop_iff (ro : Bytes → Outcome Nat) (f : Bytes → Nat) (hro : ∀ b, ro b = .ok (f b)) (C : Params)
    (hf : ∀ b, f b < C.p) (hp : C.p.Prime) (h2 : C.p ≠ 2) (sqrt : Nat → Nat) (hsq : SqrtMod C.p sqrt)
    (o : Outcome (Nat × Nat)) : ∀ (fuel x : Nat), x < C.p →
    (hashLoop ro C sqrt fuel x = some o ↔ ∃ k, k < fuel ∧ ∃ y, o = .ok (chain f x k, y) ∧ 0 < y ∧ y < C.p ∧ y % 2 = 0 ∧
      y * y % C.p = ((chain f x k) ^ 3 + C.a * (chain f x k) + C.b) % C.p ∧ ∀ j, j < k → ¬ Usable C (chain f x j)) := by
  intro fuel
  induction fuel with
  | zero => intro x _; simp [hashLoop]
  | succ fuel ih =>
    intro x hx
    by_cases hu : Usable C x
    · obtain ⟨y, e, y0, yl, ye, yr⟩ := hashInternal_usable C hp h2 sqrt hsq x hx hu
      simp only [hashLoop, e]
      constructor
      · intro h
        refine ⟨0, by omega, y, (Option.some.inj h).symm, y0, yl, ye, yr, by simp⟩
      · rintro ⟨k, hk, y', ho, y0', yl', ye', yr', hmin⟩
        cases k with
        | zero =>
          rw [ho]
          simp only [chain] at yr' ⊢
          rw [even_root_unique hp h2 yl yl' ye ye' (yr.trans yr'.symm)]
        | succ k => exact absurd hu (hmin 0 (by omega))
    · obtain ⟨e, he⟩ := hashInternal_unusable C hp h2 sqrt x hx hu
      simp only [hashLoop, he, hro]
      rw [ih _ (hf _)]
      constructor
      · rintro ⟨k, hk, y, ho, y0, yl, ye, yr, hmin⟩
        refine ⟨k + 1, by omega, y, by rw [chain_shift]; exact ho, y0, yl, ye, by rw [chain_shift]; exact yr, ?_⟩
        intro j hj
        cases j with
        | zero => exact hu
        | succ j => rw [chain_shift]; exact hmin j (by omega)
      · rintro ⟨k, hk, y, ho, y0, yl, ye, yr, hmin⟩
        cases k with
        | zero => exact absurd ⟨y, y0, yl, yr⟩ hu
        | succ k =>
          rw [chain_shift] at ho yr
          refine ⟨k, by omega, y, ho, y0, yl, ye, yr, ?_⟩
          intro j hj
          have := hmin (j + 1) (by omega)
          rwa [chain_shift] at this

theorem candidate_eq_chain (H : Bytes → Bytes) (len p : Nat) (m : Bytes) (i : Nat) :
    candidate H len p m i = chain (oracleValue H len p) (oracleValue H len p m) i := by
  induction i with
  | zero => rfl
  | succ i ih => rw [candidate, ih, chain]

/-! ### Theorems -/

/-- **C27** Hashing to the curve returns, for every input, the point whose abscissa is the first usable candidate and
whose ordinate is its even root; it runs on as long as there is no usable candidate.  It never fails. -/
theorem C27_exact (H : Bytes → Bytes) (len : Nat) (hlen : 0 < len) (hH : ∀ b, ofBytes (H b) < 2 ^ len) (C : Params)
    (hp : C.p.Prime) (h2 : C.p ≠ 2) (hs : OracleSize len (bitLength C.p)) (sqrt : Nat → Nat) (hsq : SqrtMod C.p sqrt)
    (fuel : Nat) (m : Bytes) (o : Outcome (Nat × Nat)) :
    hashToCurve H len C sqrt fuel m = some o ↔
      ∃ k, k < fuel ∧ (∀ j, j < k → ¬ Usable C (candidate H len C.p m j)) ∧
        ∃ x y, o = .ok (x, y) ∧ x = candidate H len C.p m k ∧ x < C.p ∧
          0 < y ∧ y < C.p ∧ y % 2 = 0 ∧ y * y % C.p = (x ^ 3 + C.a * x + C.b) % C.p := by
  have hro : ∀ b, randomOracle H len b C.p = .ok (oracleValue H len C.p b) ∧ oracleValue H len C.p b < C.p := by
    intro b
    obtain ⟨w, _, e, l⟩ := (C58_oracle H len hlen hH b C.p).1 ⟨hp.pos, hs⟩
    simp only [oracleValue, e, l, and_self]
  have hlt : ∀ k, candidate H len C.p m k < C.p := by
    intro k; cases k <;> exact (hro _).2
  unfold hashToCurve
  simp only [(hro m).1]
  rw [hashLoop_iff _ (oracleValue H len C.p) (fun b => (hro b).1) C (fun b => (hro b).2) hp h2 sqrt hsq o fuel _ (hro m).2]
  simp only [← candidate_eq_chain]
  constructor
  · rintro ⟨k, hk, y, ho, y0, yl, ye, yr, hmin⟩
    exact ⟨k, hk, hmin, _, y, ho, rfl, hlt k, y0, yl, ye, yr⟩
  · rintro ⟨k, hk, hmin, x, y, ho, rfl, _, y0, yl, ye, yr⟩
    exact ⟨k, hk, y, ho, y0, yl, ye, yr, hmin⟩

/-- **C27** The result does not depend on which square root the arithmetic library returns. -/
theorem C27_deterministic (H : Bytes → Bytes) (len : Nat) (hlen : 0 < len) (hH : ∀ b, ofBytes (H b) < 2 ^ len) (C : Params)
    (hp : C.p.Prime) (h2 : C.p ≠ 2) (hs : OracleSize len (bitLength C.p)) (s1 s2 : Nat → Nat) (h1 : SqrtMod C.p s1)
    (hs2 : SqrtMod C.p s2) (fuel : Nat) (m : Bytes) :
    hashToCurve H len C s1 fuel m = hashToCurve H len C s2 fuel m := by
  refine Option.ext fun o => ?_
  exact (C27_exact H len hlen hH C hp h2 hs s1 h1 fuel m o).trans (C27_exact H len hlen hH C hp h2 hs s2 hs2 fuel m o).symm

/-- **C27** Once it has returned, more rounds change nothing. -/
theorem C27_stable (H : Bytes → Bytes) (len : Nat) (hlen : 0 < len) (hH : ∀ b, ofBytes (H b) < 2 ^ len) (C : Params)
    (hp : C.p.Prime) (h2 : C.p ≠ 2) (hs : OracleSize len (bitLength C.p)) (sqrt : Nat → Nat) (hsq : SqrtMod C.p sqrt)
    (fuel more : Nat) (m : Bytes) (o : Outcome (Nat × Nat)) (h : hashToCurve H len C sqrt fuel m = some o) :
    hashToCurve H len C sqrt (fuel + more) m = some o := by
  obtain ⟨k, hk, rest⟩ := (C27_exact H len hlen hH C hp h2 hs sqrt hsq fuel m o).1 h
  exact (C27_exact H len hlen hH C hp h2 hs sqrt hsq (fuel + more) m o).2 ⟨k, by omega, rest⟩

/-- The curve `y² = x³ + a x + b` over the field with `p` elements, as defined in Mathlib. -/
def curve (C : Params) : WeierstrassCurve.Affine (ZMod C.p) := ⟨0, 0, 0, C.a, C.b⟩

/-- **C27** The returned pair is an affine (hence not infinite), non-singular point of the elliptic curve. -/
theorem C27_on_curve (H : Bytes → Bytes) (len : Nat) (hlen : 0 < len) (hH : ∀ b, ofBytes (H b) < 2 ^ len) (C : Params)
    (hp : C.p.Prime) (h2 : C.p ≠ 2) (hs : OracleSize len (bitLength C.p)) (sqrt : Nat → Nat) (hsq : SqrtMod C.p sqrt)
    (fuel : Nat) (m : Bytes) (o : Outcome (Nat × Nat)) (h : hashToCurve H len C sqrt fuel m = some o) :
    ∃ x y : Nat, o = .ok (x, y) ∧ (curve C).Nonsingular (x : ZMod C.p) (y : ZMod C.p) := by
  haveI : Fact C.p.Prime := ⟨hp⟩
  obtain ⟨k, _, _, x, y, ho, _, _, y0, yl, _, yr⟩ := (C27_exact H len hlen hH C hp h2 hs sqrt hsq fuel m o).1 h
  refine ⟨x, y, ho, ?_⟩
  have hz : (y : ZMod C.p) * y = (x : ZMod C.p) ^ 3 + C.a * x + C.b := by
    have := (ZMod.natCast_eq_natCast_iff' _ _ _).2 yr
    push_cast at this
    exact this
  have hy0 : (y : ZMod C.p) ≠ 0 := by
    intro h
    exact absurd (Nat.le_of_dvd y0 ((ZMod.natCast_eq_zero_iff _ _).1 h)) (by omega)
  have h20 : (2 : ZMod C.p) ≠ 0 := by
    intro h
    have : ((2 : Nat) : ZMod C.p) = 0 := by exact_mod_cast h
    have := (Nat.prime_dvd_prime_iff_eq hp Nat.prime_two).1 ((ZMod.natCast_eq_zero_iff _ _).1 this)
    exact h2 this
  rw [WeierstrassCurve.Affine.nonsingular_iff, WeierstrassCurve.Affine.equation_iff]
  refine ⟨?_, Or.inr ?_⟩
  · simp only [curve]; rw [pow_two, hz]; ring
  · simp only [curve]
    intro h
    have : (2 : ZMod C.p) * y = 0 := by linear_combination h
    exact (mul_ne_zero h20 hy0) this

/-- A point of the curve's group is therefore obtained, different from its zero. -/
theorem C27_not_infinity (C : Params) [Fact C.p.Prime] (x y : ZMod C.p) (h : (curve C).Nonsingular x y) :
    WeierstrassCurve.Affine.Point.some x y h ≠ 0 := WeierstrassCurve.Affine.Point.some_ne_zero h

/-! Non-vacuity: the curve `y² = x³ + x + 1` over the field with 7 elements, an 8-bit "hash". -/

def toyCurve : Params := ⟨7, 1, 1⟩
/-- Roots modulo 7: `q^2`, as `7 = 3 mod 4`. -/
def toySqrt (q : Nat) : Nat := q ^ 2 % 7
def toyHash8 (b : Bytes) : Bytes := [UInt8.ofNat (b.foldl (fun a c => a * 3 + c.toNat) 1)]

example : SqrtMod 7 toySqrt := by
  rintro q hq ⟨r, hr⟩
  have h : r % 7 * (r % 7) % 7 = q := by rw [← Nat.mul_mod]; exact hr
  have h7 : r % 7 < 7 := Nat.mod_lt _ (by decide)
  generalize r % 7 = s at *
  subst h
  interval_cases s <;> decide

example : OracleSize 8 (bitLength 7) := by unfold OracleSize bitLength; decide +kernel
example (b : Bytes) : ofBytes (toyHash8 b) < 2 ^ 8 := by
  have := ofBytes_lt (toyHash8 b)
  simpa [toyHash8] using this

/-- Two candidates (6 and 4) are skipped; the third (2) gives the point `(2, 2)`. -/
example : hashToCurve toyHash8 8 toyCurve toySqrt 9 [1] = some (.ok (2, 2)) := by decide +kernel

end Upsi.Curve
