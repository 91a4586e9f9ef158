import Verif.Num.BigNumProps
import Verif.Num.ModularProps
import Verif.Data.DatasetProps
import Mathlib.Data.Nat.Prime.Basic
/-
C68: the integer-level functions used in the rest of the model are those of the sign-and-magnitude model; decimal strings;
safe primes.
-/
namespace Upsi.Num.BN
open Upsi Upsi.Num

variable {a b m p : BN}

/-- **C68** The functions on integers used in the rest of the model (`Num/Bytes.lean`, `Num/Modular.lean`) are the methods
of `BigNum` seen through the represented integers, errors included. -/
theorem C68_refinement (ha : a.WF) (hb : b.WF) (hp : p.WF) (hm : m.WF) :
    vals (mod a m) = Num.mod a.val m.val ∧ vals (modMul a b m) = Num.modMul a.val b.val m.val ∧
    vals (modSqr a m) = Num.modSqr a.val m.val ∧ vals (modExp a p m) = Num.modExp a.val p.val m.val ∧
    vals (modNegate a m) = Num.modNegate a.val m.val ∧ vals (div a b) = Num.div a.val b.val ∧
    (∀ n : Nat, 0 ≤ a.val → (lastNBits a n).val = (getLastNBits a.val.toNat n : Nat)) := by
  have hmod : vals (mod a m) = Num.mod a.val m.val := (vals_check_nnmod hm).1
  refine ⟨hmod, ?_, ?_, ?_, ?_, ?_, ?_⟩
  · rw [modMul, (vals_check_nnmod hm).1, mul_spec.2]; rfl
  · by_cases h : m.val = 0
    · rw [((C68_modular ha hb hm).1 h).2.2.2.2, Num.modSqr, Num.modMul, if_pos h]; rfl
    · obtain ⟨r, e, w, h0, h1, hd⟩ := (C68_modular ha hb hm).2 h (modSqr a m) (a.val * a.val) (by simp)
      rw [e, Num.modSqr, Num.modMul, if_neg h]
      refine congrArg Outcome.ok ?_
      rw [← emod_eq_of_lt_abs h0 h1]
      exact Int.modEq_iff_dvd.2 hd
  · rw [Num.modExp]
    by_cases h1 : p.val < 0
    · rw [if_pos h1, (C68_mod_exp ha hp hm).1 (Or.inl h1)]; rfl
    · by_cases h2 : m.val ≤ 0
      · rw [if_neg h1, if_pos h2, (C68_mod_exp ha hp hm).1 (Or.inr h2)]; rfl
      · obtain ⟨r, e, _, v⟩ := (C68_mod_exp ha hp hm).2 (by omega) (by omega)
        rw [if_neg h1, if_neg h2, e, powMod_eq, ← v]; rfl
  · by_cases h : a.val = 0
    · rw [(C68_mod_negate ha hm).1 h, Num.modNegate]
      simp only [vals, Outcome.bind_ok, h, if_true, Outcome.pure_eq]
    · by_cases h' : m.val = 0
      · rw [(C68_mod_negate ha hm).2.1 h h', Num.modNegate]
        simp only [if_neg h, Num.mod, if_pos h']; rfl
      · obtain ⟨r, e, _, v⟩ := (C68_mod_negate ha hm).2.2 h h'
        rw [e, Num.modNegate]
        simp only [if_neg h, Num.mod, if_neg h', Outcome.bind_ok, vals, v, Outcome.pure_eq]
  · rw [Num.div]
    by_cases h : b.val = 0
    · rw [if_pos h, ((C68_division a b).1 h).1]; rfl
    · rw [if_neg h]
      by_cases hd : b.val ∣ a.val
      · obtain ⟨q, e, _, v⟩ := (C68_division a b).2.2.1 h hd
        rw [e, if_pos (Int.tmod_eq_zero_of_dvd hd), ← v, Int.mul_tdiv_cancel _ h]; rfl
      · rw [(C68_division a b).2.2.2 hd, if_neg (fun hz => hd (Int.dvd_of_tmod_eq_zero hz))]; rfl
  · intro n h0
    rw [((C68_bits ha n).2.2.2.1).2, getLastNBits, Int.tmod_eq_emod_of_nonneg h0]
    push_cast
    rw [Int.toNat_of_nonneg h0]

/-- `ToDecimalString` (`BN_bn2dec`): big_num.cc:114-116. -/
def toDecimal (a : BN) : List UInt8 := if a.neg then 45 :: Data.digits a.mag else Data.digits a.mag

/-- **C68** `ToDecimalString` is the usual decimal notation (the one of `std::to_string`), and different numbers give
different strings, so elements may be compared through their decimal strings (as the original protocol and deletion-psi do). -/
theorem C68_decimal (ha : a.WF) (hb : b.WF) : toDecimal a = Data.showInt a.val ∧ (toDecimal a = toDecimal b → a = b) := by
  have key : ∀ {x : BN}, x.WF → toDecimal x = Data.showInt x.val := by
    intro x hx
    rw [Data.showInt, natAbs_val, toDecimal]
    by_cases h : x.neg = true
    · have hneg : x.val < 0 := by
        by_contra hc
        have := (val_nonneg_iff hx).1 (by omega)
        rw [h] at this; exact absurd this (by simp)
      rw [if_pos h, if_pos hneg]
    · have := (val_nonneg_iff hx).2 (by simpa using h)
      rw [if_neg h, if_neg (by omega)]
  refine ⟨key ha, fun h => ?_⟩
  obtain ⟨n1, d1, v1⟩ := Data.digits_spec a.mag
  obtain ⟨n2, d2, v2⟩ := Data.digits_spec b.mag
  have hno : ∀ l r : List UInt8, (∀ c ∈ l, Data.isDigit c = true) → l ≠ 45 :: r := by
    rintro l r hl rfl
    have := hl 45 (by simp)
    exact absurd this (by decide)
  obtain ⟨na, x⟩ := a
  obtain ⟨nb, y⟩ := b
  simp only [toDecimal] at h
  cases na <;> cases nb <;> simp only [Bool.false_eq_true, if_false, if_true] at h
  · rw [BN.mk.injEq]; exact ⟨rfl, v1.symm.trans ((congrArg Data.digitsValue h).trans v2)⟩
  · exact absurd h (hno _ _ d1)
  · exact absurd h.symm (hno _ _ d2)
  · rw [BN.mk.injEq]; exact ⟨rfl, v1.symm.trans ((congrArg Data.digitsValue (List.cons.inj h).2).trans v2)⟩

/-- **C68** `IsSafePrime` decides whether a number and half of it minus one are both (found) prime — except for 2, for which
it aborts instead of answering, as it divides 1 by 2 with `Div`. -/
theorem C68_safe_prime (isPrime : BN → Bool) (hprime : ∀ x : BN, x.WF → (isPrime x = true ↔ ∃ q : Nat, q.Prime ∧ x.val = q)) (ha : a.WF) :
    (a.val = 2 → isSafePrime isPrime a = .abort) ∧
    (a.val ≠ 2 → ∃ r, isSafePrime isPrime a = .ok r ∧ (r = true ↔ ∃ q : Nat, q.Prime ∧ (2 * q + 1).Prime ∧ a.val = 2 * q + 1)) := by
  have hs := sub_spec ha (wf_pos 1)
  rw [val_pos] at hs
  constructor
  · intro h2
    have h1 : isPrime a = true := (hprime a ha).2 ⟨2, Nat.prime_two, by simpa using h2⟩
    rw [isSafePrime, if_pos h1, (C68_division (sub a (ofNat 1)) (ofNat 2)).2.2.2]
    · rfl
    · change ¬ ((2 : Nat) : Int) ∣ (bnSub a ⟨false, 1⟩).val
      rw [hs.2, h2]; decide
  · intro h2
    unfold isSafePrime
    by_cases h1 : isPrime a = true
    · obtain ⟨q, hq, hv⟩ := (hprime a ha).1 h1
      have hodd : q % 2 = 1 := hq.eq_two_or_odd.resolve_left (by rintro rfl; exact h2 hv)
      have hd : (ofNat 2).val ∣ (sub a (ofNat 1)).val := by
        change ((2 : Nat) : Int) ∣ (bnSub a ⟨false, 1⟩).val
        rw [hs.2, hv]; omega
      obtain ⟨t, e, wt, vt⟩ := (C68_division (sub a (ofNat 1)) (ofNat 2)).2.2.1 (by decide) hd
      have vt' : t.val * 2 = (q : Int) - 1 := by
        have h3 : (sub a (ofNat 1)).val = a.val - 1 := hs.2
        rw [h3, hv] at vt
        exact vt
      refine ⟨isPrime t, by rw [if_pos h1, e]; rfl, ?_⟩
      rw [hprime t wt]
      constructor
      · rintro ⟨u, hu, hvu⟩
        have : q = 2 * u + 1 := by omega
        exact ⟨u, hu, this ▸ hq, by rw [hv]; omega⟩
      · rintro ⟨u, hu, _, hvu⟩
        exact ⟨u, hu, by omega⟩
    · refine ⟨false, by rw [if_neg h1]; rfl, ?_⟩
      simp only [Bool.false_eq_true, false_iff]
      rintro ⟨q, _, hq, hv⟩
      exact h1 ((hprime a ha).2 ⟨2 * q + 1, hq, by rw [hv]; push_cast; ring⟩)

/-- **C68** `ModInverse`, for a modulus above 1, returns an inverse exactly for the numbers coprime to the modulus, and an
error status (not a crash) otherwise; the inverse is the only one in `[0, m)`. -/
theorem C68_mod_inverse {x m : Int} (hm : 1 < m) :
    (Int.gcd x m = 1 → ∃ y, Num.modInverse x m = .ok y ∧ 0 ≤ y ∧ y < m ∧ x * y % m = 1 ∧
      ∀ z, 0 ≤ z → z < m → x * z % m = 1 → z = y) ∧
    (Int.gcd x m ≠ 1 → (∃ e, Num.modInverse x m = .err e) ∧ ∀ z, x * z % m ≠ 1) := by
  have h1m : (1 : Int) % m = 1 := Int.emod_eq_of_lt (by omega) hm
  constructor
  · intro h
    obtain ⟨y, e, hy⟩ := modInverse_ok h
    obtain ⟨h0, h1⟩ := modInverse_range (by omega) e
    have hxy : x * y % m = 1 := by rw [mul_comm]; exact Eq.trans hy h1m
    refine ⟨y, e, h0, h1, hxy, fun z z0 z1 hz => ?_⟩
    have hzy : z ≡ y [ZMOD m] := by
      have h2 : x * z ≡ x * y [ZMOD m] := Eq.trans hz hxy.symm
      have h3 : y * (x * z) ≡ y * (x * y) [ZMOD m] := h2.mul_left y
      have h4 : y * x * z ≡ 1 * z [ZMOD m] := hy.mul_right z
      have h5 : y * x * y ≡ 1 * y [ZMOD m] := hy.mul_right y
      rw [one_mul] at h4 h5
      rw [← mul_assoc, ← mul_assoc] at h3
      exact h4.symm.trans (h3.trans h5)
    rw [← Int.emod_eq_of_lt z0 z1, ← Int.emod_eq_of_lt h0 h1]; exact hzy
  · intro h
    refine ⟨⟨_, by rw [Num.modInverse, if_neg h]⟩, fun z hz => h ?_⟩
    have hd : ((Int.gcd x m : Nat) : Int) ∣ 1 := by
      rw [← hz, Int.emod_def]
      exact dvd_sub (dvd_mul_of_dvd_left (Int.gcd_dvd_left ..) _) (dvd_mul_of_dvd_left (Int.gcd_dvd_right ..) _)
    exact Nat.dvd_one.1 (by exact_mod_cast hd)

/-! Non-vacuity: every integer is represented, and the operations on a few representations. -/
example (x : Int) : (ofInt x).WF ∧ (ofInt x).val = x := ⟨wf_ofInt x, val_ofInt x⟩
example : mod ⟨true, 7⟩ ⟨false, 5⟩ = .ok ⟨false, 3⟩ ∧ mod ⟨true, 7⟩ ⟨true, 5⟩ = .ok ⟨false, 3⟩ ∧ mod ⟨false, 7⟩ ⟨true, 5⟩ = .ok ⟨false, 2⟩ := by decide
example : modExp ⟨true, 2⟩ ⟨false, 5⟩ ⟨false, 7⟩ = .ok ⟨false, 3⟩ ∧ exp ⟨true, 2⟩ ⟨true, 3⟩ = ⟨true, 8⟩ := by decide +kernel
example : modNegate ⟨false, 10⟩ ⟨false, 5⟩ = .ok ⟨false, 5⟩ ∧ div ⟨true, 7⟩ ⟨false, 2⟩ = .abort ∧ divTrunc ⟨true, 7⟩ ⟨false, 2⟩ = .ok ⟨true, 3⟩ := by decide
example : Num.modInverse (-3) 10 = .ok 3 ∧ Num.modInverse 4 10 = .err "BigNum::ModInverse failed" := by decide

end Upsi.Num.BN
