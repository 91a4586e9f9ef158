import Verif.Proto.GcModel
import Verif.Num.BytesProps
import Mathlib.Data.Int.ModEq
import Mathlib.Order.Interval.Finset.Nat
import Mathlib.Tactic.Ring
import Mathlib.Tactic.Linarith
import Mathlib.Algebra.Ring.Divisibility.Basic
/- Property theorems C49: the centered share arithmetic of the circuit phase. -/
namespace Upsi.Proto
open Upsi Upsi.Num

/-- Specification: the representative of `s` modulo `n` of least magnitude. -/
def centered (n s : Int) : Int := if 2 * (s % n) > n then s % n - n else s % n

/-- `centered` is the only number congruent to `s` modulo `n` in `(-n/2, n/2]`. -/
theorem C49_centered (n s : Int) (hn : 0 < n) (c : Int) :
    c = centered n s ↔ (n ∣ s - c ∧ -n < 2 * c ∧ 2 * c ≤ n) := by
  have h0 := Int.emod_nonneg s hn.ne'
  have h1 := Int.emod_lt_of_pos s hn
  have h2 := Int.mul_ediv_add_emod s n
  have key : n ∣ s - centered n s ∧ -n < 2 * centered n s ∧ 2 * centered n s ≤ n := by
    unfold centered
    split
    · exact ⟨⟨s / n + 1, by linarith⟩, by omega, by omega⟩
    · exact ⟨⟨s / n, by linarith⟩, by omega, by omega⟩
  constructor
  · rintro rfl; exact key
  · rintro ⟨a, b, c1⟩
    obtain ⟨k1, k2, k3⟩ := key
    have hd : n ∣ c - centered n s := by
      have := dvd_sub k1 a
      rwa [show s - centered n s - (s - c) = c - centered n s by ring] at this
    obtain ⟨t, ht⟩ := hd
    have : t = 0 := by
      by_contra hne
      rcases lt_or_gt_of_ne hne with h | h
      · nlinarith
      · nlinarith
    rw [this] at ht; simp at ht; omega

theorem ofInt_of_toNat {v : UInt64} {x : Int} (h : (v.toNat : Int) = x % 2 ^ 64) : v = UInt64.ofInt x := by
  apply UInt64.toNat_inj.1
  have : (UInt64.ofInt x).toNat = (x % 2 ^ 64).toNat := by
    simp [UInt64.ofInt, UInt64.toNat_ofNat']
    omega
  rw [this]; omega

/-- **C49** The word a party keeps is its share, reduced to the representative of least magnitude modulo
the Paillier modulus, modulo `2^64`. -/
theorem C49_share_word (n s : Int) (hn : 0 < n) : shareWord n s = .ok (UInt64.ofInt (centered n s)) := by
  have h0 := Int.emod_nonneg s hn.ne'
  have h1 := Int.emod_lt_of_pos s hn
  simp only [shareWord, mod, if_neg hn.ne', Outcome.bind_ok]
  unfold centered
  by_cases h : s % n * 2 > n
  · rw [if_pos h, if_pos (by omega)]
    obtain ⟨v, hv, hv'⟩ := (C32_bignum (n - s % n)).2 (by omega)
    rw [hv]
    simp only [Outcome.bind_ok, Outcome.pure_eq, Outcome.ok.injEq]
    rw [ofInt_of_toNat hv', ← UInt64.ofInt_neg]
    congr 1; ring
  · rw [if_neg h, if_neg (by omega)]
    obtain ⟨v, hv, hv'⟩ := (C32_bignum (s % n)).2 (by omega)
    rw [hv, ofInt_of_toNat hv']

/-- **C49** If the receiver's sum is `v` minus the sender's modulo `n`, the two centered shares add up to
the value `v` as integers exactly when `v` minus the sender's centered share is still in the centered range. -/
theorem C49_exact_iff (n a b v : Int) (hn : 0 < n) (hb : n ∣ a + b - v) :
    centered n a + centered n b = v ↔ (-n < 2 * (v - centered n a) ∧ 2 * (v - centered n a) ≤ n) := by
  obtain ⟨k1, k2, k3⟩ := (C49_centered n a hn _).1 rfl
  constructor
  · intro h
    obtain ⟨j1, j2, j3⟩ := (C49_centered n b hn _).1 rfl
    have : v - centered n a = centered n b := by omega
    rw [this]; exact ⟨j2, j3⟩
  · rintro ⟨h1, h2⟩
    have := (C49_centered n b hn (v - centered n a)).2 ⟨by
      have := dvd_sub hb k1
      rwa [show a + b - v - (a - centered n a) = b - (v - centered n a) by ring] at this, h1, h2⟩
    omega

/-- **C49** Otherwise, for `|v| < n/2`, the sum is off by exactly one modulus: never silently close. -/
theorem C49_otherwise_off_by_n (n a b v : Int) (hn : 0 < n) (hb : n ∣ a + b - v) (h1 : -n < 2 * v)
    (h2 : 2 * v ≤ n) :
    centered n a + centered n b = v ∨ centered n a + centered n b = v + n ∨
      centered n a + centered n b = v - n := by
  obtain ⟨k1, k2, k3⟩ := (C49_centered n a hn _).1 rfl
  obtain ⟨j1, j2, j3⟩ := (C49_centered n b hn _).1 rfl
  have hd : n ∣ centered n a + centered n b - v := by
    have := dvd_sub (dvd_sub hb k1) j1
    rwa [show a + b - v - (a - centered n a) - (b - centered n b) = centered n a + centered n b - v by ring]
      at this
  obtain ⟨t, ht⟩ := hd
  have : -2 < t := by nlinarith
  have : t < 2 := by nlinarith
  obtain rfl | rfl | rfl : t = -1 ∨ t = 0 ∨ t = 1 := by omega
  · right; right; linarith
  · left; linarith
  · right; left; linarith

/-- **C49** The words add up to the signed value modulo `2^64`; so every value in `[-2^63, 2^63)` is
recovered by reading the sum as a signed word, unless the shares wrapped (`C49_exact_iff`). -/
theorem C49_words (n a b v : Int) (hn : 0 < n) (hb : n ∣ a + b - v)
    (hw : -n < 2 * (v - centered n a) ∧ 2 * (v - centered n a) ≤ n) :
    ∃ s r, shareWord n a = .ok s ∧ shareWord n b = .ok r ∧ s + r = UInt64.ofInt v ∧
      (-2 ^ 63 ≤ v → v < 2 ^ 63 → (s + r).toInt64.toInt = v) := by
  refine ⟨_, _, C49_share_word n a hn, C49_share_word n b hn, ?_, ?_⟩
  · rw [← UInt64.ofInt_add, (C49_exact_iff n a b v hn hb).2 hw]
  · intro h1 h2
    rw [← UInt64.ofInt_add, (C49_exact_iff n a b v hn hb).2 hw]
    have : (UInt64.ofInt v).toInt64 = Int64.ofInt v := by
      apply Int64.toBitVec_inj.1
      simp only [UInt64.ofInt, Int64.ofInt, UInt64.toBitVec_toInt64]
      show BitVec.ofNat 64 _ = BitVec.ofInt 64 v
      apply BitVec.eq_of_toNat_eq
      simp
      omega
    rw [this, Int64.toInt_ofInt_of_le (by simpa using h1) (by simpa using h2)]

/-- **C49** How often shares wrap: for an odd modulus and `|v| < n/2`, of the `n` possible sender shares
exactly `|v|` wrap. -/
theorem C49_wrap_count (h : Nat) (v : Int) (hv : 2 * |v| < 2 * h + 1) :
    ((Finset.range (2 * h + 1)).filter
      (fun a : Nat => centered (2 * h + 1) a + centered (2 * h + 1) (v - a) ≠ v)).card = v.natAbs := by
  have hn : (0 : Int) < 2 * h + 1 := by omega
  have hc : ∀ a : Nat, a < 2 * h + 1 →
      centered (2 * h + 1) a = if a ≤ h then (a : Int) else (a : Int) - (2 * h + 1) := by
    intro a ha
    unfold centered
    rw [Int.emod_eq_of_lt (by omega) (by omega)]
    by_cases hah : a ≤ h
    · rw [if_neg (by omega), if_pos hah]
    · rw [if_pos (by omega), if_neg hah]
  have hiff : ∀ a : Nat, a < 2 * h + 1 → (centered (2 * h + 1) a + centered (2 * h + 1) (v - a) ≠ v ↔
      ¬ (-(2 * h + 1 : Int) < 2 * (v - centered (2 * h + 1) a) ∧ 2 * (v - centered (2 * h + 1) a) ≤ 2 * h + 1)) := by
    intro a _
    rw [Ne, C49_exact_iff (2 * h + 1) a (v - a) v hn (by simp)]
  have habs := abs_lt.1 (show |v| < h + 1 by omega)
  rcases Int.le_total 0 v with hv0 | hv0
  · have : (Finset.range (2 * h + 1)).filter
        (fun a : Nat => centered (2 * h + 1) a + centered (2 * h + 1) (v - a) ≠ v) =
        Finset.Ico (h + 1) (h + 1 + v.natAbs) := by
      ext a
      simp only [Finset.mem_filter, Finset.mem_range, Finset.mem_Ico]
      constructor
      · rintro ⟨h1, h2⟩
        rw [hiff a h1, hc a h1] at h2
        split at h2 <;> omega
      · rintro ⟨h1, h2⟩
        have hlt : a < 2 * h + 1 := by
          have := abs_of_nonneg hv0; omega
        refine ⟨hlt, ?_⟩
        rw [hiff a hlt, hc a hlt, if_neg (by omega)]
        omega
    rw [this, Nat.card_Ico]; omega
  · have : (Finset.range (2 * h + 1)).filter
        (fun a : Nat => centered (2 * h + 1) a + centered (2 * h + 1) (v - a) ≠ v) =
        Finset.Ico (h + 1 - v.natAbs) (h + 1) := by
      ext a
      simp only [Finset.mem_filter, Finset.mem_range, Finset.mem_Ico]
      constructor
      · rintro ⟨h1, h2⟩
        rw [hiff a h1, hc a h1] at h2
        split at h2 <;> omega
      · rintro ⟨h1, h2⟩
        have hlt : a < 2 * h + 1 := by omega
        refine ⟨hlt, ?_⟩
        rw [hiff a hlt, hc a hlt, if_pos (by omega)]
        omega
    rw [this, Nat.card_Ico]
    have := abs_of_nonpos hv0
    omega

/-- A recovered negative value: modulus 77, value -5, sender share 70. -/
example : shareWord 77 70 = .ok (UInt64.ofInt (-7)) ∧ shareWord 77 2 = .ok 2 ∧
    UInt64.ofInt (-7) + 2 = UInt64.ofInt (-5) := by decide +kernel
/-- A wrapped one: sender share 38, value -5: the words add up to 72 = -5 + 77. -/
example : shareWord 77 38 = .ok 38 ∧ shareWord 77 (-5 - 38) = .ok 34 ∧ (38 : UInt64) + 34 = 72 := by
  decide +kernel
example : ((Finset.range 77).filter
      (fun a : Nat => centered 77 a + centered 77 (-5 - a) ≠ -5)).card = 5 := C49_wrap_count 38 (-5) (by decide)

end Upsi.Proto
