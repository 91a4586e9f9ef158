import Verif.Curve.Oracle
import Verif.Num.BytesProps
import Mathlib.Data.Nat.Log
import Mathlib.Data.Nat.Prime.Basic
/-
Property theorems C28 (private keys) and C58 (hash-derived and random numbers stay in range).
-/
namespace Upsi.Curve
open Upsi Upsi.Num

theorem lt_two_pow_bitLength (n : Nat) : n < 2 ^ bitLength n := by
  unfold bitLength
  split
  · omega
  · exact Nat.lt_log2_self

theorem bitLength_le {n k : Nat} (h : n < 2 ^ k) : bitLength n ≤ k := by
  unfold bitLength
  split
  · omega
  · rename_i hn
    have := (Nat.log2_lt hn).2 h
    omega

/-! ### C58: the random oracle -/

/-- The unreduced oracle value: the concatenation of the hashes of `1‖x, 2‖x, …`. -/
theorem oracleGo_lt (H : Bytes → Bytes) (len : Nat) (x : Bytes) (hH : ∀ b, ofBytes (H b) < 2 ^ len) :
    ∀ (k i acc j : Nat), acc < 2 ^ (len * j) → oracleGo H len x k i acc < 2 ^ (len * (j + k)) := by
  intro k
  induction k with
  | zero => intro i acc j h; simpa [oracleGo] using h
  | succ k ih =>
    intro i acc j h
    have := ih (i + 1) (acc * 2 ^ len + ofBytes (H (natBytes i ++ x))) (j + 1) (by
      have h1 := hH (natBytes i ++ x)
      have : acc * 2 ^ len + ofBytes (H (natBytes i ++ x)) < (acc + 1) * 2 ^ len := by
        rw [Nat.add_mul, Nat.one_mul]; omega
      refine Nat.lt_of_lt_of_le this ?_
      rw [Nat.mul_add, Nat.mul_one, Nat.pow_add]
      exact Nat.mul_le_mul_right _ h)
    rw [oracleGo, show j + (k + 1) = j + 1 + k by omega]
    exact this

/-- Sizes the random oracle accepts: at most 130047 bits after rounding up to whole hash outputs. -/
def OracleSize (len bits : Nat) : Prop := (bits + len + len - 1) / len * len < 130048

/-- **C58** The random oracle returns a number below the bound for every input and every hash function, exactly
when the bound is positive and within the supported size; otherwise the process aborts.  The returned number is
the residue of a number of `bitLength(bound) + len` bits. -/
theorem C58_oracle (H : Bytes → Bytes) (len : Nat) (hlen : 0 < len) (hH : ∀ b, ofBytes (H b) < 2 ^ len)
    (x : Bytes) (bound : Nat) :
    (0 < bound ∧ OracleSize len (bitLength bound) →
      ∃ w, w < 2 ^ (bitLength bound + len) ∧ randomOracle H len x bound = .ok (w % bound) ∧ w % bound < bound) ∧
    (¬ (0 < bound ∧ OracleSize len (bitLength bound)) → randomOracle H len x bound = .abort) := by
  constructor
  · rintro ⟨h0, hs⟩
    have hit : bitLength bound + len ≤ (bitLength bound + len + len - 1) / len * len := by
      have := Nat.div_add_mod (bitLength bound + len + len - 1) len
      have h2 := Nat.mod_lt (bitLength bound + len + len - 1) hlen
      rw [Nat.mul_comm] at this
      omega
    refine ⟨oracleGo H len x ((bitLength bound + len + len - 1) / len) 1 0 /
      2 ^ ((bitLength bound + len + len - 1) / len * len - (bitLength bound + len)), ?_, ?_, Nat.mod_lt _ h0⟩
    · rw [Nat.div_lt_iff_lt_mul (Nat.two_pow_pos _), ← Nat.pow_add]
      have := oracleGo_lt H len x hH ((bitLength bound + len + len - 1) / len) 1 0 0 (by simp)
      rw [Nat.zero_add, Nat.mul_comm] at this
      rwa [show bitLength bound + len + ((bitLength bound + len + len - 1) / len * len - (bitLength bound + len))
        = (bitLength bound + len + len - 1) / len * len by omega]
    · unfold OracleSize at hs
      simp only [randomOracle, if_pos hs, if_neg (Nat.ne_of_gt h0)]
  · intro h
    unfold randomOracle OracleSize at *
    by_cases hs : (bitLength bound + len + len - 1) / len * len < 130048
    · have : bound = 0 := by
        by_contra hb
        exact h ⟨Nat.pos_of_ne_zero hb, hs⟩
      simp [this]
    · simp only [if_neg hs]

/-- The hypotheses hold for a 256-bit hash and a 256-bit modulus. -/
example : OracleSize 256 (bitLength (2 ^ 256 - 189)) := by unfold OracleSize bitLength; decide +kernel

/-! ### C58: the keyed PRF -/

/-- The HMAC outputs the PRF looks at, as numbers: the first on the data, each further one on the bytes of the
previous number. -/
def macSeq (mac : Bytes → Bytes → Bytes) (key data : Bytes) : Nat → Nat
  | 0 => ofBytes (mac key data)
  | i + 1 => ofBytes (mac key (natBytes (macSeq mac key data i)))

theorem macSeq_shift (mac : Bytes → Bytes → Bytes) (key data : Bytes) (i : Nat) :
    macSeq mac key data (i + 1) = macSeq mac key (natBytes (ofBytes (mac key data))) i := by
  induction i with
  | zero => rfl
  | succ i ih => rw [macSeq, ih, macSeq]

theorem prfGo_succ (mac : Bytes → Bytes → Bytes) (key : Bytes) (bound fuel : Nat) (data : Bytes) :
    prfGo mac key bound (fuel + 1) data =
      if ofBytes (mac key data) % 2 ^ bitLength bound < bound then some (ofBytes (mac key data) % 2 ^ bitLength bound)
      else prfGo mac key bound fuel (natBytes (ofBytes (mac key data))) := rfl

theorem prfGo_iff (mac : Bytes → Bytes → Bytes) (key : Bytes) (bound v : Nat) : ∀ (fuel : Nat) (data : Bytes),
    prfGo mac key bound fuel data = some v ↔
      ∃ k, k < fuel ∧ v = macSeq mac key data k % 2 ^ bitLength bound ∧ v < bound ∧
        ∀ j, j < k → ¬ macSeq mac key data j % 2 ^ bitLength bound < bound := by
  intro fuel
  induction fuel with
  | zero => intro data; simp [prfGo]
  | succ fuel ih =>
    intro data
    by_cases h : ofBytes (mac key data) % 2 ^ bitLength bound < bound
    · rw [prfGo_succ, if_pos h]
      constructor
      · intro hv
        have hv : ofBytes (mac key data) % 2 ^ bitLength bound = v := Option.some.inj hv
        exact ⟨0, by omega, hv.symm, hv ▸ h, by simp⟩
      · rintro ⟨k, hk, hv, hlt, hmin⟩
        cases k with
        | zero => rw [hv]; rfl
        | succ k => exact absurd h (hmin 0 (by omega))
    · rw [prfGo_succ, if_neg h]
      rw [ih]
      constructor
      · rintro ⟨k, hk, hv, hlt, hmin⟩
        refine ⟨k + 1, by omega, by rw [macSeq_shift]; exact hv, hlt, ?_⟩
        intro j hj
        cases j with
        | zero => exact h
        | succ j => rw [macSeq_shift]; exact hmin j (by omega)
      · rintro ⟨k, hk, hv, hlt, hmin⟩
        cases k with
        | zero => exact absurd (hv ▸ hlt) h
        | succ k =>
          refine ⟨k, by omega, by rw [hv, macSeq_shift], hlt, ?_⟩
          intro j hj
          have := hmin (j + 1) (by omega)
          rwa [macSeq_shift] at this

/-- **C58** The keyed PRF aborts for keys below ten bytes and for bounds above 512 bits.  Otherwise it returns the
first HMAC output in the re-hashing sequence whose low bits are below the bound, so the result is always below the
bound; it runs on as long as there is none. -/
theorem C58_prf (mac : Bytes → Bytes → Bytes) (key data : Bytes) (bound fuel : Nat) :
    (key.length < 10 ∨ 512 < bitLength bound → prf mac key data bound fuel = .abort) ∧
    (10 ≤ key.length → bitLength bound ≤ 512 → ∃ r, prf mac key data bound fuel = .ok r ∧
      (∀ v, r = some v → v < bound) ∧
      (∀ v, r = some v ↔ ∃ k, k < fuel ∧ v = macSeq mac key data k % 2 ^ bitLength bound ∧ v < bound ∧
        ∀ j, j < k → ¬ macSeq mac key data j % 2 ^ bitLength bound < bound)) := by
  constructor
  · intro h
    unfold prf
    split
    · rfl
    · split
      · rfl
      · omega
  · intro h1 h2
    refine ⟨prfGo mac key bound fuel data, ?_, ?_, fun v => prfGo_iff mac key bound v fuel data⟩
    · unfold prf
      rw [if_neg (by omega), if_neg (by omega)]
    · intro v hv
      exact ((prfGo_iff mac key bound v fuel data).1 hv).choose_spec.2.2.1

/-- Non-vacuity: with a MAC that returns 255 on the data and 3 on anything else, the PRF with bound 5 looks at two
outputs. -/
example : prf (fun _ d => if d = [1] then [255] else [3]) (List.replicate 16 7) [1] 5 9 = .ok (some 3) := by decide +kernel

/-! ### C58: sampling -/

/-- **C58** Sampling from an interval: never outside, every number of the interval is reachable, an empty interval
aborts. -/
theorem C58_between (start stop : Int) :
    (start < stop → ∀ coin, ∃ v, randBetween coin start stop = .ok v ∧ start ≤ v ∧ v < stop) ∧
    (∀ v, start ≤ v → v < stop → ∃ coin, randBetween coin start stop = .ok v) ∧
    (stop ≤ start → ∀ coin, randBetween coin start stop = .abort) := by
  refine ⟨?_, ?_, ?_⟩
  · intro h coin
    refine ⟨(coin : Int) % (stop - start) + start, ?_, ?_, ?_⟩
    · simp only [randBetween, if_pos h, randLessThan, if_neg (show ¬ stop - start ≤ 0 by omega), Outcome.bind_ok, Outcome.pure_eq]
    · have := Int.emod_nonneg (coin : Int) (show stop - start ≠ 0 by omega); omega
    · have := Int.emod_lt_of_pos (coin : Int) (show 0 < stop - start by omega); omega
  · intro v h1 h2
    refine ⟨(v - start).toNat, ?_⟩
    have h3 : ((v - start).toNat : Int) = v - start := Int.toNat_of_nonneg (by omega)
    simp only [randBetween, if_pos (show start < stop by omega), randLessThan, if_neg (show ¬ stop - start ≤ 0 by omega), h3,
      Outcome.bind_ok, Outcome.pure_eq]
    rw [Int.emod_eq_of_lt (by omega) (by omega)]
    simp
  · intro h coin
    simp [randBetween]; omega

/-- **C58** A number drawn relatively prime to `num` is below `num` and coprime to it (for `num = 1` this is 0). -/
theorem C58_relprime (num : Nat) (coins : List Nat) (v : Nat) (h : relPrimeGo num coins = .ok (some v)) :
    v < num ∧ Nat.gcd v num = 1 := by
  induction coins with
  | nil => simp [relPrimeGo] at h
  | cons c cs ih =>
    simp only [relPrimeGo, Outcome.bind_eq_ok] at h
    obtain ⟨r, hr, h⟩ := h
    split at h
    · exact ih h
    · rename_i hg
      simp only [Outcome.pure_eq, Outcome.ok.injEq, Option.some.injEq] at h
      subst h
      unfold randLessThan at hr
      split at hr
      · simp at hr
      · rename_i hn
        simp only [Outcome.ok.injEq] at hr
        have hpos : (0 : Int) < num := by omega
        have h1 := Int.emod_lt_of_pos (c : Int) hpos
        have h2 := Int.emod_nonneg (c : Int) (show (num : Int) ≠ 0 by omega)
        refine ⟨by omega, ?_⟩
        have : 0 < Nat.gcd r.toNat num := Nat.gcd_pos_of_pos_right _ (by omega)
        omega

example : relPrimeGo 10 [4, 5, 13] = .ok (some 3) := by decide

/-! ### C28 -/

/-- **C28** A private key is accepted exactly when it lies in `[1, order - 1]`; otherwise there is an error. -/
theorem C28_check (key : Int) (order : Nat) :
    (checkPrivateKey key order = .ok () ↔ 1 ≤ key ∧ key ≤ (order : Int) - 1) ∧
    (¬ (1 ≤ key ∧ key ≤ (order : Int) - 1) → ∃ m, checkPrivateKey key order = .err m) := by
  unfold checkPrivateKey
  split
  · rename_i h
    refine ⟨⟨by simp, fun h' => absurd h (by omega)⟩, fun _ => ⟨_, rfl⟩⟩
  · rename_i h
    refine ⟨⟨fun _ => by omega, fun _ => rfl⟩, fun h' => absurd h' (by omega)⟩

/-- **C28** Every generated private key is accepted, and every acceptable key can be generated. -/
theorem C28_generated (order : Nat) (ho : 1 < order) :
    (∀ coin, ∃ k, generatePrivateKey coin order = .ok k ∧ checkPrivateKey k order = .ok ()) ∧
    (∀ k, checkPrivateKey k order = .ok () → ∃ coin, generatePrivateKey coin order = .ok k) := by
  obtain ⟨h1, h2, _⟩ := C58_between 1 order
  constructor
  · intro coin
    obtain ⟨v, e, l, u⟩ := h1 (by omega) coin
    exact ⟨v, e, (C28_check v order).1.2 ⟨l, by omega⟩⟩
  · intro k hk
    obtain ⟨l, u⟩ := (C28_check k order).1.1 hk
    exact h2 k l (by omega)

example : generatePrivateKey 123456 101 = .ok 57 ∧ checkPrivateKey 57 101 = .ok () := by decide

end Upsi.Curve
