import Verif.Curve.OracleProps
import Verif.Curve.CipherProps
import Mathlib.Data.Nat.Size
/-
Exact forms of C58 (bit length, value of the random oracle, relatively prime sampling) and C59 (identity
encryption always succeeds).
-/
namespace Upsi.Curve
open Upsi Upsi.Num Upsi.ElGamal

/-- **C58** The bit length used by the oracle, the PRF and the samplers is the number of binary digits. -/
theorem C58_bit_length (n : Nat) : bitLength n = n.size := by
  unfold bitLength
  split
  · rename_i h; subst h; simp
  · rename_i h
    refine le_antisymm ?_ ?_
    · rw [Nat.succ_le_iff, Nat.lt_size]
      exact Nat.log2_self_le h
    · exact Nat.size_le.2 Nat.lt_log2_self

example : bitLength 255 = 8 ∧ bitLength 256 = 9 := by decide +kernel

/-- Numbers below `2^len` written one after the other, most significant first. -/
def concatBits (len : Nat) (l : List Nat) : Nat := l.foldl (fun acc d => acc * 2 ^ len + d) 0

theorem oracleGo_fold (H : Bytes → Bytes) (len : Nat) (x : Bytes) : ∀ (k i acc : Nat),
    oracleGo H len x k i acc =
      ((List.range' i k).map fun j => ofBytes (H (natBytes j ++ x))).foldl (fun a d => a * 2 ^ len + d) acc
  | 0, _, _ => rfl
  | k + 1, i, acc => by
    rw [oracleGo, oracleGo_fold H len x k (i + 1), List.range'_succ, List.map_cons, List.foldl_cons]

/-- **C58** The value of the random oracle: the hashes of `1 ‖ x`, `2 ‖ x`, ..., one after the other, cut to the
first `bits(bound) + len` bits and reduced modulo the bound. -/
theorem C58_oracle_value (H : Bytes → Bytes) (len : Nat) (x : Bytes) (bound : Nat) (h0 : 0 < bound)
    (hs : OracleSize len bound.size) :
    let rounds := (bound.size + len + len - 1) / len
    randomOracle H len x bound =
      .ok (concatBits len ((List.range' 1 rounds).map fun j => ofBytes (H (natBytes j ++ x))) /
        2 ^ (rounds * len - (bound.size + len)) % bound) := by
  intro rounds
  unfold OracleSize at hs
  unfold randomOracle
  simp only [C58_bit_length]
  rw [if_pos hs, if_neg (by omega), oracleGo_fold]
  rfl

/-- One-byte toy hash: two rounds, then the top 11 of 16 bits, modulo 5. -/
example : randomOracle (fun b => [b.sum]) 8 [1] 5 = .ok (515 / 2 ^ 5 % 5) := by decide +kernel

/-- **C58** Relatively prime sampling returns the first draw that is coprime to `num`, for every sequence of draws;
it is still running exactly when none of the draws is. -/
theorem C58_relprime_exact (num : Nat) (hn : 0 < num) (coins : List Nat) :
    relPrimeGo num coins = .ok ((coins.map (· % num)).find? fun r => Nat.gcd r num = 1) := by
  induction coins with
  | nil => rfl
  | cons c cs ih =>
    have h1 : randLessThan c (num : Int) = .ok ((c : Int) % num) := by
      rw [randLessThan, if_neg (by omega)]
    have h2 : ((c : Int) % (num : Int)).toNat = c % num := by
      rw [← Int.natCast_mod, Int.toNat_natCast]
    have h3 : 0 < Nat.gcd (c % num) num := Nat.gcd_pos_of_pos_right _ hn
    rw [relPrimeGo, h1, Outcome.bind_ok, h2, List.map_cons, List.find?_cons]
    by_cases h : Nat.gcd (c % num) num = 1
    · rw [if_neg (by omega)]; simp [h]
    · rw [if_pos (by omega), ih]; simp [h]

/-- **C58** A zero bound aborts on the first draw. -/
theorem C58_relprime_zero (c : Nat) (cs : List Nat) : relPrimeGo 0 (c :: cs) = .abort := by
  simp [relPrimeGo, randLessThan]

example : relPrimeGo 10 [4, 5, 13, 7] = .ok (some 3) ∧ relPrimeGo 10 [4, 5] = .ok none := by decide +kernel

variable {G : Type} [AddCommGroup G] [DecidableEq G]

/-- **C59** Encrypting the identity element under a proper public key succeeds for every coin, with the ciphertext
`(r·g, r·y)` for the drawn scalar `r`. -/
theorem C59_identity_total {q : Nat} (hp : q.Prime) (hq : ∀ x : G, (q : Int) • x = 0) (cd : Codec G) (k : CElGamal G)
    (hg : k.pk.g ≠ 0) (hy : k.pk.y ≠ 0) (coin : Nat) :
    ∃ r : Int, 1 ≤ r ∧ r ≤ (q : Int) - 1 ∧ generatePrivateKey coin q = .ok r ∧
      k.encryptIdentity cd q coin = .ok (cd.enc (r • k.pk.g), cd.enc (r • k.pk.y)) := by
  obtain ⟨r, e1, e2⟩ := (C28_generated q hp.one_lt).1 coin
  have hr := (C28_check r q).1.1 e2
  have hv : ValidKey q r := hr
  have n1 : r • k.pk.g ≠ 0 := smul_ne_zero' hp hq hv hg
  have n2 : r • k.pk.y ≠ 0 := smul_ne_zero' hp hq hv hy
  refine ⟨r, hr.1, hr.2, e1, ?_⟩
  simp only [CElGamal.encryptIdentity, e1, Outcome.bind_ok, encryptPoint, zero_add, pairBytes, pointToBytes_ok cd n1,
    pointToBytes_ok cd n2, Outcome.pure_eq]

end Upsi.Curve
