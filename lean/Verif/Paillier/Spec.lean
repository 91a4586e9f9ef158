import Mathlib.Data.Int.ModEq
/-
Specification of Damgard-Jurik/Paillier ciphertexts, independent of the code.
-/
namespace Upsi.Paillier

/-- `c` is a Paillier (Damgard-Jurik) ciphertext of message `m` under modulus `n`:
`c = (1+n)^m * u^(n^s) mod n^(s+1)` for some unit `u`. -/
def IsEnc (n s : Nat) (c : Int) (m : Nat) : Prop :=
  0 ≤ c ∧ c < (n : Int) ^ (s + 1) ∧
  ∃ u : Int, Int.gcd u n = 1 ∧ c ≡ (1 + (n : Int)) ^ m * u ^ (n ^ s) [ZMOD (n : Int) ^ (s + 1)]

end Upsi.Paillier
