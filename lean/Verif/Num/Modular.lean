import Verif.Num.Bytes
import Mathlib.Data.Int.GCD
import Mathlib.Data.Int.ModEq
/-
Model of the modular operations of `upsi/crypto/big_num.cc`, of `upsi/crypto/two_modulus_crt.cc` and
of `upsi/crypto/fixed_base_exp.cc` with the Montgomery arithmetic of `upsi/crypto/mont_mul.cc`.
-/
namespace Upsi.Num
open Upsi

/-- `BigNum::ModMul`: big_num.cc:227-232 (`BN_mod_mul`, non-negative result; a zero modulus fails the
`CRYPTO_CHECK`). -/
def modMul (a b m : Int) : Outcome Int := if m = 0 then .abort else .ok (a * b % m)

/-- `BigNum::ModSqr`: big_num.cc:243-247. -/
def modSqr (a m : Int) : Outcome Int := modMul a a m

/-- Square-and-multiply, `f` bits of the exponent. -/
def powModGo (m : Int) : Nat → Int → Nat → Int → Int
  | 0, _, _, acc => acc
  | f + 1, b, e, acc => powModGo m f (b * b % m) (e / 2) (if e % 2 = 1 then acc * b % m else acc)

/-- `BN_mod_exp`; `powMod_eq` proves that this is `b ^ e % m`. -/
def powMod (b : Int) (e : Nat) (m : Int) : Int := powModGo m (e.log2 + 1) (b % m) e (1 % m)

theorem powModGo_eq (m : Int) (f : Nat) : ∀ (b : Int) (e : Nat) (acc : Int), e < 2 ^ f → acc % m = acc →
    powModGo m f b e acc = acc * b ^ e % m := by
  induction f with
  | zero =>
    intro b e acc h hacc
    have : e = 0 := by simpa using h
    subst this
    simp [powModGo, hacc]
  | succ f ih =>
    intro b e acc h hacc
    rw [powModGo, ih _ _ _ (by rw [Nat.pow_succ] at h; omega) (by split <;> simp [hacc])]
    have hs : (b * b % m) ^ (e / 2) % m = (b * b) ^ (e / 2) % m := by
      induction e / 2 with
      | zero => simp
      | succ k ihk => rw [Int.pow_succ, Int.mul_emod, ihk, Int.emod_emod_of_dvd _ (Int.dvd_refl m), ← Int.mul_emod,
          ← Int.pow_succ]
    have hb : (b * b) ^ (e / 2) = b ^ (2 * (e / 2)) := by
      rw [Int.pow_mul, Int.pow_succ, Int.pow_succ, Int.pow_zero, Int.one_mul]
    split
    · rename_i ho
      rw [Int.mul_emod, hs, Int.emod_emod_of_dvd _ (Int.dvd_refl m), ← Int.mul_emod, hb, Int.mul_assoc,
        ← Int.pow_succ']
      congr 3; omega
    · rename_i ho
      rw [Int.mul_emod, hs, ← Int.mul_emod, hb]
      congr 3; omega

theorem powMod_eq (b : Int) (e : Nat) (m : Int) : powMod b e m = b ^ e % m := by
  rw [powMod, powModGo_eq _ _ _ _ _ Nat.lt_log2_self (by simp)]
  rw [Int.mul_emod, Int.emod_emod_of_dvd _ (Int.dvd_refl m)]
  have : (b % m) ^ e % m = b ^ e % m := by
    induction e with
    | zero => simp
    | succ k ihk => rw [Int.pow_succ, Int.mul_emod, ihk, Int.emod_emod_of_dvd _ (Int.dvd_refl m), ← Int.mul_emod,
        ← Int.pow_succ]
  rw [this, ← Int.mul_emod, Int.one_mul]

/-- `BigNum::ModExp`: big_num.cc:234-241; `CHECK`s that the exponent is not negative; `BN_mod_exp` fails for a negative or
zero modulus. -/
def modExp (b e m : Int) : Outcome Int :=
  if e < 0 then .abort else if m ≤ 0 then .abort else .ok (powMod b e.toNat m)

/-- The extended Euclidean algorithm behind `BN_mod_inverse`; the first argument bounds the steps. -/
def euclid : Nat → Nat → Int → Nat → Int → Int
  | 0, _, s0, _, _ => s0
  | f + 1, r0, s0, r1, s1 =>
    if r1 = 0 then s0 else euclid f r1 s1 (r0 % r1) (s0 - ((r0 / r1 : Nat) : Int) * s1)

/-- `BigNum::ModInverse`: big_num.cc:249-256 (`BN_mod_inverse`: fails unless the numbers are
coprime; the result is in `[0, m)`). -/
def modInverse (a m : Int) : Outcome Int :=
  if Int.gcd a m = 1 then .ok (euclid (a.natAbs + 1) m.natAbs 0 a.natAbs a.sign % m) else .err "BigNum::ModInverse failed"

/-- `StatusOr::value()` / `operator*` on an error terminates the process. -/
def value (o : Outcome α) : Outcome α := match o with | .err _ => .abort | x => x

/-- `vector::operator[]` without bounds check. -/
def vget (l : List α) (i : Nat) : Outcome α := match l[i]? with | some x => .ok x | none => .ub

/-! ### two_modulus_crt.cc -/

/-- `TwoModulusCrt`: two_modulus_crt.h (fields), two_modulus_crt.cc:20-23. -/
structure Crt where
  term1 : Int
  term2 : Int
  product : Int

/-- Constructor: two_modulus_crt.cc:20-23. -/
def Crt.new (c1 c2 : Int) : Outcome Crt := do
  let i1 ← value (modInverse c2 c1)
  let i2 ← value (modInverse c1 c2)
  pure ⟨c2 * i1, c1 * i2, c1 * c2⟩

/-- `Compute`: two_modulus_crt.cc:25-29. -/
def Crt.compute (t : Crt) (s1 s2 : Int) : Outcome Int := mod (s1 * t.term1 + s2 * t.term2) t.product

/-! ### mont_mul.cc and fixed_base_exp.cc -/

/-- A Montgomery context: the odd modulus and the Montgomery radix `r` with its inverse (BoringSSL
chooses `r` a power of two above the modulus; only invertibility matters). -/
structure Mont where
  m : Int
  r : Int
  rinv : Int

/-- `MontContext::CreateMontBigNum(BigNum)`: mont_mul.cc:110-117; `CHECK(big_num < modulus_)`. -/
def Mont.create (c : Mont) (x : Int) : Outcome Int := if x < c.m then .ok (x * c.r % c.m) else .abort

/-- `MontBigNum::MulInPlace`: mont_mul.cc:65-71 (`BN_mod_mul_montgomery`). -/
def Mont.mul (c : Mont) (a b : Int) : Int := a * b * c.rinv % c.m

/-- `MontBigNum::ToBigNum`: mont_mul.cc:97-104 (`BN_from_montgomery`). -/
def Mont.toBigNum (c : Mont) (a : Int) : Int := a * c.rinv % c.m

/-- `for (i < max_exp) cache_.push_back(cache_.back() * g)`: fixed_base_exp.cc:97-99; the result is
the part of the cache starting at `last`. -/
def cacheGo (c : Mont) (g : Int) : Nat → Int → List Int
  | 0, last => [last]
  | k + 1, last => last :: cacheGo c g k (c.mul last g)

/-- Constructor of `TwoKAryFixedBaseExpImpl`: fixed_base_exp.cc:85-100 (`max_exp = 256`). -/
def twoKAryCache (c : Mont) (base : Int) : Outcome (List Int) := do
  let one ← c.create 1
  let g ← c.create base
  pure (one :: cacheGo c g 256 g)

/-- `for (j < 8) z *= z`: fixed_base_exp.cc:115-117. -/
def sq8 (c : Mont) : Nat → Int → Int
  | 0, z => z
  | k + 1, z => sq8 c k (c.mul z z)

/-- The loop over the bytes of the exponent: fixed_base_exp.cc:114-119. -/
def twoKAryGo (c : Mont) (cache : List Int) : List UInt8 → Int → Outcome Int
  | [], z => .ok z
  | b :: bs, z => do
    let x ← vget cache b.toNat
    twoKAryGo c cache bs (c.mul (sq8 c 8 z) x)

/-- `TwoKAryFixedBaseExpImpl::ModExp`: fixed_base_exp.cc:111-121. -/
def twoKAry (c : Mont) (base e : Int) : Outcome Int := do
  let cache ← twoKAryCache c base
  let z ← vget cache 0
  let bytes ← toBytes e
  let z' ← twoKAryGo c cache bytes z
  pure (c.toBigNum z')

/-- `SimpleBaseExpImpl::ModExp`: fixed_base_exp.cc:75-77. -/
def simpleExp (base m e : Int) : Outcome Int := modExp base e m

/-- `FixedBaseExp::ModExp`: fixed_base_exp.cc:136-142; `mont = none` is the simple strategy
(flag `two_k_ary_exp` off, fixed_base_exp.cc:144-153). -/
def fixedBaseExp (mont : Option Mont) (base m e : Int) : Outcome Int :=
  if e < 0 then .err "FixedBaseExp::ModExp : Negative exponents not supported."
  else match mont with
    | none => simpleExp base m e
    | some c => twoKAry c base e

end Upsi.Num
