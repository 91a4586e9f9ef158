import Verif.Num.Modular
import Mathlib.Data.Nat.Bits
import Mathlib.Data.Nat.Size
/-
Model of `upsi/crypto/big_num.cc` on the representation BoringSSL uses: a sign and a magnitude.  The `BN_*` functions are
modelled by what they do with sign and magnitude (the limb arithmetic below them is natural number arithmetic); the methods of
`BigNum` are transcribed on top of them.  The other parts of the model compute with integers; `Num/BigNumProps.lean` proves
that these methods compute the same.
-/
namespace Upsi.Num
open Upsi

/-- `BIGNUM`: `neg` and the words `d` (magnitude). -/
structure BN where
  neg : Bool
  mag : Nat
  deriving DecidableEq, Repr

namespace BN

/-- Zero is never negative (`bn_set_minimal_width`, `BN_set_negative`). -/
def WF (a : BN) : Prop := a.neg = true → a.mag ≠ 0

/-- The integer represented. -/
def val (a : BN) : Int := if a.neg then -(a.mag : Int) else a.mag

/-- The representation of an integer. -/
def ofInt (x : Int) : BN := ⟨decide (x < 0), x.natAbs⟩

/-- `BN_set_negative`, also `bn_set_minimal_width` after the sign has been set. -/
def setNeg (m : Nat) (s : Bool) : BN := ⟨s && decide (m ≠ 0), m⟩

/-- `BN_set_u64`, `BN_bin2bn`: big_num.cc:66-81. -/
def ofNat (n : Nat) : BN := ⟨false, n⟩

/-- `BN_ucmp`. -/
def ucmp (a b : BN) : Int := if a.mag < b.mag then -1 else if a.mag = b.mag then 0 else 1

/-- `BN_usub` for `|b| ≤ |a|`, `BN_uadd`. -/
def usub (a b : BN) : Nat := a.mag - b.mag
def uadd (a b : BN) : Nat := a.mag + b.mag

/-- `BN_add`. -/
def bnAdd (a b : BN) : BN :=
  if a.neg != b.neg then
    let p := if a.neg then b else a
    let n := if a.neg then a else b
    if ucmp p n < 0 then ⟨true, usub n p⟩ else ⟨false, usub p n⟩
  else ⟨a.neg, uadd a b⟩

/-- `BN_sub`. -/
def bnSub (a b : BN) : BN :=
  if a.neg && !b.neg then ⟨true, uadd a b⟩
  else if !a.neg && b.neg then ⟨false, uadd a b⟩
  else
    let x := if a.neg then b else a
    let y := if a.neg then a else b
    if ucmp x y < 0 then ⟨true, usub y x⟩ else ⟨false, usub x y⟩

/-- `BN_mul`. -/
def bnMul (a b : BN) : BN := setNeg (a.mag * b.mag) (a.neg != b.neg)

/-- `BN_div`: quotient and remainder of the magnitudes; the quotient's sign is the product of the signs, the remainder has
the sign of the numerator.  Fails for a zero divisor. -/
def bnDiv (a b : BN) : Option (BN × BN) :=
  if b.mag = 0 then none else some (setNeg (a.mag / b.mag) (a.neg != b.neg), setNeg (a.mag % b.mag) a.neg)

/-- `BN_nnmod`: the remainder, moved to `[0, |m|)`. -/
def bnNnmod (a m : BN) : Option BN :=
  match bnDiv a m with
  | none => none
  | some (_, r) => if !r.neg then some r else some (if m.neg then bnSub r m else bnAdd r m)

/-- `CRYPTO_CHECK(1 == ...)`: a failing BoringSSL call aborts. -/
def check (o : Option α) : Outcome α := match o with | some a => .ok a | none => .abort

/-! ### The methods -/

/-- `IsZero`, `IsOne`, `IsNonNegative`: big_num.cc:131-135. -/
def isZero (a : BN) : Bool := a.mag = 0
def isOne (a : BN) : Bool := !a.neg && a.mag = 1
def isNonNegative (a : BN) : Bool := !a.neg

/-- `BitLength`: big_num.cc:118. -/
def bitLength (a : BN) : Nat := a.mag.size

/-- `IsBitSet`: big_num.cc:146. -/
def isBitSet (a : BN) (n : Int) : Bool := if n < 0 then false else a.mag.testBit n.toNat

/-- `GetLastNBits`: big_num.cc:137-144; a negative `n` changes nothing. -/
def lastNBits (a : BN) (n : Int) : BN := if n < 0 then a else setNeg (a.mag % 2 ^ n.toNat) a.neg

/-- `Neg`: big_num.cc:150-154. -/
def neg' (a : BN) : BN := setNeg a.mag (!a.neg)

/-- `Add`, `Mul`, `Sub`: big_num.cc:156-172. -/
def add (a b : BN) : BN := bnAdd a b
def mul (a b : BN) : BN := bnMul a b
def sub (a b : BN) : BN := bnSub a b

/-- `Div`: big_num.cc:174-184. -/
def div (a b : BN) : Outcome BN := do
  let qr ← check (bnDiv a b)
  if isZero qr.2 then pure qr.1 else .abort

/-- `DivAndTruncate`: big_num.cc:186-194. -/
def divTrunc (a b : BN) : Outcome BN := do
  let qr ← check (bnDiv a b)
  pure qr.1

/-- `CompareTo` (`BN_cmp`): big_num.cc:196-198. -/
def compareTo (a b : BN) : Int :=
  if a.neg != b.neg then (if a.neg then -1 else 1) else (if a.neg then -(ucmp a b) else ucmp a b)

/-- `BN_exp`: square and multiply over the bits of the magnitude of the exponent (its sign is not looked at); `v` is the
current square, `r` the accumulated product, `e` what is left of the exponent. -/
def expGo : Nat → BN → Nat → BN → BN
  | 0, _, _, r => r
  | f + 1, v, e, r => expGo f (bnMul v v) (e / 2) (if e % 2 = 1 then bnMul r v else r)

/-- `Exp`: big_num.cc:200-205. -/
def exp (a p : BN) : BN := expGo (bitLength p) a p.mag ⟨false, 1⟩

/-- `Mod`: big_num.cc:207-211. -/
def mod (a m : BN) : Outcome BN := check (bnNnmod a m)

/-- `ModAdd`, `ModSub`, `ModMul`: big_num.cc:213-232 (the operation, then `BN_nnmod`). -/
def modAdd (a b m : BN) : Outcome BN := check (bnNnmod (bnAdd a b) m)
def modSub (a b m : BN) : Outcome BN := check (bnNnmod (bnSub a b) m)
def modMul (a b m : BN) : Outcome BN := check (bnNnmod (bnMul a b) m)

/-- `ModSqr`: big_num.cc:243-247 (`BN_sqr`, then the remainder of a non-negative number). -/
def modSqr (a m : BN) : Outcome BN := check ((bnDiv ⟨false, a.mag * a.mag⟩ m).map Prod.snd)

/-- Square and multiply modulo `m` for numbers in `[0, m)`. -/
def expModGo (m : Nat) : Nat → Nat → Nat → Nat → Nat
  | 0, _, _, r => r
  | f + 1, v, e, r => expModGo m f (v * v % m) (e / 2) (if e % 2 = 1 then r * v % m else r)

/-- `BN_mod_exp`: fails for a negative modulus, reduces the base (failing for a zero modulus), then exponentiates. -/
def bnModExp (a p m : BN) : Option BN :=
  if m.neg then none
  else match bnNnmod a m with
    | none => none
    | some b => some ⟨false, expModGo m.mag (bitLength p) b.mag p.mag (1 % m.mag)⟩

/-- `ModExp`: big_num.cc:234-241. -/
def modExp (a p m : BN) : Outcome BN := if isNonNegative p then check (bnModExp a p m) else .abort

/-- `ModNegate`: big_num.cc:265-270. -/
def modNegate (a m : BN) : Outcome BN :=
  if isZero a then pure a else do
    let r ← mod a m
    pure (bnSub m r)

/-- `Lshift`, `Rshift`: big_num.cc:272-282; a negative shift is an error of BoringSSL. -/
def lshift (a : BN) (n : Int) : Outcome BN := if n < 0 then .abort else .ok ⟨a.neg, a.mag * 2 ^ n.toNat⟩
def rshift (a : BN) (n : Int) : Outcome BN := if n < 0 then .abort else .ok (setNeg (a.mag / 2 ^ n.toNat) a.neg)

/-- `Gcd`: big_num.cc:284-288 (of the magnitudes). -/
def gcd (a b : BN) : BN := ⟨false, Nat.gcd a.mag b.mag⟩

/-- `IsSafePrime`: big_num.cc:125-129, for a given outcome of `IsPrime`; `&&` does not evaluate its second operand when the
first is false. -/
def isSafePrime (isPrime : BN → Bool) (a : BN) : Outcome Bool :=
  if isPrime a then do
    let h ← div (sub a (ofNat 1)) (ofNat 2)
    pure (isPrime h)
  else pure false

end BN
end Upsi.Num
