import Verif.Curve.HashToCurve
import Verif.Curve.Cipher
/-
Model of `upsi/crypto/ec_point_util.cc` and of the byte encoding of points behind `ECPoint::ToBytesCompressed`,
`ECPoint::ToBytesUnCompressed` (ec_point.cc) and `ECGroup::CreateECPoint(string)` (ec_group.cc).  A point other than
the one at infinity is the pair of its affine coordinates, `none` is the point at infinity.

BoringSSL's `EC_POINT_point2oct` and `EC_POINT_oct2point` are not in /repo; they are modelled after their published
behaviour (SEC 1, 2.3.3 and 2.3.4, hybrid form and the one-byte encoding of infinity rejected).
-/
namespace Upsi.Curve
open Upsi Upsi.Num

/-- `BN_num_bytes` of the field's prime: the number of bytes of one coordinate (BoringSSL). -/
def fieldLen (C : Params) : Nat := (bitLength C.p + 7) / 8

/-- One coordinate, big-endian, padded to the length of the field (BoringSSL `BN_bn2bin_padded`). -/
def feBytes (C : Params) (n : Nat) : Bytes := padBytes (natBytes n) (fieldLen C)

/-- `ECPoint::ToBytesCompressed`: ec_point.cc:49-59, by `EC_POINT_point2oct` with
`POINT_CONVERSION_COMPRESSED`; it fails on the point at infinity. -/
def toBytesCompressed (C : Params) : Option (Nat × Nat) → Outcome Bytes
  | none => .err "EC_POINT_point2oct failed"
  | some (x, y) => .ok (UInt8.ofNat (2 + y % 2) :: feBytes C x)

/-- `ECPoint::ToBytesUnCompressed`: ec_point.cc:61-72, by `EC_POINT_point2oct` with
`POINT_CONVERSION_UNCOMPRESSED`. -/
def toBytesUncompressed (C : Params) : Option (Nat × Nat) → Outcome Bytes
  | none => .err "EC_POINT_point2oct failed"
  | some (x, y) => .ok (4 :: (feBytes C x ++ feBytes C y))

/-- BoringSSL `EC_POINT_set_compressed_coordinates_GFp`: `BN_mod_sqrt` fails on a number that is not a square, the
root of the wanted parity is taken, and zero has no odd root. -/
def setCompressed (C : Params) (sqrt : Nat → Nat) (x yBit : Nat) : Option (Nat × Nat) :=
  let y2 := ySquare C x
  let s := sqrt y2
  if s * s % C.p = y2 then
    if s % 2 = yBit then some (x, s)
    else if s = 0 then none
    else some (x, C.p - s)
  else none

/-- BoringSSL `EC_POINT_oct2point`: the first byte tells the form. -/
def oct2point (C : Params) (sqrt : Nat → Nat) : Bytes → Option (Nat × Nat)
  | [] => none
  | form :: body =>
    if form.toNat = 4 then
      if body.length = 2 * fieldLen C then
        let x := ofBytes (body.take (fieldLen C))
        let y := ofBytes (body.drop (fieldLen C))
        if x < C.p ∧ y < C.p ∧ y * y % C.p = ySquare C x then some (x, y) else none
      else none
    else if form.toNat = 2 ∨ form.toNat = 3 then
      if body.length = fieldLen C then
        let x := ofBytes body
        if x < C.p then setCompressed C sqrt x (form.toNat % 2) else none
      else none
    else none

/-- `ECGroup::IsValid`: ec_group.cc:227-232 (`IsOnCurve` and `IsAtInfinity`: ec_group.cc:234-241). -/
def isValid (C : Params) : Option (Nat × Nat) → Bool
  | none => false
  | some (x, y) => y * y % C.p = ySquare C x

/-- `ECGroup::CreateECPoint(string)`: ec_group.cc:272-292. -/
def createFromBytes (C : Params) (sqrt : Nat → Nat) (b : Bytes) : Outcome (Nat × Nat) :=
  match oct2point C sqrt b with
  | none => .err "ECGroup::CreateECPoint(string) - Could not decode point."
  | some pt =>
    if isValid C (some pt) then .ok pt else .err "ECGroup::CreateECPoint(string) - Decoded point is not valid."

/-- `ECGroup::Create`: ec_group.cc:126-134 with `CreateGroup`: ec_group.cc:32-41 and `CreateCurveParams`:
ec_group.cc:79-106.  `lookup` is the table of named curves of the cryptographic library, `isPrime` its primality test.
Failures to allocate memory are left out. -/
def createGroup (lookup : Int → Option Params) (isPrime : Nat → Bool) (curveId : Int) : Outcome Params :=
  match lookup curveId with
  | none => .err "ECGroup::CreateGroup() - Could not create group. "
  | some C => if isPrime C.p then .ok C else .err "ECGroup::CreateCurveParams - p is not prime. "

/-- `ECPointUtil::Create`: ec_point_util.cc:35-40.  The object only holds the group. -/
def createPointUtil (lookup : Int → Option Params) (isPrime : Nat → Bool) (curveId : Int) : Outcome Params :=
  createGroup lookup isPrime curveId

/-- `ECGroup::GetRandomGenerator`: ec_group.cc:257-260.  `mul` is `EC_POINT_mul` on the fixed generator, `coin` the
draw of `GenerateRandBetween`. -/
def randomGenerator (mul : Int → Option (Nat × Nat)) (order coin : Nat) : Outcome (Option (Nat × Nat)) := do
  let r ← randBetween coin 1 order
  pure (mul r)

/-- `ECPointUtil::GetRandomCurvePoint`: ec_point_util.cc:42-45. -/
def getRandomCurvePoint (C : Params) (mul : Int → Option (Nat × Nat)) (order coin : Nat) : Outcome Bytes := do
  let pt ← randomGenerator mul order coin
  toBytesCompressed C pt

/-- The end of `ECPointUtil::HashToCurve`, both branches: the point or the error. -/
def finishHash (C : Params) : Outcome (Nat × Nat) → Outcome Bytes
  | .ok pt => toBytesCompressed C (some pt)
  | .err e => .err e
  | .abort => .abort
  | .ub => .ub

/-- `ECPointUtil::HashToCurve`: ec_point_util.cc:47-62; `none`: still looking for a point after `fuel` rounds.
`H512`, `H256` are the hash functions; the argument `hashType` is the C++ enum as a number. -/
def utilHashToCurve (H512 H256 : Bytes → Bytes) (C : Params) (sqrt : Nat → Nat) (fuel : Nat) (m : Bytes) (hashType : Int) :
    Option (Outcome Bytes) :=
  if hashType = HashType.SHA512.toInt then (hashToCurve H512 512 C sqrt fuel m).map (finishHash C)
  else if hashType = HashType.SHA256.toInt then (hashToCurve H256 256 C sqrt fuel m).map (finishHash C)
  else some (.err "Invalid hash type.")

/-- `ECPointUtil::IsCurvePoint`: ec_point_util.cc:64-66. -/
def isCurvePoint (C : Params) (sqrt : Nat → Nat) (b : Bytes) : Bool := (createFromBytes C sqrt b).isOk

end Upsi.Curve
