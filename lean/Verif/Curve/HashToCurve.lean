import Verif.Curve.Oracle
/-
Model of hashing to the curve by try-and-increment: `upsi/crypto/ec_group.cc`.
-/
namespace Upsi.Curve
open Upsi Upsi.Num

/-- `ECGroup::CurveParams`: ec_group.h (the curve `y² = x³ + a x + b` over the field with `p` elements). -/
structure Params where
  p : Nat
  a : Nat
  b : Nat

/-- `ECGroup::ComputeYSquare`: ec_group.cc:222-225. -/
def ySquare (C : Params) (x : Nat) : Nat := (x ^ 3 + C.a * x + C.b) % C.p

/-- `ECGroup::IsSquare`: ec_group.cc:243-245 with `GetPMinusOneOverTwo`: ec_group.cc:109-113. -/
def isSquare (C : Params) (q : Nat) : Bool := powMod q ((C.p - 1) / 2) C.p = 1

/-- `ECGroup::CreateECPoint(x, y)`: ec_group.cc:262-270 and the constructor ec_point.cc:37-43.  BoringSSL's
`EC_POINT_set_affine_coordinates_GFp` fails on a pair that is not on the curve, which fails the
`CRYPTO_CHECK`. -/
def createXY (C : Params) (x y : Nat) : Outcome (Nat × Nat) :=
  if y * y % C.p = ySquare C x then .ok (x, y) else .abort

/-- `ECGroup::GetPointByHashingToCurveInternal`: ec_group.cc:148-160.  `sqrt` is `BN_mod_sqrt` modulo `p`. -/
def hashInternal (C : Params) (sqrt : Nat → Nat) (x : Nat) : Outcome (Nat × Nat) :=
  let modX := x % C.p
  let y2 := ySquare C modX
  if isSquare C y2 then
    let s := sqrt y2
    if s.testBit 0 then do
      let n ← modNegate s C.p
      createXY C modX n.toNat
    else createXY C modX s
  else .err "Could not hash x to the curve."

/-- The loop of `GetPointByHashingToCurveSha256/384/512`: ec_group.cc:162-196; `none`: still running after
`fuel` rounds. -/
def hashLoop (ro : Bytes → Outcome Nat) (C : Params) (sqrt : Nat → Nat) : Nat → Nat → Option (Outcome (Nat × Nat))
  | 0, _ => none
  | fuel + 1, x =>
    match hashInternal C sqrt x with
    | .err _ =>
      match ro (natBytes x) with
      | .ok x' => hashLoop ro C sqrt fuel x'
      | .err e => some (.err e)
      | .abort => some .abort
      | .ub => some .ub
    | o => some o

/-- `ECGroup::GetPointByHashingToCurveSha256`, `...Sha384`, `...Sha512`: ec_group.cc:162-196, with the hash function
and its output length as parameters. -/
def hashToCurve (H : Bytes → Bytes) (len : Nat) (C : Params) (sqrt : Nat → Nat) (fuel : Nat) (m : Bytes) :
    Option (Outcome (Nat × Nat)) :=
  match randomOracle H len m C.p with
  | .ok x => hashLoop (fun b => randomOracle H len b C.p) C sqrt fuel x
  | .err e => some (.err e)
  | .abort => some .abort
  | .ub => some .ub

end Upsi.Curve
