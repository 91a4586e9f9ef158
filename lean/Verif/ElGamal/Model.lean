import Verif.Base
import Mathlib.Algebra.Module.NatInt
/-
Model of upsi/crypto/elgamal.{h,cc} and upsi/util/elgamal_proto_util.cc.

The elliptic-curve group is an arbitrary additive commutative group `G` (`ECPoint::Add`, `Inverse`,
`Mul` are `+`, `-`, `•` by an integer, the point at infinity is `0`; ec_point.cc:76-126).  BoringSSL
failures (out of memory) are not modelled, so `ASSIGN_OR_RETURN` on these operations always
continues.  Randomness (`GeneratePrivateKey`) is an explicit argument `r`.
-/
namespace Upsi.ElGamal
open Upsi

variable {G : Type} [AddCommGroup G]

/-- `elgamal::PublicKey` (elgamal.h): generator and public point. -/
structure PK (G : Type) where
  g : G
  y : G
  deriving DecidableEq

/-- `elgamal::Ciphertext` (elgamal.h). -/
@[ext] structure Ct (G : Type) where
  u : G
  e : G
  deriving DecidableEq

/-- `GenerateKeyPair`: elgamal.cc:33-44 (`x` from `GeneratePrivateKey`). -/
def keyPair (g : G) (x : Int) : PK G × Int := (⟨g, x • g⟩, x)

/-- The loop of `GeneratePublicKeyFromShares`: elgamal.cc:54-58; a different generator fails a
`CHECK`. -/
def addShares [DecidableEq G] (g : G) : G → List (PK G) → Outcome G
  | y, [] => .ok y
  | y, s :: ss => if g = s.g then addShares g (y + s.y) ss else .abort

/-- `GeneratePublicKeyFromShares`: elgamal.cc:46-61. -/
def fromShares [DecidableEq G] : List (PK G) → Outcome (PK G)
  | [] => .err "ElGamal::GeneratePublicKeyFromShares() : empty shares provided"
  | s :: ss => do
    let y ← addShares s.g s.y ss
    pure ⟨s.g, y⟩

/-- `elgamal::Mul`: elgamal.cc:63-68. -/
def mul (a b : Ct G) : Ct G := ⟨a.u + b.u, a.e + b.e⟩

/-- `elgamal::Exp`: elgamal.cc:70-75. -/
def exp (c : Ct G) (k : Int) : Ct G := ⟨k • c.u, k • c.e⟩

/-- `elgamal::Invert`: elgamal.cc:77-81. -/
def invert (c : Ct G) : Ct G := ⟨-c.u, -c.e⟩

/-- `elgamal::GetZero`: elgamal.cc:83-87. -/
def zero : Ct G := ⟨0, 0⟩

/-- `elgamal::CloneCiphertext`: elgamal.cc:89-93. -/
def clone (c : Ct G) : Ct G := ⟨c.u, c.e⟩

/-- `elgamal::IsCiphertextZero`: elgamal.cc:95-97. -/
def isZero [DecidableEq G] (c : Ct G) : Bool := c.u = 0 && c.e = 0

/-- `ElGamalEncrypter::Encrypt(const ECPoint&)`: elgamal.cc:111-119. -/
def encryptPoint (pk : PK G) (r : Int) (m : G) : Ct G := ⟨r • pk.g, m + r • pk.y⟩

/-- `ElGamalEncrypter::Encrypt(const BigNum&)`: elgamal.cc:121-124. -/
def encrypt (pk : PK G) (r : Int) (m : Int) : Ct G := encryptPoint pk r (m • pk.g)

/-- `ElGamalEncrypter::ReRandomize`: elgamal.cc:126-135. -/
def reRandomize (pk : PK G) (r : Int) (c : Ct G) : Ct G := ⟨c.u + r • pk.g, c.e + r • pk.y⟩

/-- `ElGamalDecrypter::Decrypt`: elgamal.cc:160-166. -/
def decrypt (x : Int) (c : Ct G) : G := c.e + -(x • c.u)

/-- `ElGamalDecrypter::PartialDecrypt`: elgamal.cc:168-173. -/
def partialDecrypt (x : Int) (c : Ct G) : Ct G := ⟨c.u, decrypt x c⟩

/-- `ElGamalDecrypter::InitDecryptExp`: elgamal.cc:150-158 (the table `exponents_`). -/
def initDecryptExp (g : G) (limit : Nat) : List G := (List.range limit).map (fun i : Nat => (i : Int) • g)

/-- The search loop of `DecryptExp`: elgamal.cc:183-187. -/
def findExp [DecidableEq G] (p : G) : Nat → List G → Outcome Nat
  | _, [] => .err "[ElGamalDecrypter::DecryptExp] message not within exp_limit"
  | i, t :: ts => if p = t then .ok i else findExp p (i + 1) ts

/-- `ElGamalDecrypter::DecryptExp`: elgamal.cc:176-194. -/
def decryptExp [DecidableEq G] (x : Int) (table : List G) (c : Ct G) : Outcome Nat :=
  if table.length = 0 then
    .err "[ElGamalDecrypter::DecryptExp] did not initialize exponential decryption"
  else findExp (decrypt x c) 0 table

/-- `exponentiate`: utils.cc:142-145 – multiplies the point at infinity, not the generator. -/
def exponentiate (m : Int) : G := m • (0 : G)

/-! ### wire format -/

/-- SEC1 point encoding of BoringSSL (`EC_POINT_point2oct` / `EC_POINT_oct2point`), assumed to be a
left inverse pair on affine points; what the decoder does on other strings is arbitrary. -/
structure Codec (G : Type) [AddCommGroup G] where
  enc : G → List UInt8
  dec : List UInt8 → Option G
  dec_enc : ∀ p, p ≠ 0 → dec (enc p) = some p

/-- `ECPoint::ToBytesCompressed`: ec_point.cc:50-60.  BoringSSL's `EC_POINT_point2oct` returns 0 for
the point at infinity, which is reported as an error. -/
def pointToBytes [DecidableEq G] (c : Codec G) (p : G) : Outcome (List UInt8) :=
  if p = 0 then .err "EC_POINT_point2oct failed" else .ok (c.enc p)

/-- `ECGroup::CreateECPoint(string)`: ec_group.cc:272-292 (`IsValid` rejects infinity). -/
def createECPoint [DecidableEq G] (c : Codec G) (b : List UInt8) : Outcome G :=
  match c.dec b with
  | none => .err "ECGroup::CreateECPoint(string) - Could not decode point."
  | some p => if p = 0 then .err "ECGroup::CreateECPoint(string) - Decoded point is not valid." else .ok p

/-- `ElGamalCiphertext` protobuf. -/
structure CtProto where
  u : List UInt8
  e : List UInt8
  deriving DecidableEq

/-- `SerializeCiphertext`: elgamal_proto_util.cc:33-41. -/
def serializeCt [DecidableEq G] (c : Codec G) (x : Ct G) : Outcome CtProto := do
  let u ← pointToBytes c x.u
  let e ← pointToBytes c x.e
  pure ⟨u, e⟩

/-- `DeserializeCiphertext`: elgamal_proto_util.cc:66-74. -/
def deserializeCt [DecidableEq G] (c : Codec G) (p : CtProto) : Outcome (Ct G) := do
  let u ← createECPoint c p.u
  let e ← createECPoint c p.e
  pure ⟨u, e⟩

end Upsi.ElGamal
