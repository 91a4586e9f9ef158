import Verif.Curve.Oracle
import Verif.ElGamal.Model
/-
Model of `upsi/crypto/ec_commutative_cipher.cc`, `upsi/crypto/commutative_elgamal.cc`, `upsi/util/ec_key_util.cc`.
The curve is an additive commutative group `G` as in `Verif.ElGamal.Model`; `hash` is `HashToTheCurveInternal`.
-/
namespace Upsi.Curve
open Upsi Upsi.Num Upsi.ElGamal

variable {G : Type} [AddCommGroup G]

/-- Hash types: ec_commutative_cipher.h (`enum HashType`). -/
inductive HashType where
  | SHA256 | SHA384 | SHA512 | SSWU_RO
  deriving DecidableEq

/-- The C++ `enum` values: ec_commutative_cipher.h. -/
def HashType.toInt : HashType → Int
  | .SHA256 => 0 | .SHA384 => 1 | .SHA512 => 2 | .SSWU_RO => 3

/-- `ECCommutativeCipher::ValidateHashType(int)`: ec_commutative_cipher.cc:59-61. -/
def validateHashType (h : Int) : Bool := 0 ≤ h && h ≤ 3

/-- `InvertPrivateScalar`: ec_commutative_cipher.cc:36-40. -/
def invertScalar (k : Int) (order : Nat) : Outcome Int := modExp k ((order : Int) - 2) order

/-- `ECCommutativeCipher`: the private key and its inverse (ec_commutative_cipher.cc:44-52). -/
structure Cipher where
  key : Int
  inv : Int
  deriving DecidableEq

/-- The constructor: ec_commutative_cipher.cc:44-52. -/
def mkCipher (order : Nat) (key : Int) : Outcome Cipher := do
  let i ← invertScalar key order
  pure ⟨key, i⟩

/-- `CreateWithNewKey`: ec_commutative_cipher.cc:63-73 (curve creation succeeds; hash type checked). -/
def createWithNewKey (order : Nat) (coin : Nat) (hashType : Int) : Outcome Cipher :=
  if validateHashType hashType then do
    let k ← generatePrivateKey coin order
    mkCipher order k
  else .err "Invalid hash type."

/-- `CreateFromKey`: ec_commutative_cipher.cc:75-90. -/
def createFromKey (order : Nat) (keyBytes : Bytes) (hashType : Int) : Outcome Cipher :=
  if validateHashType hashType then do
    checkPrivateKey (ofBytes keyBytes : Nat) order
    mkCipher order (ofBytes keyBytes : Nat)
  else .err "Invalid hash type."

/-- `CreateWithKeyFromSeed`: ec_commutative_cipher.cc:92-108; the derived key is not range-checked.  `none`: the
PRF is still running after `fuel` HMAC evaluations. -/
def createFromSeed (mac : Bytes → Bytes → Bytes) (order : Nat) (fuel : Nat) (seed tag : Bytes) (hashType : Int) :
    Outcome (Option Cipher) :=
  if seed.length < 16 then .err "Seed is too short."
  else if validateHashType hashType then do
    let k ← prf mac seed tag order fuel
    match k with
    | none => pure none
    | some k => do
      let c ← mkCipher order k
      pure (some c)
  else .err "Invalid hash type."

variable [DecidableEq G]

/-- `ECCommutativeCipher::Encrypt(string)`: ec_commutative_cipher.cc:110-115. -/
def Cipher.encrypt (c : Cipher) (cd : Codec G) (hash : Bytes → Outcome G) (plaintext : Bytes) : Outcome Bytes := do
  let h ← hash plaintext
  pointToBytes cd (c.key • h)

/-- `ECCommutativeCipher::ReEncrypt`: ec_commutative_cipher.cc:117-122. -/
def Cipher.reEncrypt (c : Cipher) (cd : Codec G) (ct : Bytes) : Outcome Bytes := do
  let p ← createECPoint cd ct
  pointToBytes cd (c.key • p)

/-- `ECCommutativeCipher::Decrypt`: ec_commutative_cipher.cc:147-152. -/
def Cipher.decrypt (c : Cipher) (cd : Codec G) (ct : Bytes) : Outcome Bytes := do
  let p ← createECPoint cd ct
  pointToBytes cd (c.inv • p)

/-- `ECCommutativeCipher::HashToTheCurve`: ec_commutative_cipher.cc:172-176. -/
def hashToBytes (cd : Codec G) (hash : Bytes → Outcome G) (plaintext : Bytes) : Outcome Bytes := do
  let h ← hash plaintext
  pointToBytes cd h

/-- `ECCommutativeCipher::ReEncryptElGamalCiphertext`: ec_commutative_cipher.cc:128-145. -/
def Cipher.reEncryptElGamal (c : Cipher) (cd : Codec G) (ct : Bytes × Bytes) : Outcome (Bytes × Bytes) := do
  let u ← createECPoint cd ct.1
  let e ← createECPoint cd ct.2
  let r := exp ⟨u, e⟩ c.key
  let su ← pointToBytes cd r.u
  let se ← pointToBytes cd r.e
  pure (su, se)

/-- `ECCommutativeCipher::GetPrivateKeyBytes`: ec_commutative_cipher.cc:178-180. -/
def Cipher.keyBytes (c : Cipher) : Outcome Bytes := toBytes c.key

/-! ### commutative_elgamal.cc -/

/-- `CommutativeElGamal`: an encrypter and, when the private key is known, a decrypter
(commutative_elgamal.cc:31-48). -/
structure CElGamal (G : Type) where
  pk : PK G
  sk : Option Int

/-- `CreateWithNewKeyPair`: commutative_elgamal.cc:50-59 and elgamal.cc:33-44. -/
def CElGamal.new (g : G) (order coin : Nat) : Outcome (CElGamal G) := do
  let x ← generatePrivateKey coin order
  pure ⟨(keyPair g x).1, some x⟩

/-- `CreateFromPublicKey`: commutative_elgamal.cc:59-73. -/
def CElGamal.fromPublic (cd : Codec G) (pk : Bytes × Bytes) : Outcome (CElGamal G) := do
  let g ← createECPoint cd pk.1
  let y ← createECPoint cd pk.2
  pure ⟨⟨g, y⟩, none⟩

/-- `CreateFromPublicAndPrivateKeys`: commutative_elgamal.cc:75-103. -/
def CElGamal.fromKeys (cd : Codec G) (pk : Bytes × Bytes) (sk : Bytes) : Outcome (CElGamal G) := do
  let g ← createECPoint cd pk.1
  let y ← createECPoint cd pk.2
  if y ≠ (ofBytes sk : Int) • g then
    .err "CommutativeElGamal::CreateFromPublicAndPrivateKeys : Public key is not consistent with private key"
  else pure ⟨⟨g, y⟩, some (ofBytes sk : Nat)⟩

/-- The two `ToBytesCompressed` calls of `Encrypt`, `EncryptIdentityElement` and `GetPublicKeyBytes`. -/
def pairBytes (cd : Codec G) (u e : G) : Outcome (Bytes × Bytes) := do
  let su ← pointToBytes cd u
  let se ← pointToBytes cd e
  pure (su, se)

/-- `CommutativeElGamal::Encrypt`: commutative_elgamal.cc:105-116; `coin` for `GeneratePrivateKey` in
elgamal.cc:111-119. -/
def CElGamal.encrypt (k : CElGamal G) (cd : Codec G) (order coin : Nat) (plaintext : Bytes) : Outcome (Bytes × Bytes) := do
  let m ← createECPoint cd plaintext
  let r ← generatePrivateKey coin order
  let c := encryptPoint k.pk r m
  pairBytes cd c.u c.e

/-- `CommutativeElGamal::EncryptIdentityElement`: commutative_elgamal.cc:118-129. -/
def CElGamal.encryptIdentity (k : CElGamal G) (cd : Codec G) (order coin : Nat) : Outcome (Bytes × Bytes) := do
  let r ← generatePrivateKey coin order
  let c := encryptPoint k.pk r 0
  pairBytes cd c.u c.e

/-- `CommutativeElGamal::Decrypt`: commutative_elgamal.cc:131-149. -/
def CElGamal.decrypt (k : CElGamal G) (cd : Codec G) (ct : Bytes × Bytes) : Outcome Bytes :=
  match k.sk with
  | none => .err "CommutativeElGamal::Decrypt: cannot decrypt without the private key."
  | some x => do
    let u ← createECPoint cd ct.1
    let e ← createECPoint cd ct.2
    pointToBytes cd (ElGamal.decrypt x ⟨u, e⟩)

/-- `GetPublicKeyBytes`: commutative_elgamal.cc:151-158. -/
def CElGamal.publicBytes (k : CElGamal G) (cd : Codec G) : Outcome (Bytes × Bytes) := pairBytes cd k.pk.g k.pk.y

/-- `GetPrivateKeyBytes`: commutative_elgamal.cc:160-166. -/
def CElGamal.privateBytes (k : CElGamal G) : Outcome Bytes :=
  match k.sk with
  | none => .err "CommutativeElGamal::GetPrivateKeyBytes: private key is not known."
  | some x => toBytes x

/-! ### ec_key_util.cc -/

/-- `EcKeyProto`. -/
structure EcKeyProto where
  curveId : Int
  key : Bytes

/-- `GenerateEcKey`: ec_key_util.cc:25-33 (the message; the file is C35's). -/
def generateEcKey (curveId : Int) (order coin : Nat) : Outcome EcKeyProto := do
  let k ← generatePrivateKey coin order
  let b ← toBytes k
  pure ⟨curveId, b⟩

/-- `DeserializeEcKey`: ec_key_util.cc:35-43. -/
def deserializeEcKey (curveId : Int) (p : EcKeyProto) : Outcome Nat :=
  if curveId ≠ p.curveId then .err "EC key conversion failed" else .ok (ofBytes p.key)

end Upsi.Curve
