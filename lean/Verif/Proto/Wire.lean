import Verif.ElGamal.Model
import Verif.Num.Bytes
/-
Wire formats of encrypted elements: `EncryptedElement` (network/upsi.proto:16-47) and the functions
that put ciphertexts on the wire and read them back (crypto_node.cc:191-359, utils.cc:43-139).
-/
namespace Upsi.Proto
open Upsi Upsi.ElGamal Upsi.Num

/-- A C++ loop `for (i = 0; i < v.size(); i++)` whose body may return an error; the body gets the
index (used to select the coins drawn in that iteration) and the element, and appends one result. -/
def forIdx (f : Nat → α → Outcome β) : Nat → List α → Outcome (List β)
  | _, [] => .ok []
  | i, a :: as => do
    let b ← f i a
    let bs ← forIdx f (i + 1) as
    pure (b :: bs)

/-- `EncryptedElement`: network/upsi.proto:16-47.  An absent `element_type` is `notSet`; absent
optional fields inside a message are their default (empty) values. -/
inductive EncElem where
  | notSet
  | noPayload (element : CtProto)
  | paillier (element : CtProto) (payload : List UInt8)
  | elgamal (element payload : CtProto)
  | deletion (element payload : List UInt8)
  | onlyPaillier (element : List UInt8)
  deriving DecidableEq

variable {G : Type} [AddCommGroup G] [DecidableEq G]

/-- `SerializeNode(CryptoNode<Ciphertext>*, TreeNode*)`, one element: crypto_node.cc:191-200; the
same code serializes a candidate in party_zero.cc:190-195 and party_one.cc:236-243. -/
def serNoPayload (c : Codec G) (x : Ct G) : Outcome EncElem := do
  let p ← serializeCt c x
  pure (.noPayload p)

/-- `SerializeNode(CryptoNode<CiphertextAndElGamal>*, TreeNode*)`, one element:
crypto_node.cc:215-228; candidates: party_zero.cc:153-161, 226-234, party_one.cc:173-180. -/
def serElGamal (c : Codec G) (x p : Ct G) : Outcome EncElem := do
  let a ← serializeCt c x
  let b ← serializeCt c p
  pure (.elgamal a b)

/-- `SerializeNode(CryptoNode<CiphertextAndPaillier>*, TreeNode*)`, one element:
crypto_node.cc:202-213; candidates: party_zero.cc:264-269. -/
def serPaillier (c : Codec G) (x : Ct G) (p : Int) : Outcome EncElem := do
  let a ← serializeCt c x
  let b ← toBytes p
  pure (.paillier a b)

/-- `DeserializeCiphertexts<Ciphertext>`, one element: utils.cc:43-65. -/
def deserNoPayload (c : Codec G) : EncElem → Outcome (Ct G)
  | .noPayload p => deserializeCt c p
  | _ => .err "[Utils] attempting to parse message with a payload"

/-- `DeserializeCiphertexts<CiphertextAndElGamal>`, one element: utils.cc:67-93; also
`DeserializeNode<CiphertextAndElGamal>`: crypto_node.cc:320-344 (same except the message text). -/
def deserElGamal (c : Codec G) : EncElem → Outcome (Ct G × Ct G)
  | .elgamal a b => do
    let x ← deserializeCt c a
    let y ← deserializeCt c b
    pure (x, y)
  | _ => .err "[Utils] attempting to parse message without El Gamal payload"

/-- `DeserializeCiphertexts<CiphertextAndPaillier>`, one element: utils.cc:95-120; also
`DeserializeNode<CiphertextAndPaillier>`: crypto_node.cc:298-318. -/
def deserPaillier (c : Codec G) : EncElem → Outcome (Ct G × Int)
  | .paillier a b => do
    let x ← deserializeCt c a
    pure (x, (ofBytes b : Int))
  | _ => .err "[Utils] attempting to parse message without Paillier payload"

/-- `DeserializeNode<Ciphertext>`, one element: crypto_node.cc:273-296.  It accepts every variant:
the ElGamal part of `no_payload`, `paillier`, else whatever `elgamal().element()` is (the empty
default if that field is not set). -/
def deserTreeCt (c : Codec G) : EncElem → Outcome (Ct G)
  | .noPayload p => deserializeCt c p
  | .paillier p _ => deserializeCt c p
  | .elgamal p _ => deserializeCt c p
  | _ => deserializeCt c ⟨[], []⟩

end Upsi.Proto
