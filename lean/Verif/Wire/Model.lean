import Verif.Setup.Keys
import Verif.Setup.Trees
/-
Model of the bytes of the protocol messages and of the tree files: the messages of upsi/network/upsi.proto and
`ElGamalCiphertext` of upsi/crypto/elgamal.proto in the proto2 wire format (encoder and parser of single fields:
`Setup/Keys.lean`).

A message is encoded by listing its fields in the order of their numbers.  Parsing reads the list of fields and picks them by
number: the last occurrence of a `bytes` or `int32` field counts, repeated fields collect all occurrences, several
occurrences of a message field are merged (which for the wire format is the same as parsing their concatenation), and the last
member of a `oneof` wins (merging only with an immediately preceding occurrence of the same member).

Simplifications: fields whose presence nothing in the code inspects (`bytes` fields and the ciphertexts inside an
`EncryptedElement`) are always written and read as empty when absent, as the generated setters and getters used by the code
do.  Unknown fields are ignored.
-/
namespace Upsi.Wire
open Upsi Upsi.Rec Upsi.ElGamal Upsi.Tree Upsi.Proto Upsi.Setup

/-! ### picking fields -/

/-- All occurrences of a repeated length-delimited field. -/
def getRep (k : Nat) (l : List (Nat × WVal)) : List Bytes :=
  l.filterMap (fun f => match f with
    | (n, .len b) => if n = k then some b else none
    | _ => none)

/-- An optional message field: `none` when absent; several occurrences are merged. -/
def getOpt (k : Nat) (l : List (Nat × WVal)) : Option Bytes :=
  if getRep k l = [] then none else some (getRep k l).flatten

/-- One step of reading a `oneof` with the members `ks`. -/
def oneofStep (ks : List Nat) (acc : Option (Nat × Bytes)) : Nat × WVal → Option (Nat × Bytes)
  | (n, .len b) =>
    if n ∈ ks then
      match acc with
      | some (m, a) => if m = n then some (n, a ++ b) else some (n, b)
      | none => some (n, b)
    else acc
  | _ => acc

/-- A `oneof` whose members `ks` are messages. -/
def getOneof (ks : List Nat) (l : List (Nat × WVal)) : Option (Nat × Bytes) := l.foldl (oneofStep ks) none

/-- An optional message field on the wire. -/
def optField (k : Nat) : Option Bytes → List (Nat × WVal)
  | none => []
  | some b => [(k, .len b)]

/-- A repeated length-delimited field on the wire. -/
def repField (k : Nat) (l : List Bytes) : List (Nat × WVal) := l.map (fun b => (k, .len b))

/-- An `int32` on the wire: sign-extended to 64 bits. -/
def enc32 (n : Nat) : Nat := (int32 n % 2 ^ 64).toNat

/-! ### data types -/

/-- `ElGamalCiphertext`: crypto/elgamal.proto:82-85. -/
def serCt (x : CtProto) : Bytes := encFields [(1, .len x.u), (2, .len x.e)]
/-- `ElGamalCiphertext`: crypto/elgamal.proto:82-85. -/
def parseCt (b : Bytes) : CtProto := ⟨getBytes 1 (parseMsg b), getBytes 2 (parseMsg b)⟩

/-- The ciphertext in an optional field, empty when absent. -/
def ctOf (o : Option Bytes) : CtProto := parseCt (o.getD [])

/-- `EncryptedElement`: network/upsi.proto:16-47. -/
def serElem : EncElem → Bytes
  | .notSet => []
  | .noPayload a => encFields [(1, .len (encFields [(1, .len (serCt a))]))]
  | .paillier a p => encFields [(2, .len (encFields [(1, .len (serCt a)), (2, .len p)]))]
  | .elgamal a p => encFields [(3, .len (encFields [(1, .len (serCt a)), (2, .len (serCt p))]))]
  | .deletion a p => encFields [(4, .len (encFields [(1, .len a), (2, .len p)]))]
  | .onlyPaillier a => encFields [(5, .len (encFields [(1, .len a)]))]

/-- `EncryptedElement`: network/upsi.proto:16-47. -/
def parseElem (b : Bytes) : EncElem :=
  match getOneof [1, 2, 3, 4, 5] (parseMsg b) with
  | none => .notSet
  | some (k, m) =>
    let l := parseMsg m
    if k = 1 then .noPayload (ctOf (getOpt 1 l))
    else if k = 2 then .paillier (ctOf (getOpt 1 l)) (getBytes 2 l)
    else if k = 3 then .elgamal (ctOf (getOpt 1 l)) (ctOf (getOpt 2 l))
    else if k = 4 then .deletion (getBytes 1 l) (getBytes 2 l)
    else .onlyPaillier (getBytes 1 l)

/-- `EncryptedSet`: network/upsi.proto:49-51. -/
def serSet (l : List EncElem) : Bytes := encFields (repField 1 (l.map serElem))
/-- `EncryptedSet`: network/upsi.proto:49-51. -/
def parseSet (b : Bytes) : List EncElem := (getRep 1 (parseMsg b)).map parseElem

/-- `EncryptedSetVector`: network/upsi.proto:53-55. -/
def serVec (l : List (List EncElem)) : Bytes := encFields (repField 1 (l.map serSet))
/-- `EncryptedSetVector`: network/upsi.proto:53-55. -/
def parseVec (b : Bytes) : List (List EncElem) := (getRep 1 (parseMsg b)).map parseSet

/-- `TreeNode`: network/upsi.proto:57-59. -/
def serTreeNode (l : List EncElem) : Bytes := encFields (repField 2 (l.map serElem))
/-- `TreeNode`: network/upsi.proto:57-59. -/
def parseTreeNode (b : Bytes) : List EncElem := (getRep 2 (parseMsg b)).map parseElem

/-- A path identifier is a string of the characters `0` and `1` (utils.cc:148-154, 225-229). -/
def serHash (h : List Bool) : Bytes := h.map (fun x => if x then 49 else 48)
/-- Reading a path identifier (crypto_tree.cc:41-49).  Other characters than `0` and `1`, which no party sends, read as 0. -/
def parseHash (b : Bytes) : List Bool := b.map (fun c => c = 49)

/-- `TreeUpdates`: network/upsi.proto:61-64. -/
def serUpdates (m : Msg EncElem) : Bytes :=
  encFields (repField 1 (m.hashes.map serHash) ++ repField 2 (m.nodes.map serTreeNode))
/-- `TreeUpdates`: network/upsi.proto:61-64. -/
def parseUpdates (b : Bytes) : Msg EncElem :=
  ⟨(getRep 1 (parseMsg b)).map parseHash, (getRep 2 (parseMsg b)).map parseTreeNode⟩

/-! ### tree files -/

/-- `PlaintextElement`: network/upsi.proto:71-74. -/
def serPElem (x : PElem) : Bytes := encFields [(1, .len x.element), (2, .len x.payload)]
/-- `PlaintextElement`: network/upsi.proto:71-74. -/
def parsePElem (b : Bytes) : PElem := ⟨getBytes 1 (parseMsg b), getBytes 2 (parseMsg b)⟩

/-- `PlaintextNode`: network/upsi.proto:78-81. -/
def serPNode (n : PNode) : Bytes := encFields (repField 1 (n.elements.map serPElem) ++ [(2, .varint (enc32 n.nodeSize))])
/-- `PlaintextNode`: network/upsi.proto:78-81; a negative size is out of range of the model. -/
def parsePNode (b : Bytes) : PNode :=
  ⟨(getInt32 2 (parseMsg b)).toNat, (getRep 1 (parseMsg b)).map parsePElem⟩

/-- The four numbers of a tree file. -/
def sizeFields (stash node actual depth : Nat) : List (Nat × WVal) :=
  [(2, .varint (enc32 stash)), (3, .varint (enc32 node)), (4, .varint (enc32 actual)), (5, .varint (enc32 depth))]

/-- `PlaintextTree`: network/upsi.proto:83-89. -/
def serPTree (t : PTree) : Bytes :=
  encFields (repField 1 (t.nodes.map serPNode) ++ sizeFields t.stashSize t.nodeSize t.actualSize t.depth)
/-- `PlaintextTree`: network/upsi.proto:83-89. -/
def parsePTree (b : Bytes) : PTree :=
  let l := parseMsg b
  ⟨(getInt32 2 l).toNat, (getInt32 3 l).toNat, (getInt32 4 l).toNat, (getInt32 5 l).toNat, (getRep 1 l).map parsePNode⟩

/-- `EncryptedTree`: network/upsi.proto:91-97. -/
def serETree (t : ETree) : Bytes :=
  encFields (repField 1 (t.nodes.map serTreeNode) ++ sizeFields t.stashSize t.nodeSize t.actualSize t.depth)
/-- `EncryptedTree`: network/upsi.proto:91-97. -/
def parseETree (b : Bytes) : ETree :=
  let l := parseMsg b
  ⟨(getInt32 2 l).toNat, (getInt32 3 l).toNat, (getInt32 4 l).toNat, (getInt32 5 l).toNat, (getRep 1 l).map parseTreeNode⟩

/-- `OPRF_KV`: network/upsi.proto:99-102. -/
def serKV (x : Bytes × Bytes) : Bytes := encFields [(1, .len x.1), (2, .len x.2)]
/-- `OPRF_KV`: network/upsi.proto:99-102. -/
def parseKV (b : Bytes) : Bytes × Bytes := (getBytes 1 (parseMsg b), getBytes 2 (parseMsg b))
/-- `OPRF`: network/upsi.proto:104-106. -/
def serOPRF (l : List (Bytes × Bytes)) : Bytes := encFields (repField 1 (l.map serKV))
/-- `OPRF`: network/upsi.proto:104-106. -/
def parseOPRF (b : Bytes) : List (Bytes × Bytes) := (getRep 1 (parseMsg b)).map parseKV

/-! ### protocol messages -/

/-- `PartyZeroMessage.MessageI` and `PartyOneMessage.MessageII`: network/upsi.proto:157-161, 190-194. -/
structure PMsg where
  updates : Option (Msg EncElem)
  candidates : Option (List EncElem)
  vct : Option (List (List EncElem))
  deriving DecidableEq

/-- Bytes of `MessageI` / `MessageII`: network/upsi.proto:157-161, 190-194. -/
def serPMsg (m : PMsg) : Bytes :=
  encFields (optField 1 (m.updates.map serUpdates) ++ optField 2 (m.candidates.map serSet) ++ optField 3 (m.vct.map serVec))
/-- Parsing `MessageI` / `MessageII`: network/upsi.proto:157-161, 190-194. -/
def parsePMsg (b : Bytes) : PMsg :=
  let l := parseMsg b
  ⟨(getOpt 1 l).map parseUpdates, (getOpt 2 l).map parseSet, (getOpt 3 l).map parseVec⟩

/-- `MessageIII_SUM`, `PartyOneMessage.MessageIV`: network/upsi.proto:163-165, 196-198. -/
def serSum (m : Option CtProto) : Bytes := encFields (optField 1 (m.map serCt))
/-- Parsing `MessageIII_SUM` / `MessageIV`: network/upsi.proto:163-165, 196-198. -/
def parseSum (b : Bytes) : Option CtProto := (getOpt 1 (parseMsg b)).map parseCt

/-- `MessageIII_SS` with its `PaillierCiphertext`s: network/upsi.proto:66-68, 167-169. -/
def serShares (l : List Bytes) : Bytes := encFields (repField 1 (l.map (fun c => encFields [(1, .len c)])))
/-- Parsing `MessageIII_SS`: network/upsi.proto:66-68, 167-169. -/
def parseShares (b : Bytes) : List Bytes := (getRep 1 (parseMsg b)).map (fun m => getBytes 1 (parseMsg m))

/-- `PartyZeroMessage`: network/upsi.proto:143-170. -/
inductive P0Msg where
  | notSet
  | i (m : PMsg)
  | iiiSum (m : Option CtProto)
  | iiiSS (l : List Bytes)
  deriving DecidableEq

/-- Bytes of `PartyZeroMessage`: network/upsi.proto:143-170. -/
def serP0 : P0Msg → Bytes
  | .notSet => []
  | .i m => encFields [(1, .len (serPMsg m))]
  | .iiiSum m => encFields [(2, .len (serSum m))]
  | .iiiSS l => encFields [(3, .len (serShares l))]
/-- Parsing `PartyZeroMessage`: network/upsi.proto:143-170. -/
def parseP0 (b : Bytes) : P0Msg :=
  match getOneof [1, 2, 3] (parseMsg b) with
  | none => .notSet
  | some (k, m) => if k = 1 then .i (parsePMsg m) else if k = 2 then .iiiSum (parseSum m) else .iiiSS (parseShares m)

/-- `PartyOneMessage`: network/upsi.proto:180-199. -/
inductive P1Msg where
  | notSet
  | ii (m : PMsg)
  | iv (m : Option CtProto)
  deriving DecidableEq

/-- Bytes of `PartyOneMessage`: network/upsi.proto:180-199. -/
def serP1 : P1Msg → Bytes
  | .notSet => []
  | .ii m => encFields [(1, .len (serPMsg m))]
  | .iv m => encFields [(2, .len (serSum m))]
/-- Parsing `PartyOneMessage`: network/upsi.proto:180-199. -/
def parseP1 (b : Bytes) : P1Msg :=
  match getOneof [1, 2] (parseMsg b) with
  | none => .notSet
  | some (k, m) => if k = 1 then .ii (parsePMsg m) else .iv (parseSum m)

/-- `OriginalMessage`: network/upsi.proto:109-139. -/
inductive OgMsg where
  | notSet
  | i (updates : Option (Msg EncElem)) (ciphertexts : List Bytes)
  | ii (alpha : Option CtProto) (candidates : List (List EncElem))
  | iii (candidates : List (List EncElem))
  | iv (ciphertexts : List Bytes)
  | v (ciphertexts : List Bytes)
  deriving DecidableEq

/-- Bytes of `OriginalMessage`: network/upsi.proto:109-139. -/
def serOg : OgMsg → Bytes
  | .notSet => []
  | .i u c => encFields [(1, .len (encFields (optField 1 (u.map serUpdates) ++ repField 2 c)))]
  | .ii a c => encFields [(2, .len (encFields (optField 1 (a.map serCt) ++ repField 2 (c.map serSet))))]
  | .iii c => encFields [(3, .len (encFields (repField 1 (c.map serSet))))]
  | .iv c => encFields [(4, .len (encFields (repField 1 c)))]
  | .v c => encFields [(5, .len (encFields (repField 1 c)))]
/-- Parsing `OriginalMessage`: network/upsi.proto:109-139. -/
def parseOg (b : Bytes) : OgMsg :=
  match getOneof [1, 2, 3, 4, 5] (parseMsg b) with
  | none => .notSet
  | some (k, m) =>
    let l := parseMsg m
    if k = 1 then .i ((getOpt 1 l).map parseUpdates) (getRep 2 l)
    else if k = 2 then .ii ((getOpt 1 l).map parseCt) ((getRep 2 l).map parseSet)
    else if k = 3 then .iii ((getRep 1 l).map parseSet)
    else if k = 4 then .iv (getRep 1 l)
    else .v (getRep 1 l)

/-- `ClientMessage`: network/upsi.proto:172-177. -/
inductive CMsg where
  | notSet
  | p0 (m : P0Msg)
  | og (m : OgMsg)
  deriving DecidableEq

/-- Bytes of `ClientMessage`: network/upsi.proto:172-177. -/
def serClient : CMsg → Bytes
  | .notSet => []
  | .p0 m => encFields [(1, .len (serP0 m))]
  | .og m => encFields [(2, .len (serOg m))]
/-- Parsing `ClientMessage`: network/upsi.proto:172-177. -/
def parseClient (b : Bytes) : CMsg :=
  match getOneof [1, 2] (parseMsg b) with
  | none => .notSet
  | some (k, m) => if k = 1 then .p0 (parseP0 m) else .og (parseOg m)

/-- `ServerMessage`: network/upsi.proto:201-206. -/
inductive SMsg where
  | notSet
  | p1 (m : P1Msg)
  | og (m : OgMsg)
  deriving DecidableEq

/-- Bytes of `ServerMessage`: network/upsi.proto:201-206. -/
def serServer : SMsg → Bytes
  | .notSet => []
  | .p1 m => encFields [(1, .len (serP1 m))]
  | .og m => encFields [(2, .len (serOg m))]
/-- Parsing `ServerMessage`: network/upsi.proto:201-206. -/
def parseServer (b : Bytes) : SMsg :=
  match getOneof [1, 2] (parseMsg b) with
  | none => .notSet
  | some (k, m) => if k = 1 then .p1 (parseP1 m) else .og (parseOg m)

end Upsi.Wire
