import Verif.Proto.SSModel
import Verif.Proto.DelModel
import Verif.Proto.DelPsiModel
import Verif.Proto.OgModel
import Verif.Tree.Serial
/-
Model of the initial trees: generation by the setup programs (util/setup_util.cc:181-299,
addition/setup.cc:43-123, original/setup.cc:39-131, deletion/setup.cc:37-76) and import by the parties
(roles.h:62-110, original/party_zero.h:19-44, original/party_one.h:18-38).

Simplification: a tree file is the protobuf message written to it.  Writing a message to a record file
and reading it back returns the same message (records: C35, C37; the wire format of the key files is
modelled in `Setup/Keys.lean`, that of the tree files in `Wire/`, C72).
-/
namespace Upsi.Setup
open Upsi Upsi.ElGamal Upsi.Tree Upsi.Num Upsi.Proto

/-- `EncryptedTree` (network/upsi.proto:87-93); a `TreeNode` is its list of elements. -/
structure ETree where
  stashSize : Nat
  nodeSize : Nat
  actualSize : Nat
  depth : Nat
  nodes : List (List EncElem)
  deriving DecidableEq

/-- `SerializeNode` for a node of ciphertexts: crypto_node.cc:191-237. -/
def serEncElems (ser : γ → Outcome EncElem) : List γ → Outcome (List EncElem)
  | [] => .ok []
  | c :: cs => do
    let w ← ser c
    let ws ← serEncElems ser cs
    pure (w :: ws)

/-- The loop of `BaseTree::Serialize` for an encrypted tree: crypto_tree.cc:235-237. -/
def serEncNodes (ser : γ → Outcome EncElem) : List (Node γ) → Outcome (List (List EncElem))
  | [] => .ok []
  | n :: ns => do
    let w ← serEncElems ser n.elems
    let ws ← serEncNodes ser ns
    pure (w :: ws)

/-- `BaseTree::Serialize` for an encrypted tree: crypto_tree.cc:229-239. -/
def serializeEnc (ser : γ → Outcome EncElem) (t : Tree γ) : Outcome ETree := do
  let ns ← serEncNodes ser t.nodes
  pure ⟨t.stashSize, t.nodeSize, t.actualSize, t.depth, ns⟩

/-- `BaseTree::Deserialize` for an encrypted tree: crypto_tree.cc:241-257. -/
def deserializeEnc (deser : EncElem → Outcome γ) (e : ETree) : Outcome (Tree γ) := do
  let ns ← deserNodes deser e.nodes
  pure { nodeSize := e.nodeSize, stashSize := e.stashSize, depth := e.depth,
         actualSize := e.actualSize, nodes := ns }

/-- The two files written by `WriteTrees` (setup_util.cc:181-199): the owner's `plaintext.tree` and the
peer's `encrypted.tree`. -/
structure TreeFiles where
  plain : PTree
  enc : ETree
  deriving DecidableEq

/-- The coins of one `GenerateTrees`: path identifiers, paddings and encryption coins. -/
structure TreeCoins (α : Type) where
  hsh : List (List Bool)
  pads : Nat → Nat → α
  enc : Nat → Nat → Tape

/-- `GenerateTrees` (setup_util.cc:201-299, all variants): the whole initial set is inserted into an
empty plaintext tree by one `Update`, the resulting message is applied to an empty encrypted tree, and
both are serialized.  The second component is ghost: elements dropped by stash overflow. -/
def generateTrees (hashOf : α → List Bool) (post : List α → List α) (enc : Tape → α → Outcome EncElem)
    (deser : EncElem → Outcome γ) (ser : γ → Outcome EncElem) (encP : α → Outcome PElem)
    (stash node : Nat) (data : List α) (ρ : TreeCoins α) : Outcome (TreeFiles × List α) := do
  let u ← sendUpdate hashOf post (fun i j => enc (ρ.enc i j)) ρ.pads (Tree.empty stash node) data ρ.hsh
  let r ← recvUpdate deser (Tree.empty stash node) u.msg
  let p ← serialize encP u.tree
  let e ← serializeEnc ser r
  pure (⟨p, e⟩, u.lost)

variable {G : Type} [AddCommGroup G] [DecidableEq G]

/-- Element part of `SerializeNode(CryptoNode<Element>*)` on a set element: crypto_node.cc:174-177. -/
def encNat (x : Nat) : Outcome PElem := encElement x
/-- Element part of `SerializeNode(CryptoNode<ElementAndPayload>*)`: crypto_node.cc:183-187. -/
def encNatPair (p : Nat × Int) : Outcome PElem := Tree.encPair (p.1, p.2)
/-- Element part of `DeserializeNode<Element>`: crypto_node.cc:248-250. -/
def decNat (p : PElem) : Nat := ofBytes p.element
/-- Element part of `DeserializeNode<ElementAndPayload>`: crypto_node.cc:262-267. -/
def decNatPair (p : PElem) : Nat × Int := (ofBytes p.element, (ofBytes p.payload : Nat))

/-! ### Addition-only protocols -/

/-- Party zero's initial trees when the setup functionality is not secret sharing:
addition/setup.cc:85-90, setup_util.cc:256-267.  The encrypted tree always carries ElGamal payloads. -/
def genAdd0 (c : Codec G) (hashOf : Nat → List Bool) (pk : PK G) (stash node : Nat)
    (X0 : List (Nat × Int)) (ρ : TreeCoins (Nat × Int)) : Outcome (TreeFiles × List (Nat × Int)) :=
  generateTrees (fun p => hashOf p.1) id ((funcSum c).encTree pk) (funcSum c).deserTree
    (fun x => serElGamal c x.1 x.2) encNatPair stash node X0 ρ

/-- Party zero's initial trees for secret sharing: addition/setup.cc:85-90, setup_util.cc:235-255.  The
payload is the value of the data set, not the element. -/
def genAdd0SS (c : Codec G) (mont : Int → Option Mont) (a : TPaillier) (hashOf : Nat → List Bool) (pk : PK G)
    (stash node : Nat) (X0 : List (Nat × Int)) (ρ : TreeCoins (Nat × Int)) :
    Outcome (TreeFiles × List (Nat × Int)) :=
  generateTrees (fun p => hashOf p.1) id ((funcSS c mont a a).encTree pk) (funcSS c mont a a).deserTree
    (fun x => serPaillier c x.1 x.2) encNatPair stash node X0 ρ

/-- Party one's initial trees: addition/setup.cc:92-96, setup_util.cc:201-223. -/
def genAdd1 (c : Codec G) (hashOf : Nat → List Bool) (pk : PK G) (stash node : Nat)
    (Y0 : List Nat) (ρ : TreeCoins Nat) : Outcome (TreeFiles × List Nat) :=
  generateTrees hashOf id (fun t y => serNoPayload c (encrypt pk (t 0) y)) (deserTreeCt c) (serNoPayload c) encNat
    stash node Y0 ρ

/-- A failed status in a constructor of a party: the exception (roles.h:84-103) or `.value()` on the error
(party_zero.h:36-40) is not caught and ends the program. -/
def orAbort : Outcome α → Outcome α
  | .err _ => .abort
  | o => o

/-- Import of the own plaintext tree and of the copy of the peer's tree: roles.h:79-104. -/
def importTrees (dec : PElem → α) (deser : EncElem → Outcome γ) (mine : PTree) (theirs : ETree) :
    Outcome (Tree α × Tree γ) := do
  let o ← orAbort (deserializeEnc deser theirs)
  pure (deserialize dec mine, o)

/-- Both parties of the addition-only protocols after import.  `dec` is how party zero reads its own
tree, `deser` how party one reads its copy of it (both depend on the functionality: party_zero.h:27-31,
121-126, party_one.h:49-52, 101-104, 130-133).  The last two arguments are ghost. -/
def importAdd (c : Codec G) (dec : PElem → P) (deser : EncElem → Outcome γ) (f0 f1 : TreeFiles)
    (lost0 : List P) (lost1 : List Nat) : Outcome (St0 G P × St1 γ) := do
  let (m0, o0) ← importTrees dec (deserTreeCt c) f0.plain f1.enc
  let (m1, o1) ← importTrees decNat deser f1.plain f0.enc
  pure (⟨m0, o0, lost0⟩, ⟨m1, o1, lost1⟩)

/-! ### Protocols with deletions -/

/-- `SerializeNode(CryptoNode<PaillierPair>*, TreeNode*)`, one entry: crypto_node.cc:229-237. -/
def serPair (x : Int × Int) : Outcome EncElem := do
  let a ← toBytes x.1
  let b ← toBytes x.2
  pure (.deletion a b)

/-- A party's initial trees for the protocols with deletions: deletion/setup.cc:62-71,
setup_util.cc:270-299; `sk` is the party's own Paillier key. -/
def genDel (mont : Int → Option Mont) (sk : Paillier.Private) (hashOf : Nat → List Bool) (stash node : Nat)
    (X0 : List EP) (ρ : TreeCoins EP) : Outcome (TreeFiles × List EP) :=
  generateTrees (fun e : EP => hashOf e.1) mergeBucket (fun t e => Proto.encPair mont sk t e)
    deserPair serPair encNatPair stash node X0 ρ

/-- Both parties of a protocol with deletions after import: roles.h:79-104. -/
def importDel (f0 f1 : TreeFiles) (lost0 lost1 : List EP) : Outcome (DSt × DSt) := do
  let (m0, o0) ← importTrees decNatPair deserPair f0.plain f1.enc
  let (m1, o1) ← importTrees decNatPair deserPair f1.plain f0.enc
  pure (⟨m0, o0, lost0⟩, ⟨m1, o1, lost1⟩)

/-! ### The original protocol -/

/-- Party one's initial trees: original/setup.cc:105-109; encrypted under party one's own key. -/
def genOg1 (c : Codec G) (hashOf : Nat → List Bool) (K : OgKeys G) (stash node : Nat)
    (Y0 : List Nat) (ρ : TreeCoins Nat) : Outcome (TreeFiles × List Nat) :=
  genAdd1 c hashOf K.pk1 stash node Y0 ρ

/-- `WriteHX`: original/setup.cc:39-74: the tag of every initial element of party zero.  Elements stand
for their decimal strings. -/
def writeHX (cu : Codec G) (H : Nat → G) (K : OgKeys G) : List Nat → Outcome (List (Nat × List UInt8))
  | [] => .ok []
  | x :: xs => do
    let w ← pointToBytes cu (K.b • (K.a • H x))
    let rest ← writeHX cu H K xs
    pure ((x, w) :: rest)

/-- The loop reading the tags: original/party_zero.h:36-41. -/
def readHX (cu : Codec G) : List (Nat × List UInt8) → Mapping → Outcome Mapping
  | [], m => .ok m
  | (x, w) :: rest, m => do
    let p ← orAbort (createECPoint cu w)
    let k ← orAbort (pointToBytes cu p)
    readHX cu rest ((k, x) :: m)

/-- Both parties of the original protocol after import: original/party_zero.h:22-43,
original/party_one.h:22-36. -/
def importOg (c cu : Codec G) (f1 : TreeFiles) (hx : List (Nat × List UInt8)) (lost1 : List Nat) :
    Outcome (OgSt G) := do
  let t ← orAbort (deserializeEnc (deserTreeCt c) f1.enc)
  let m ← readHX cu hx []
  pure ⟨⟨t, m, [], []⟩, ⟨deserialize decNat f1.plain, lost1⟩⟩

end Upsi.Setup
