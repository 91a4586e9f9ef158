import Verif.Tree.Deletion
import Verif.Num.Bytes
/-
Model of (de)serialization of plaintext trees: upsi/crypto_tree.cc:229-257 and
upsi/crypto_node.cc:172-192, 243-272.  A protobuf message is the record of its fields; `bytes`
fields that are not set read as the empty string.
-/
namespace Upsi.Tree
open Upsi Upsi.Num

/-- `PlaintextElement` (upsi.proto): two `bytes` fields. -/
structure PElem where
  element : List UInt8
  payload : List UInt8
  deriving DecidableEq

/-- `PlaintextNode` (upsi.proto). -/
structure PNode where
  nodeSize : Nat
  elements : List PElem
  deriving DecidableEq

/-- `PlaintextTree` (upsi.proto). -/
structure PTree where
  stashSize : Nat
  nodeSize : Nat
  actualSize : Nat
  depth : Nat
  nodes : List PNode
  deriving DecidableEq

/-- Element part of `SerializeNode(CryptoNode<Element>*)`: crypto_node.cc:174-177. -/
def encElement (e : Int) : Outcome PElem := do
  let b ← toBytes e
  pure ⟨b, []⟩

/-- Element part of `DeserializeNode<Element>`: crypto_node.cc:248-250. -/
def decElement (p : PElem) : Int := ofBytes p.element

/-- Element part of `SerializeNode(CryptoNode<ElementAndPayload>*)`: crypto_node.cc:183-187. -/
def encPair (e : Int × Int) : Outcome PElem := do
  let b ← toBytes e.1
  let c ← toBytes e.2
  pure ⟨b, c⟩

/-- Element part of `DeserializeNode<ElementAndPayload>`: crypto_node.cc:262-267. -/
def decPair (p : PElem) : Int × Int := (ofBytes p.element, ofBytes p.payload)

variable {α : Type}

/-- The loop over the elements of a node: crypto_node.cc:174, 183. -/
def serElems (enc : α → Outcome PElem) : List α → Outcome (List PElem)
  | [] => .ok []
  | e :: es => do
    let p ← enc e
    let ps ← serElems enc es
    pure (p :: ps)

/-- `SerializeNode`: crypto_node.cc:172-190. -/
def serNode (enc : α → Outcome PElem) (n : Node α) : Outcome PNode := do
  let ps ← serElems enc n.elems
  pure ⟨n.cap, ps⟩

/-- The loop of `BaseTree::Serialize`: crypto_tree.cc:235-237. -/
def serNodes (enc : α → Outcome PElem) : List (Node α) → Outcome (List PNode)
  | [] => .ok []
  | n :: ns => do
    let p ← serNode enc n
    let ps ← serNodes enc ns
    pure (p :: ps)

/-- `BaseTree::Serialize`: crypto_tree.cc:229-239. -/
def serialize (enc : α → Outcome PElem) (t : Tree α) : Outcome PTree := do
  let ps ← serNodes enc t.nodes
  pure ⟨t.stashSize, t.nodeSize, t.actualSize, t.depth, ps⟩

/-- `addElement` (crypto_node.cc:52-61): refuses (returns false) when the node is full. -/
def addElement (n : Node α) (e : α) : Node α :=
  if n.elems.length < n.cap then { n with elems := n.elems ++ [e] } else n

/-- `DeserializeNode`: crypto_node.cc:243-272 (the result of `addElement` is ignored). -/
def deserNode (dec : PElem → α) (p : PNode) : Node α :=
  p.elements.foldl (fun n e => addElement n (dec e)) ⟨p.nodeSize, []⟩

/-- `BaseTree::Deserialize`: crypto_tree.cc:242-257. -/
def deserialize (dec : PElem → α) (p : PTree) : Tree α :=
  { nodeSize := p.nodeSize, stashSize := p.stashSize, depth := p.depth, actualSize := p.actualSize
    nodes := p.nodes.map (deserNode dec) }

end Upsi.Tree
