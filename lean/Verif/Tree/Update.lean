import Verif.Tree.Model
/-
Model of the update messages exchanged by the two copies of a tree: `CryptoTree<T>::Update`
(crypto_tree.cc:263-449), `CryptoNode::pad` (crypto_node.cc:66-79), `EncryptNode`
(crypto_node.cc:105-166), `SerializeNode` / `DeserializeNode` for `TreeNode`
(crypto_node.cc:191-237, 273-359).

`α` = plaintext element type, `ω` = element on the wire, `γ` = decoded ciphertext type.
`enc i j a` encrypts and serializes element number `j` of node number `i` with the coins drawn for
it; `deser` decodes one element.  Both may return an error status.
-/
namespace Upsi.Tree
open Upsi

/-- `TreeUpdates` (upsi.proto: `hashes`, `nodes`); a `TreeNode` is its list of elements. -/
structure Msg (ω : Type) where
  hashes : List (List Bool)
  nodes : List (List ω)
  deriving Repr, DecidableEq

/-- Loop of `EncryptNode` + `SerializeNode` over one node (crypto_node.cc:110-116).
`addElement` drops what exceeds `node_size`; `encNode` applies that cut. -/
def encElems (enc : Nat → α → Outcome ω) : Nat → List α → Outcome (List ω)
  | _, [] => .ok []
  | j, a :: as => do
    let w ← enc j a
    let ws ← encElems enc (j + 1) as
    pure (w :: ws)

/-- `pad` then `EncryptNode` then `SerializeNode` for one node: crypto_tree.cc:273-282. -/
def encNode (enc : Nat → α → Outcome ω) (pads : Nat → α) (n : Node α) : Outcome (List ω) := do
  let ws ← encElems enc 0 (padNode n pads).elems
  pure (ws.take n.cap)

/-- The loop over the nodes of an update: crypto_tree.cc:273-282. -/
def encNodes (enc : Nat → Nat → α → Outcome ω) (pads : Nat → Nat → α) :
    Nat → List (Node α) → Outcome (List (List ω))
  | _, [] => .ok []
  | i, n :: ns => do
    let w ← encNode (enc i) (pads i) n
    let ws ← encNodes enc pads (i + 1) ns
    pure (w :: ws)

/-- Result of the sender's `Update`. -/
structure SendResult (α ω : Type) where
  tree : Tree α
  msg : Msg ω
  lost : List α

/-- Sender side `CryptoTree<Element>::Update` (crypto_tree.cc:263-289), `<ElementAndPayload>`
variants (291-377; the last one uses `InsertWithDeletions`, i.e. `post = mergeBucket`).
On an error the C++ object keeps the already modified tree; the model returns only the error. -/
def sendUpdate (hashOf : α → List Bool) (post : List α → List α)
    (enc : Nat → Nat → α → Outcome ω) (pads : Nat → Nat → α)
    (t : Tree α) (es : List α) (hsh : List (List Bool)) : Outcome (SendResult α ω) := do
  let r ← insertWith hashOf post t es hsh
  let ns ← encNodes enc pads 0 r.update
  pure { tree := r.tree, msg := { hashes := hsh, nodes := ns }, lost := r.lost }

/-- `DeserializeNode` for one `TreeNode` (crypto_node.cc:273-359). -/
def deserElems (deser : ω → Outcome γ) : List ω → Outcome (List γ)
  | [] => .ok []
  | w :: ws => do
    let c ← deser w
    let cs ← deserElems deser ws
    pure (c :: cs)

/-- Decode all nodes; the capacity of a decoded node is its number of elements
(`CryptoNode<T> node(tnode.elements().size())`, crypto_node.cc:277). -/
def deserNodes (deser : ω → Outcome γ) : List (List ω) → Outcome (List (Node γ))
  | [] => .ok []
  | n :: ns => do
    let c ← deserElems deser n
    let cs ← deserNodes deser ns
    pure ({ cap := c.length, elems := c } :: cs)

/-- Receiver side `CryptoTree<Ciphertext...>::Update`: crypto_tree.cc:379-449.  All nodes are decoded
before the tree is touched. -/
def recvUpdate (deser : ω → Outcome γ) (t : Tree γ) (m : Msg ω) : Outcome (Tree γ) := do
  let ns ← deserNodes deser m.nodes
  replaceNodes t ns m.hashes

end Upsi.Tree
