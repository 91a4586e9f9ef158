import Verif.Tree.Model
/-
Independent specification vocabulary for the tree properties.  Nothing here is used by the model.
-/
namespace Upsi.Tree
open Upsi

/-- Node `v` is node `u`, one of its ancestors in the heap numbering (children of `x` are `2x`,
`2x+1`), or the stash `0`. -/
def Anc (v u : Nat) : Prop := ∃ k, v = u / 2 ^ k

/-- The heap index of the node reached from the root by following the bits `h`
(`false` = left, `true` = right). -/
def walk : Nat → List Bool → Nat
  | x, [] => x
  | x, b :: h => walk (2 * x + b.toNat) h

/-- The leaf addressed by hash `h` in a tree of depth `d`. -/
def leafAddr (d : Nat) (h : List Bool) : Nat := walk 1 (h.take d)

/-- All elements stored anywhere in a tree. -/
def Tree.contents (t : Tree α) : List α := t.nodes.flatMap Node.elems

/-- Elements stored at node `u` (nothing outside the array). -/
def Tree.at (t : Tree α) (u : Nat) : List α := (t.nodes[u]?.map Node.elems).getD []

/-- One batch handed to `insert`: the elements and the random path identifiers drawn for them. -/
abbrev Batch (α : Type) := List α × List (List Bool)

/-- The identifiers drawn by `generateRandomHash(cnt)` (utils.cc:225-236): one 256-bit string per
element. -/
def Batch.WF (b : Batch α) : Prop := b.2.length = b.1.length ∧ ∀ h ∈ b.2, h.length = 256

/-- Total number of elements in a history of batches. -/
def total (bs : List (Batch α)) : Nat := (bs.map (fun b => b.1.length)).sum

/-- The tree, the updates sent, and the dropped elements after a history of batches. -/
structure Run (α : Type) where
  tree : Tree α
  updates : List (List (Node α))
  lost : List α
  deriving DecidableEq

/-- Insert a history of batches one after the other. -/
def runBatches (hashOf : α → List Bool) (post : List α → List α) :
    Tree α → List (Batch α) → Outcome (Run α)
  | t, [] => .ok ⟨t, [], []⟩
  | t, b :: bs => do
    let r ← insertWith hashOf post t b.1 b.2
    let r' ← runBatches hashOf post r.tree bs
    pure ⟨r'.tree, r.update :: r'.updates, r.lost ++ r'.lost⟩

end Upsi.Tree
