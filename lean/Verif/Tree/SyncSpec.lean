import Verif.Tree.Update
import Verif.Tree.Spec
import Mathlib.Data.List.Forall2
/- Specification of "the receiver mirrors the sender" and two-party histories. -/
namespace Upsi.Tree
open Upsi

/-- Node contents `r` of the receiver mirror node contents `s` of the sender: `r` encrypts, in
order, the elements of `s` followed by padding elements.  `Enc a c` reads "`c` is an encryption of
`a`". -/
def NodeMirror (Enc : α → γ → Prop) (isPad : α → Prop) (s : List α) (r : List γ) : Prop :=
  ∃ pads, (∀ p ∈ pads, isPad p) ∧ List.Forall₂ Enc (s ++ pads) r

/-- The receiver's tree mirrors the sender's tree. -/
structure Mirror (Enc : α → γ → Prop) (isPad : α → Prop) (s : Tree α) (r : Tree γ) : Prop where
  depth : r.depth = s.depth
  size : r.actualSize = s.actualSize
  count : r.nodes.length = s.nodes.length
  node : ∀ u, NodeMirror Enc isPad (s.at u) (r.at u)

/-- One update of a session: elements, path identifiers, encryption coins (as the resulting
encryption function) and padding elements. -/
structure UpdateIn (α ω : Type) where
  elems : List α
  hsh : List (List Bool)
  enc : Nat → Nat → α → Outcome ω
  pads : Nat → Nat → α

/-- A sender sends a sequence of updates, the receiver applies each. -/
def session (hashOf : α → List Bool) (post : List α → List α) (deser : ω → Outcome γ) :
    Tree α → Tree γ → List (UpdateIn α ω) → Outcome (Tree α × Tree γ × List (Msg ω))
  | s, r, [] => .ok (s, r, [])
  | s, r, u :: us => do
    let x ← sendUpdate hashOf post u.enc u.pads s u.elems u.hsh
    let r' ← recvUpdate deser r x.msg
    let (s2, r2, ms) ← session hashOf post deser x.tree r' us
    pure (s2, r2, x.msg :: ms)

end Upsi.Tree
