import Verif.Hide.Dcr
import Verif.Hide.Model
import Verif.Proto.ProgressDel
/-
The tree updates a party of the protocols with deletions sends over several days (C81).  The names `UpDay`, `Place`,
`treeUpdates`, `coinAt`, `placesOf` and `acceptsU` are used in the statements, the rest in the proofs only (and in the
description of the distinguishers).
-/
namespace Upsi.Hide
open Upsi Upsi.Tree Upsi.Num Upsi.Proto Upsi.Paillier Upsi.View Upsi.Tree.Props

/-- The part of a round that decides a party's tree update: the new entries, their path identifiers, and the pads. -/
structure UpDay where
  es : List EP
  hsh : List (List Bool)
  pads : Nat → Nat → EP

/-- The places of a history in which a party draws a pair of coins: ciphertext `k` (0 the element, 1 the payload) of entry
`j` of node `i` of the tree update of round `d`. -/
structure Place where
  d : Nat
  i : Nat
  j : Nat
  k : Nat
  deriving DecidableEq

/-- The same place one round later. -/
def Place.next (s : Place) : Place := { s with d := s.d + 1 }

/-- The coins of entry `j` of node `i` in the order in which they are drawn: crypto_node.cc:149-166, paillier.cc:461-473. -/
def tapeAt (coin : Place → Int × Int) (i j : Nat) : Nat → Int
  | 0 => (coin ⟨0, i, j, 0⟩).1
  | 1 => (coin ⟨0, i, j, 0⟩).2
  | 2 => (coin ⟨0, i, j, 1⟩).1
  | _ => (coin ⟨0, i, j, 1⟩).2

/-- The tree updates of a party over several rounds: the calls of `Update` in deletion/party_zero.cc:91-97,
party_one.cc:57-63, deletion-psi/party_zero.cc:139-150, party_one.cc:94-101. -/
def treeUpdates (mont : Int → Option Mont) (hashOf : Nat → List Bool) (sk : Private) :
    (Place → Int × Int) → Upsi.Tree.Tree EP → List UpDay → Outcome (List (Msg EncElem))
  | _, _, [] => .ok []
  | coin, t, d :: ds => do
    let u ← sendUpdate (fun e : EP => hashOf e.1) mergeBucket (fun i j => Proto.encPair mont sk (tapeAt coin i j)) d.pads t d.es d.hsh
    let ms ← treeUpdates mont hashOf sk (fun s => coin s.next) u.tree ds
    pure (u.msg :: ms)

/-- The pairs of coins of the listed places are drawn from `[1, p) × [1, q)`, all others are `(1, 1)`. -/
def coinAt {p q : Nat} (U : List Place) (x : Fin U.length → Fin (p - 1) × Fin (q - 1)) (s : Place) : Int × Int :=
  if h : U.idxOf s < U.length then (maskOf (x ⟨U.idxOf s, h⟩).1, maskOf (x ⟨U.idxOf s, h⟩).2) else (1, 1)

/-- The places used in a history. -/
def usedPlaces : Nat → List PubDay → List Place
  | _, [] => []
  | d, p :: ps =>
    ((List.range p.sizes.length).flatMap fun i => (List.range (p.sizes.getD i 0)).flatMap fun j =>
      (List.range 2).map fun k => Place.mk d i j k) ++ usedPlaces (d + 1) ps

/-- The path identifiers of a history. -/
def upIds (days : List UpDay) : List (List (List Bool)) := days.map UpDay.hsh

/-- The places used by a party with tree `t` for the identifiers `bs` of the coming rounds. -/
def placesOf (t : Upsi.Tree.Tree EP) (bs : List (List (List Bool))) : List Place :=
  usedPlaces 0 (pubDays t.stashSize t.nodeSize t.depth t.actualSize bs)

/-- The probability that a test `D` of the tree updates of a history says yes, over the coins of the places `U`. -/
def acceptsU (p q : Nat) (mont : Int → Option Mont) (hashOf : Nat → List Bool) (sk : Private) (D : Outcome (List (Msg EncElem)) → Bool)
    (t : Upsi.Tree.Tree EP) (days : List UpDay) (U : List Place) : ℚ :=
  prob (fun x : Fin U.length → Fin (p - 1) × Fin (q - 1) => D (treeUpdates mont hashOf sk (coinAt U x) t days))

/-! ### the same with given ciphertexts -/

/-- An entry made of given ciphertexts. -/
def entryC {n : Nat} (a b : (ZMod (n ^ 2))ˣ) : Outcome EncElem := do
  let wa ← toBytes (rep a)
  let wb ← toBytes (rep b)
  pure (.deletion wa wb)

/-- Tree updates made of given ciphertexts. -/
def updatesC {n : Nat} : (Place → (ZMod (n ^ 2))ˣ) → List PubDay → Outcome (List (Msg EncElem))
  | _, [] => .ok []
  | ct, p :: ps => do
    let ns ← forIdx (fun i m => forIdx (fun j (_ : Nat) => entryC (ct ⟨0, i, j, 0⟩) (ct ⟨0, i, j, 1⟩)) 0 (List.range m)) 0 p.sizes
    let ms ← updatesC (fun s => ct s.next) ps
    pure (⟨p.hsh, ns⟩ :: ms)

/-- What is encrypted of an entry: negative payloads are encrypted modulo `n` (crypto_node.cc:157-160). -/
def plainOf (n : Nat) (e : EP) (k : Nat) : Nat := if k = 0 then e.1 else (if e.2 < 0 then (n : Int) + e.2 else e.2).toNat

/-- The plaintexts of a history. -/
def plainsU (n : Nat) (hashOf : Nat → List Bool) : Upsi.Tree.Tree EP → List UpDay → Place → Nat
  | _, [], _ => 0
  | t, d :: ds, s =>
    match insertWith (fun e : EP => hashOf e.1) mergeBucket t d.es d.hsh with
    | .ok r =>
      match s with
      | ⟨0, i, j, k⟩ => ((r.update[i]?.bind (fun m => (padNode m (d.pads i)).elems[j]?)).map (fun e => plainOf n e k)).getD 0
      | ⟨m + 1, i, j, k⟩ => plainsU n hashOf r.tree ds ⟨m, i, j, k⟩
    | _ => 0

/-- The units of the listed places are given, for the others the unit is 1. -/
def unitAt {n : Nat} (U : List Place) (z : Fin U.length → (ZMod (n ^ 2))ˣ) (s : Place) : (ZMod (n ^ 2))ˣ :=
  if h : U.idxOf s < U.length then z ⟨U.idxOf s, h⟩ else 1

/-- The test of a history as an experiment on given units: the ciphertexts are `(1 + n)^m z`. -/
def experimentU (n : Nat) (hashOf : Nat → List Bool) (D : Outcome (List (Msg EncElem)) → Bool) (t : Upsi.Tree.Tree EP) (days : List UpDay)
    (U : List Place) (z : Fin U.length → (ZMod (n ^ 2))ˣ) : Bool :=
  D (updatesC (fun s => gen n ^ plainsU n hashOf t days s * unitAt U z s) (pubDays t.stashSize t.nodeSize t.depth t.actualSize (upIds days)))

end Upsi.Hide
