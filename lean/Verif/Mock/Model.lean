import Verif.Proto.SSModel
import Verif.Proto.DelModel
import Verif.Data.Names
import Verif.Data.Dataset
/-
Model of `--start_size` of run.cc: trees filled with random elements, and copies of the other party's tree filled
with encryptions of zero (`CreateMockTrees`).  They exist for the secret-sharing functionality and for the two
protocols with deletions.
-/
namespace Upsi.Mock
open Upsi Upsi.ElGamal Upsi.Tree Upsi.Num Upsi.Proto Upsi.Paillier Upsi.Data

variable {G : Type} [AddCommGroup G] [DecidableEq G]

/-- The random choices of one `CreateMockTrees`: the successive values of `rand()` for each element, the random path
identifiers `insert` draws, and the coins of the encryptions of zero. -/
structure MockCoins where
  rnd : Nat → List Nat
  hsh : List (List Bool)
  zero : Nat → Int

/-- The loop over `GetRandomSetElement`: addition/party_zero.h:247-254, addition/party_one.h:150-153,
deletion/party.h:66-73, deletion-psi/party.h:65-72: `n` more elements from draw `i` on. -/
def mockElements (rnd : Nat → List Nat) : Nat → Nat → Outcome (List Nat)
  | _, 0 => .ok []
  | i, n + 1 => do
    let e ← stoull (randomSetElement (rnd i))
    let es ← mockElements rnd (i + 1) n
    pure (e :: es)

/-- The copy of the other party's tree: as many nodes as the own tree, each filled up with the same ciphertext;
depth and size are those of the *own* tree (addition/party_zero.h:263-273, addition/party_one.h:163-173,
deletion/party.h:82-92, deletion-psi/party.h:81-91). -/
def mockCopy {α γ : Type} (zero : γ) (other : Upsi.Tree.Tree γ) (my : Upsi.Tree.Tree α) : Upsi.Tree.Tree γ :=
  { other with
    depth := my.depth
    actualSize := my.actualSize
    nodes := my.nodes.map (fun n => ⟨n.cap, List.replicate n.cap zero⟩) }

/-- `PartyZeroSecretShare::CreateMockTrees`: addition/party_zero.h:244-277; every element gets the payload one. -/
def mockSS0 (hashOf : Nat → List Bool) (pk : PK G) (stash node size : Nat) (ρ : MockCoins) :
    Outcome (St0 G (Nat × Int)) := do
  let es ← mockElements ρ.rnd 0 size
  let r ← insert (fun p : Nat × Int => hashOf p.1) (Tree.empty stash node) (es.map (fun e => (e, 1))) ρ.hsh
  pure ⟨r.tree, mockCopy (encrypt pk (ρ.zero 0) 0) (Tree.empty stash node) r.tree, r.lost⟩

/-- `PartyOneSecretShare::CreateMockTrees`: addition/party_one.h:146-178.  If the encryption fails the constructor
prints the status and goes on (party_one.h:136-140: the exception is not thrown) with a filled own tree and an empty
copy. -/
def mockSS1 (hashOf : Nat → List Bool) (pk : PK G) (mont : Int → Option Mont) (b : TPaillier)
    (stash node size : Nat) (ρ : MockCoins) : Outcome (St1 (Ct G × Int)) := do
  let es ← mockElements ρ.rnd 0 size
  let r ← insert hashOf (Tree.empty stash node) es ρ.hsh
  match b.pub.encrypt mont 0 (ρ.zero 1) with
  | .ok z => pure ⟨r.tree, mockCopy (encrypt pk (ρ.zero 0) 0, z) (Tree.empty stash node) r.tree, r.lost⟩
  | .err _ => pure ⟨r.tree, Tree.empty stash node, r.lost⟩
  | .abort => .abort
  | .ub => .ub

/-- The trees of party zero of the secret-sharing protocol after construction with the flag `--start_size`
(addition/run.cc:57-62, party_zero.h:229-236): no mock trees unless the flag is positive. -/
def startSS0 (hashOf : Nat → List Bool) (pk : PK G) (stash node : Nat) (start : Int) (ρ : MockCoins) :
    Outcome (St0 G (Nat × Int)) :=
  if 0 < start then mockSS0 hashOf pk stash node start.toNat ρ else .ok (St0.init stash node)

/-- The same for party one (addition/run.cc:119-124, party_one.h:135-142). -/
def startSS1 (hashOf : Nat → List Bool) (pk : PK G) (mont : Int → Option Mont) (b : TPaillier) (stash node : Nat)
    (start : Int) (ρ : MockCoins) : Outcome (St1 (Ct G × Int)) :=
  if 0 < start then mockSS1 hashOf pk mont b stash node start.toNat ρ else .ok (St1.init stash node)

/-- Both parties of the secret-sharing protocol after construction. -/
def startSS (hashOf : Nat → List Bool) (pk : PK G) (mont : Int → Option Mont) (b : TPaillier) (stash node : Nat)
    (start0 start1 : Int) (ρ0 ρ1 : MockCoins) : Outcome (StSS G) := do
  let s0 ← startSS0 hashOf pk stash node start0 ρ0
  let s1 ← startSS1 hashOf pk mont b stash node start1 ρ1
  pure ⟨s0, s1, [], []⟩

/-- `Party::CreateMockTrees`: deletion/party.h:62-95 and deletion-psi/party.h:61-94.  `pk` is the *other* party's
public key.  The elements go in with `insert`, not with `InsertWithDeletions`: equal elements are not merged. -/
def mockDel (hashOf : Nat → List Bool) (mont : Int → Option Mont) (pk : Public) (stash node size : Nat)
    (ρ : MockCoins) : Outcome DSt := do
  let es ← mockElements ρ.rnd 0 size
  let r ← insert (fun e : EP => hashOf e.1) (Tree.empty stash node) (es.map (fun e => (e, 1))) ρ.hsh
  match pk.encrypt mont 0 (ρ.zero 0) with
  | .ok z => pure ⟨r.tree, mockCopy (z, z) (Tree.empty stash node) r.tree, r.lost⟩
  | .err _ => pure ⟨r.tree, Tree.empty stash node, r.lost⟩
  | .abort => .abort
  | .ub => .ub

/-- The trees of one party of a protocol with deletions after construction with the flag `--start_size`
(deletion/run.cc:63-68, 159-164, party.h:53-59; deletion-psi/run.cc:62-67, 153-158, party.h:52-58). -/
def startDel1 (hashOf : Nat → List Bool) (mont : Int → Option Mont) (k : DKeys) (stash node : Nat)
    (start : Int) (ρ : MockCoins) : Outcome DSt :=
  if 0 < start then mockDel hashOf mont k.pk stash node start.toNat ρ else .ok (DSt.init stash node)

/-- The trees of both parties of a protocol with deletions after construction. -/
def startDel (hashOf : Nat → List Bool) (mont : Int → Option Mont) (k0 k1 : DKeys) (stash node : Nat)
    (start0 start1 : Int) (ρ0 ρ1 : MockCoins) : Outcome (DSt × DSt) := do
  let s0 ← startDel1 hashOf mont k0 stash node start0 ρ0
  let s1 ← startDel1 hashOf mont k1 stash node start1 ρ1
  pure (s0, s1)

end Upsi.Mock
