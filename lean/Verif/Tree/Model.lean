import Verif.Base
/-
Model of the path-ORAM-like tree of `upsi/crypto_tree.{h,cc}` and `upsi/crypto_node.{h,cc}`.

The C++ templates `CryptoNode<T>` / `BaseTree<T,S>` are modelled polymorphically in the element
type `α`; `hashOf : α → List Bool` is `computeBinaryHash` (utils.cc:164-181), i.e. the 256 bits of
SHA-256 of the element, kept abstract.

Machine `int`s are `Nat`s; the one place where 32-bit width matters (`1 << (depth+1)`) is guarded
explicitly and gives `Outcome.ub`.  Out-of-range accesses to `std::vector`s and arrays are
`Outcome.ub`.
-/
namespace Upsi.Tree
open Upsi

/-- `CryptoNode<T>`: crypto_node.h (fields `node_size`, `node`), crypto_node.cc:11-14. -/
structure Node (α : Type) where
  cap : Nat
  elems : List α
  deriving Repr, DecidableEq

/-- `BaseTree<T,S>`: crypto_tree.h:13-62 (`node_size`, `stash_size`, `depth`, `actual_size`,
`crypto_tree`).  `max_stash` is never used and is omitted. -/
structure Tree (α : Type) where
  nodeSize : Nat
  stashSize : Nat
  depth : Nat
  actualSize : Nat
  nodes : List (Node α)
  deriving Repr, DecidableEq

/-- Constructor `BaseTree(stash_size, node_size)`: crypto_tree.cc:13-26 and the default member
initialisers crypto_tree.h:44-47. -/
def Tree.empty (stashSize nodeSize : Nat) : Tree α :=
  { nodeSize := nodeSize, stashSize := stashSize, depth := 0, actualSize := 0
    nodes := [⟨stashSize, []⟩, ⟨nodeSize, []⟩] }

/-- `addNewLayer` after the shift has been evaluated: crypto_tree.cc:30-37. -/
def Tree.addNewLayer (t : Tree α) : Tree α :=
  let d := t.depth + 1
  { t with depth := d
           nodes := t.nodes ++ List.replicate (2 ^ (d + 1) - t.nodes.length) ⟨t.nodeSize, []⟩ }

/-- `while (new_elem_cnt + actual_size >= (1 << (depth+1))) addNewLayer();`
crypto_tree.cc:105 and 190.  `1 << k` on a 32-bit `int` is valid for `k ≤ 30`; both the loop
condition (`k = depth+1`) and `addNewLayer` (`k = depth+2` of the old depth) shift, a larger shift
is `ub`.  `fuel` bounds the loop (`grow` supplies enough, see `growGo_spec`). -/
def growGo (total : Nat) : Nat → Tree α → Outcome (Tree α)
  | 0, _ => .ub
  | f + 1, t =>
    if t.depth + 1 > 30 then .ub
    else if total ≥ 2 ^ (t.depth + 1) then
      if t.depth + 2 > 30 then .ub else growGo total f t.addNewLayer
    else .ok t

/-- The layer-adding loop with enough fuel (the shift guard ends it after at most 31 rounds). -/
def grow (newCnt : Nat) (t : Tree α) : Outcome (Tree α) :=
  growGo (newCnt + t.actualSize) 32 t

/-- `computeIndex`: crypto_tree.cc:41-49.  A `BinaryHash` is a string of '0'/'1' characters
(utils.cc:148-154), here a list of bits.  Reading past the end of the string is `ub` (C++ allows
reading the terminating NUL at index `length`, which the model does not distinguish). -/
def computeIndex (depth : Nat) (h : List Bool) : Outcome Nat :=
  if h.length < depth then .ub
  else .ok ((h.take depth).foldl (fun x b => if b then 2 * x + 1 else 2 * x) 1)

/-- The index sequence of the loops `for (int u = leaf; ; u >>= 1) { ...; if (u == 0) break; }`
(crypto_tree.cc:122-144, 148-156, 220-224), with fuel. -/
def pathGo : Nat → Nat → List Nat
  | 0, _ => []
  | f + 1, u => if u = 0 then [0] else u :: pathGo f (u / 2)

/-- All node indices visited from leaf `u` up to the root `1` and then the stash `0`. -/
def pathUp (u : Nat) : List Nat := pathGo (u + 1) u

/-- Insert into a list sorted in decreasing order (used by `sortDesc`). -/
def insertDesc (x : Nat) : List Nat → List Nat
  | [] => [x]
  | y :: ys => if y ≤ x then x :: y :: ys else y :: insertDesc x ys

/-- `std::sort(..., std::greater<int>())`: crypto_tree.cc:61.  For `int`s the result of any sort is
the same list. -/
def sortDesc : List Nat → List Nat
  | [] => []
  | x :: xs => insertDesc x (sortDesc xs)

/-- `std::unique` followed by `erase`: crypto_tree.cc:62 (drops adjacent duplicates). -/
def uniq : List Nat → List Nat
  | [] => []
  | [x] => [x]
  | x :: y :: r => if x = y then uniq (y :: r) else x :: uniq (y :: r)

/-- The loop crypto_tree.cc:64-73 that appends the parent of `ind[i]` when it is smaller than the
last entry.  The argument is the suffix `ind[i..]` of the vector; the result is the final suffix. -/
def extractGo : Nat → List Nat → List Nat
  | 0, todo => todo
  | _ + 1, [] => []
  | f + 1, u :: rest =>
    if u = 0 then u :: rest
    else
      let tmp := u / 2
      if (u :: rest).getLast (by simp) > tmp then u :: extractGo f (rest ++ [tmp])
      else u :: extractGo f rest

/-- `extractPathIndices`: crypto_tree.cc:53-74. -/
def extractPathIndices (leaves : List Nat) : List Nat :=
  let s := uniq (sortDesc leaves)
  extractGo (s.headD 0 + 1) s

/-- First loop of `generateRandomPaths`: crypto_tree.cc:81-82.  `hsh` are the random 32-byte
strings, already expanded by `Byte2Binary` to bit lists. -/
def leafIndices (depth : Nat) : List (List Bool) → Outcome (List Nat)
  | [] => .ok []
  | h :: hs => do
    let x ← computeIndex depth h
    let xs ← leafIndices depth hs
    pure (x :: xs)

/-- `crypto_tree[u]` as an rvalue. -/
def getNode (ns : List (Node α)) (u : Nat) : Outcome (Node α) :=
  match ns[u]? with
  | some n => .ok n
  | none => .ub

/-- `32 - __builtin_clz(x ^ leaf)` when `x != leaf`, else 0: crypto_tree.cc:135-136. -/
def stepsOf (x leaf : Nat) : Nat :=
  if x = leaf then 0 else Nat.log2 (x ^^^ leaf) + 1

/-- The loop over `tmp_node` that distributes elements to buckets: crypto_tree.cc:132-139. -/
def pushAll (hashOf : α → List Bool) (depth leaf : Nat) :
    List α → List (List α) → Outcome (List (List α))
  | [], bs => .ok bs
  | e :: es, bs => do
    let x ← computeIndex depth (hashOf e)
    let s := stepsOf x leaf
    match bs[s]? with
    | none => .ub
    | some b => pushAll hashOf depth leaf es (bs.set s (b ++ [e]))

/-- Extract all elements on the path and empty its nodes: crypto_tree.cc:122-144 (identical
476-497).  The new element is appended when the stash (`u == 0`) is reached. -/
def collectPath (hashOf : α → List Bool) (depth leaf : Nat) (new : α) :
    List Nat → List (Node α) → List (List α) → Outcome (List (Node α) × List (List α))
  | [], ns, bs => .ok (ns, bs)
  | u :: us, ns, bs => do
    let n ← getNode ns u
    let es := if u = 0 then n.elems ++ [new] else n.elems
    let bs' ← pushAll hashOf depth leaf es bs
    collectPath hashOf depth leaf new us (ns.set u { n with elems := [] }) bs'

/-- `while (st <= steps && tmp_elem[st].empty()) ++st;` crypto_tree.cc:149 and 154; called with
`k = steps + 1 - st`. -/
def advance (bs : List (List α)) : Nat → Nat → Outcome Nat
  | st, 0 => .ok st
  | st, k + 1 =>
    match bs[st]? with
    | none => .ub
    | some [] => advance bs (st + 1) k
    | some (_ :: _) => .ok st

/-- Inner loop `while (st <= steps) { ... }` for one node: crypto_tree.cc:150-155.  `room` is the
number of elements `addElement` (crypto_node.cc:52-61) still accepts; with `room = 0` either the
loop condition fails or `addElement` returns false and the loop breaks. -/
def fillNode (steps : Nat) : Nat → List α → Nat → List (List α) →
    Outcome (List α × Nat × List (List α))
  | 0, acc, st, bs => .ok (acc, st, bs)
  | r + 1, acc, st, bs =>
    if st ≤ steps then
      match bs[st]? with
      | none => .ub
      | some b =>
        match b.getLast? with
        | none => .ub
        | some x => do
          let bs' := bs.set st b.dropLast
          let st' ← advance bs' st (steps + 1 - st)
          fillNode steps r (acc ++ [x]) st' bs'
    else .ok (acc, st, bs)

/-- Outer refill loop from the leaf to the stash: crypto_tree.cc:147-157 (identical 516-526). -/
def fillPath : List Nat → Nat → Nat → List (Node α) → List (List α) →
    Outcome (List (Node α) × List (List α))
  | [], _, _, ns, bs => .ok (ns, bs)
  | u :: us, steps, st, ns, bs => do
    let n ← getNode ns u
    let st1 ← advance bs st (steps + 1 - st)
    let (es, st2, bs') ← fillNode steps (n.cap - n.elems.length) n.elems st1 bs
    fillPath us (steps + 1) st2 (ns.set u { n with elems := es }) bs'

/-- One iteration of the loop over new elements: crypto_tree.cc:117-162 (with `post = id`) and
471-528 (with `post` = sort-and-merge of a bucket, crypto_tree.cc:499-513).
The second component is a ghost output: the elements left in the buckets, which the C++ code
destroys with the local array (the `assert`s at 158-161 are compiled out by `-c opt`). -/
def insertOne (hashOf : α → List Bool) (post : List α → List α) (depth leaf : Nat) (new : α)
    (ns : List (Node α)) : Outcome (List (Node α) × List α) := do
  let (ns1, bs) ← collectPath hashOf depth leaf new (pathUp leaf) ns (List.replicate (depth + 2) [])
  let (ns2, bs') ← fillPath (pathUp leaf) 0 0 ns1 (bs.map post)
  pure (ns2, bs'.flatten)

/-- The loop `for (int o = 0; o < new_elem_cnt; ++o)`: crypto_tree.cc:117. -/
def insertAll (hashOf : α → List Bool) (post : List α → List α) (depth : Nat) :
    List α → List Nat → List (Node α) → Outcome (List (Node α) × List α)
  | [], _, ns => .ok (ns, [])
  | _ :: _, [], _ => .ub
  | e :: es, l :: ls, ns => do
    let (ns1, lost1) ← insertOne hashOf post depth l e ns
    let (ns2, lost2) ← insertAll hashOf post depth es ls ns1
    pure (ns2, lost1 ++ lost2)

/-- `for i: rs.push_back(crypto_tree[ind[i]].copy())`: crypto_tree.cc:175-178. -/
def copyNodes (ns : List (Node α)) : List Nat → Outcome (List (Node α))
  | [] => .ok []
  | u :: us => do
    let n ← getNode ns u
    let r ← copyNodes ns us
    pure (n :: r)

/-- What `insert` produces: the updated tree, the returned node copies, and (ghost) the elements
that were dropped. -/
structure InsertResult (α : Type) where
  tree : Tree α
  update : List (Node α)
  lost : List α
  deriving Repr, DecidableEq

/-- `BaseTree::insert` (crypto_tree.cc:98-181) with `post = id`; `InsertWithDeletions`
(crypto_tree.cc:455-549) with `post = mergeBucket`.  The random path identifiers produced by
`generateRandomHash` (utils.cc:225-236) are the argument `hsh`. -/
def insertWith (hashOf : α → List Bool) (post : List α → List α) (t : Tree α) (elem : List α)
    (hsh : List (List Bool)) : Outcome (InsertResult α) := do
  let t1 ← grow elem.length t
  let leaves ← leafIndices t1.depth hsh
  let ind := extractPathIndices leaves
  let (ns, lost) ← insertAll hashOf post t1.depth elem leaves t1.nodes
  let t2 := { t1 with nodes := ns, actualSize := t1.actualSize + elem.length }
  let rs ← copyNodes ns ind
  pure { tree := t2, update := rs, lost := lost }

/-- `BaseTree::insert`: crypto_tree.cc:98-181. -/
def insert (hashOf : α → List Bool) (t : Tree α) (elem : List α) (hsh : List (List Bool)) :
    Outcome (InsertResult α) := insertWith hashOf id t elem hsh

/-- `for i < node_cnt: crypto_tree[ind[i]] = new_nodes[i]`: crypto_tree.cc:202.  Reading `ind[i]`
past its end is `ub`; surplus indices are ignored. -/
def assignNodes : List Nat → List (Node α) → List (Node α) → Outcome (List (Node α))
  | _, [], ns => .ok ns
  | [], _ :: _, _ => .ub
  | u :: us, n :: news, ns =>
    if u < ns.length then assignNodes us news (ns.set u n) else .ub

/-- `replaceNodes`: crypto_tree.cc:185-206 (the `assert` at 197 is compiled out).  All callers pass
`new_elem_cnt = hsh.size()` (crypto_tree.cc:363-449), so it is not a separate argument. -/
def replaceNodes (t : Tree α) (news : List (Node α)) (hsh : List (List Bool)) :
    Outcome (Tree α) := do
  let t1 ← grow hsh.length t
  let leaves ← leafIndices t1.depth hsh
  let ind := extractPathIndices leaves
  let ns ← assignNodes ind news t1.nodes
  pure { t1 with nodes := ns, actualSize := t1.actualSize + hsh.length }

/-- The loop of `getPath`: crypto_tree.cc:220-224. -/
def readPath (ns : List (Node α)) : List Nat → Outcome (List α)
  | [] => .ok []
  | u :: us => do
    let n ← getNode ns u
    let r ← readPath ns us
    pure (n.elems ++ r)

/-- `getPath`: crypto_tree.cc:210-226.  The argument is the binary hash of the queried element. -/
def getPath (t : Tree α) (h : List Bool) : Outcome (List α) := do
  let leaf ← computeIndex t.depth h
  readPath t.nodes (pathUp leaf)

/-- `CryptoNode::pad` (crypto_node.cc:67-79): append padding elements until `node_size` is
reached.  `pads` are the padding elements drawn, in order. -/
def padNode (n : Node α) (pads : Nat → α) : Node α :=
  { n with elems := n.elems ++ (List.range (n.cap - n.elems.length)).map pads }

end Upsi.Tree
