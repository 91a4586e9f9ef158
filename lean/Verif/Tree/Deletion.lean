import Verif.Tree.Model
/-
Model of the bucket post-processing of `CryptoTree<ElementAndPayload>::InsertWithDeletions`
(upsi/crypto_tree.cc:455-549).  The rest of that function is the same as `insert` and is modelled by
`insertWith` with `post = mergeBucket`.
-/
namespace Upsi.Tree
open Upsi

/-- `ElementAndPayload = std::pair<BigNum, BigNum>` (utils.h:58).  Set elements are non-negative
(hashing a negative one aborts in `ToBytes`), payloads are signed. -/
abbrev EP := Nat × Int

/-- `std::pair::operator<` : lexicographic. -/
def epLe (a b : EP) : Bool := a.1 < b.1 || (a.1 == b.1 && a.2 ≤ b.2)

/-- Insertion into a sorted list (used by `sortEP`). -/
def insertEP (x : EP) : List EP → List EP
  | [] => [x]
  | y :: ys => if epLe x y then x :: y :: ys else y :: insertEP x ys

/-- `std::sort(tmp_elem[i].begin(), tmp_elem[i].end())`: crypto_tree.cc:500.  The order is total and
equivalent pairs are equal, so the result does not depend on the sorting algorithm. -/
def sortEP : List EP → List EP
  | [] => []
  | x :: xs => insertEP x (sortEP xs)

/-- `if (!val.IsZero()) unique_elem[i].push_back(...)`: crypto_tree.cc:511. -/
def emit (k : Nat) (v : Int) : List EP := if v = 0 then [] else [(k, v)]

/-- The loop crypto_tree.cc:502-512 while the current run has key `k` and accumulated payload `v`. -/
def mergeGo (k : Nat) (v : Int) : List EP → List EP
  | [] => emit k v
  | (k', v') :: r => if k' = k then mergeGo k (v + v') r else emit k v ++ mergeGo k' v' r

/-- The loop crypto_tree.cc:502-512 over a sorted bucket. -/
def mergeSorted : List EP → List EP
  | [] => []
  | (k, v) :: r => mergeGo k v r

/-- `unique_elem[i]` as a function of `tmp_elem[i]`: crypto_tree.cc:499-513. -/
def mergeBucket (b : List EP) : List EP := mergeSorted (sortEP b)

/-- `InsertWithDeletions`: crypto_tree.cc:455-549.  `h` is SHA-256 of the element
(`computeBinaryHash(ElementAndPayload&)` ignores the payload, utils.cc:173-175). -/
def insertDel (h : Nat → List Bool) (t : Tree EP) (es : List EP) (hsh : List (List Bool)) :
    Outcome (InsertResult EP) := insertWith (fun e => h e.1) mergeBucket t es hsh

end Upsi.Tree
