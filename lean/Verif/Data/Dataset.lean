import Verif.Data.Csv
/-
Model of `Dataset` (upsi/util/data_util.h, data_util.cc:124-219): writing, reading and converting the daily
data sets.
-/
namespace Upsi.Data
open Upsi

/-- `Dataset`: data_util.h:21-27. -/
structure Dataset where
  elements : List Bytes
  values : List Int
  deriving DecidableEq

/-- Decimal digits of a natural number, as `operator<<` prints them. -/
def digits (n : Nat) : Bytes :=
  if n < 10 then [UInt8.ofNat (48 + n)] else digits (n / 10) ++ [UInt8.ofNat (48 + n % 10)]
decreasing_by omega

/-- `file << values[i]`: data_util.cc:162. -/
def showInt (z : Int) : Bytes := if z < 0 then 45 :: digits z.natAbs else digits z.natAbs

/-- The loop of `Dataset::Write`: data_util.cc:160-164.  `values[i]` outside the vector is undefined. -/
def writeLines (hasValues : Bool) : List Bytes → List Int → Outcome Bytes
  | [], _ => .ok []
  | e :: es, vs =>
    if hasValues then
      match vs with
      | [] => .ub
      | v :: vs => do
        let rest ← writeLines hasValues es vs
        pure (escapeForCsv e ++ comma :: showInt v ++ 10 :: rest)
    else do
      let rest ← writeLines hasValues es vs
      pure (escapeForCsv e ++ 10 :: rest)

/-- `Dataset::Write`: data_util.cc:154-172 (the content of the file). -/
def Dataset.write (d : Dataset) : Outcome Bytes := writeLines (!d.values.isEmpty) d.elements d.values

/-- The lines `std::getline` produces from a file: data_util.cc:132. -/
def getlines : Bytes → List Bytes
  | [] => []
  | c :: cs =>
    if c = 10 then [] :: getlines cs
    else
      match getlines cs with
      | l :: ls => (c :: l) :: ls
      | [] => [[c]]

/-- The value of decimal digits. -/
def digitsValue (ds : Bytes) : Nat := ds.foldl (fun x c => x * 10 + (c.toNat - 48)) 0

/-- Is this byte a decimal digit? -/
def isDigit (c : UInt8) : Bool := 48 ≤ c && c ≤ 57

/-- `strtoll`/`strtoull` syntax: white space, an optional sign, digits; the rest is ignored.  `none` when
there are no digits. -/
def parseSigned (s : Bytes) : Option (Bool × Nat) :=
  let s := s.dropWhile isSpace
  let (neg, s) := match s with
    | c :: r => if c = 45 then (true, r) else if c = 43 then (false, r) else (false, s)
    | [] => (false, s)
  let ds := s.takeWhile isDigit
  if ds = [] then none else some (neg, digitsValue ds)

/-- `std::stoll`: throws when there are no digits or the value does not fit `long long`. -/
def stoll (s : Bytes) : Outcome Int :=
  match parseSigned s with
  | none => .err "std::invalid_argument"
  | some (neg, n) =>
    let z : Int := if neg then -(n : Int) else n
    if -(2 ^ 63) ≤ z ∧ z < 2 ^ 63 then .ok z else .err "std::out_of_range"

/-- `std::stoull`: a minus sign negates modulo `2^64`. -/
def stoull (s : Bytes) : Outcome Nat :=
  match parseSigned s with
  | none => .err "std::invalid_argument"
  | some (neg, n) =>
    if n < 2 ^ 64 then .ok (if neg then (2 ^ 64 - n) % 2 ^ 64 else n) else .err "std::out_of_range"

/-- The reading loop: data_util.cc:131-138.  `columns[0]` of a blank line is undefined. -/
def readRows : List Bytes → Outcome (List Bytes × List Int)
  | [] => .ok ([], [])
  | l :: ls =>
    match splitCsvLine l with
    | [] => .ub
    | [e] => do
      let (es, vs) ← readRows ls
      pure (e :: es, vs)
    | e :: v :: _ => do
      let x ← stoll v
      let (es, vs) ← readRows ls
      pure (e :: es, x :: vs)

/-- `Dataset(ctx, fn)` on a file with the given content: data_util.cc:124-152. -/
def Dataset.read (file : Bytes) : Outcome Dataset := do
  let (es, vs) ← readRows (getlines file)
  if vs.length > 0 ∧ es.length ≠ vs.length then .err "[Dataset] malformed dataset file" else .ok ⟨es, vs⟩

/-- The loop of `Elements`: data_util.cc:182-188. -/
def elementsGo : List Bytes → Outcome (List Nat)
  | [] => .ok []
  | e :: es => do
    let x ← stoull e
    let xs ← elementsGo es
    pure (x :: xs)

/-- `Dataset::Elements`. -/
def Dataset.elems (d : Dataset) : Outcome (List Nat) := elementsGo d.elements

/-- The conversion of a value: data_util.cc:196.  Negating the least `int64_t` is undefined. -/
def valueBigNum (v : Int) : Outcome Int :=
  if v < 0 then (if v = -(2 ^ 63) then .ub else .ok (0 - (-v))) else .ok v

/-- The loop of `ElementsAndValues`: data_util.cc:190-201 (the `assert` is compiled out). -/
def pairsGo : List Bytes → List Int → Outcome (List (Int × Int))
  | [], _ => .ok []
  | _ :: _, [] => .ub
  | e :: es, v :: vs => do
    let x ← stoull e
    let y ← valueBigNum v
    let r ← pairsGo es vs
    pure (((x : Int), y) :: r)

/-- `Dataset::ElementsAndValues`. -/
def Dataset.pairs (d : Dataset) : Outcome (List (Int × Int)) := pairsGo d.elements d.values

end Upsi.Data
