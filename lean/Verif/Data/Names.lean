import Verif.Data.Dataset
/-
Models of the flag parser and the random numeric strings of upsi/utils.cc and of the path joiner of
upsi/util/file.cc.
-/
namespace Upsi.Data
open Upsi

/-- `enum Functionality`: utils.h. -/
inductive Functionality where
  | PSI | CA | SUM | SS | DEL
  deriving DecidableEq, Repr

/-- `AbslParseFlag`: utils.cc:13-24.  `none` is the returned `false`; `*func` is then left alone. -/
def parseFlag (text : String) : Option Functionality :=
  if text = "PSI" then some .PSI
  else if text = "CA" then some .CA
  else if text = "SUM" then some .SUM
  else if text = "SS" then some .SS
  else if text = "DEL" then some .DEL
  else none

/-- `AbslUnparseFlag`: utils.cc:26-41. -/
def unparseFlag : Functionality → String
  | .PSI => "PSI"
  | .CA => "CA"
  | .SUM => "SUM"
  | .SS => "SS"
  | .DEL => "DEL"

/-- `GetRandomNumericString`: utils.cc:257-269.  `rnd` are the successive values of `rand()`. -/
def randomNumericString (length : Nat) (padding : Bool) (rnd : List Nat) : Bytes :=
  (if padding then 49 else 48) :: (rnd.take (length - 1)).map (fun r => UInt8.ofNat (r % 10 + 48))

/-- `ELEMENT_STR_LENGTH`: utils.h. -/
def elementStrLength : Nat := 16

/-- `GetRandomSetElement`: utils.cc:271-273. -/
def randomSetElement (rnd : List Nat) : Bytes := randomNumericString elementStrLength false rnd

/-- One step `x = x * 10 + str[i] - '0'` of `NumericString2uint` on `int64_t`: utils.cc:252; overflow of an
intermediate result is undefined. -/
def num2uintStep (x : Int) (c : UInt8) : Outcome Int :=
  if x * 10 + c.toNat < 2 ^ 63 ∧ -(2 ^ 63) ≤ x * 10 ∧ -(2 ^ 63) ≤ x * 10 + c.toNat - 48 then .ok (x * 10 + c.toNat - 48) else .ub

/-- `NumericString2uint`: utils.cc:248-255. -/
def numericString2uint : Int → Bytes → Outcome Int
  | x, [] => .ok x
  | x, c :: cs => do
    let y ← num2uintStep x c
    numericString2uint y cs

/-- `GetRandomPadElement`: utils.cc:275-279. -/
def randomPadElement (rnd : List Nat) : Outcome Int :=
  numericString2uint 0 (randomNumericString elementStrLength true rnd)

/-- The loop of `JoinPathImpl`: file.cc:42-73, on lists of characters.  `first` is `it == paths.begin()`. -/
def joinGo : Bool → List (List Char) → List Char
  | _, [] => []
  | first, p :: ps =>
    if p = [] then joinGo false ps
    else if first then
      (if p.getLast? = some '/' then p else p ++ ['/']) ++ joinGo false ps
    else
      let body :=
        if p.getLast? = some '/' then
          if p.head? = some '/' then p.tail.dropLast else p.dropLast
        else if p.head? = some '/' then p.tail else p
      body ++ (if ps = [] then [] else ['.']) ++ joinGo false ps

/-- `JoinPathImpl`: file.cc:37-74. -/
def joinPath (ps : List (List Char)) : List Char := joinGo true ps

end Upsi.Data
