import Verif.Base
/-
Model of the CSV helpers of upsi/util/data_util.cc.  A C string is the list of its bytes before the
terminating NUL.
-/
namespace Upsi.Data
open Upsi

abbrev Bytes := List UInt8

/-- `std::isspace` in the C locale (the argument is a `char`; bytes above 127 are not white space). -/
def isSpace (c : UInt8) : Bool := c = 32 || (9 ≤ c && c ≤ 13)

/-- The delimiter `','`: data_util.cc:106 is the only caller. -/
def comma : UInt8 := 44

/-- `'"'`. -/
def quote : UInt8 := 34

/-- The inner loop over a quoted value, starting after the opening quote: data_util.cc:57-65.  Returns the
value and the rest of the line, after the closing quote (or at the end of the line). -/
def quoted : Bytes → Bytes × Bytes
  | [] => ([], [])
  | [c] => if c = quote then ([], []) else ([c], [])
  | c :: d :: rest =>
    if c = quote then
      if d = quote then (quote :: (quoted rest).1, (quoted rest).2) else ([], d :: rest)
    else (c :: (quoted (d :: rest)).1, (quoted (d :: rest)).2)

/-- Drop trailing white space: data_util.cc:74-77. -/
def rtrim (v : Bytes) : Bytes := (v.reverse.dropWhile isSpace).reverse

/-- One column, from a position inside the line: data_util.cc:51-78.  Returns the value and the rest of the
line, which is empty or starts with the delimiter. -/
def column (line : Bytes) : Bytes × Bytes :=
  let line := line.dropWhile (fun c => isSpace c && c ≠ comma)
  match line with
  | c :: rest =>
    if c = quote then
      let (v, r) := quoted rest
      (v, r.dropWhile (· ≠ comma))
    else (rtrim (line.takeWhile (· ≠ comma)), line.dropWhile (· ≠ comma))
  | [] => ([], [])

/-- The loop over the columns: data_util.cc:49-88.  `fuel` is at least the length of the line. -/
def columns : Nat → Bytes → List Bytes
  | 0, _ => []
  | fuel + 1, line =>
    if line = [] then []
    else
      let (v, rest) := column line
      let extra : List Bytes := if rest = [comma] then [[]] else []
      v :: extra ++ columns fuel rest.tail

/-- `SplitCsvLine`: data_util.cc:90-108.  `c_str`/`strncpy` end at the first NUL. -/
def splitCsvLine (line : Bytes) : List Bytes :=
  let s := line.takeWhile (· ≠ 0)
  columns s.length s

/-- `StrReplaceAll(input, {{"\"", "\"\""}})`: data_util.cc:114. -/
def doubleQuotes : Bytes → Bytes
  | [] => []
  | c :: cs => if c = quote then quote :: quote :: doubleQuotes cs else c :: doubleQuotes cs

/-- `EscapeForCsv`: data_util.cc:113-115. -/
def escapeForCsv (v : Bytes) : Bytes := quote :: doubleQuotes v ++ [quote]

/-- The columns of a line, separated by commas. -/
def joinComma : List Bytes → Bytes
  | [] => []
  | [x] => x
  | x :: xs => x ++ comma :: joinComma xs

end Upsi.Data
