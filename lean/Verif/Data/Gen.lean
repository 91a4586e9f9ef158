import Verif.Data.Names
/-
Model of the mock data generators of upsi/util/data_util.cc:221-469.  All random choices are inputs.
-/
namespace Upsi.Data
open Upsi

/-! ### addition only -/

/-- The random choices of `GenerateAddOnlySets`: the shared elements, the other elements of each party, the
two shuffles, and the payloads. -/
structure AddRand where
  shared : List Bytes
  fill0 : List Bytes
  fill1 : List Bytes
  shuffle0 : List Bytes → List Bytes
  shuffle1 : List Bytes → List Bytes
  vals : List Int

/-- What a generator returns: initial tree and daily sets of each party, expected result. -/
structure GenSets where
  tree0 : Dataset
  days0 : List Dataset
  tree1 : Dataset
  days1 : List Dataset
  sum : Int

/-- `l[i], ..., l[i+n-1]`, undefined when out of range. -/
def readRange (l : List α) : Nat → Nat → Outcome (List α)
  | _, 0 => .ok []
  | i, n + 1 =>
    match l[i]? with
    | none => .ub
    | some x => do
      let r ← readRange l (i + 1) n
      pure (x :: r)

/-- The loop computing the expected sum: data_util.cc:268-274.  Overflow of the `int64_t` is undefined. -/
def sumGo (p1 : List Bytes) : List Bytes → List Int → Int → Outcome Int
  | [], _, s => .ok s
  | _ :: _, [], _ => .ub
  | e :: es, v :: vs, s =>
    if e ∈ p1 then (if s + v < 2 ^ 63 then sumGo p1 es vs (s + v) else .ub) else sumGo p1 es vs s

/-- One day (or the initial tree) starting at index `i`: data_util.cc:276-293. -/
def cutDay (p0 p1 : List Bytes) (vals : List Int) (i n : Nat) : Outcome (Dataset × Dataset) := do
  let a ← readRange p0 i n
  let b ← readRange p1 i n
  let c ← readRange vals i n
  pure (⟨a, c⟩, ⟨b, []⟩)

/-- The loop over the days: data_util.cc:284-296. -/
def cutDays (p0 p1 : List Bytes) (vals : List Int) (daily : Nat) : Nat → Nat → Outcome (List Dataset × List Dataset)
  | 0, _ => .ok ([], [])
  | k + 1, i => do
    let (a, b) ← cutDay p0 p1 vals i daily
    let (as, bs) ← cutDays p0 p1 vals daily k (i + daily)
    pure (a :: as, b :: bs)

/-- `GenerateAddOnlySets`: data_util.cc:223-300.  `total_size` is a `uint32_t`.  `GenerateRandLessThan(0)`
aborts (context.cc:182-186). -/
def genAddOnly (days daily start shared maxValue : Nat) (R : AddRand) : Outcome GenSets := do
  let total := (start + days * daily) % 2 ^ 32
  if shared > total then .err "[DataUtil] intersection larger than party's sets"
  else if maxValue > 0 ∧ shared > (2 ^ 63 - 1) / maxValue then
    .err "[DataUtil] shared_size * max_value is larger than int64_t::max"
  else if maxValue = 0 ∧ total > 0 then .abort
  else
    let p0 := R.shuffle0 (R.shared ++ R.fill0)
    let p1 := R.shuffle1 (R.shared ++ R.fill1)
    let sum ← sumGo p1 p0 R.vals 0
    let (t0, t1) ← cutDay p0 p1 R.vals 0 start
    let (d0, d1) ← cutDays p0 p1 R.vals daily days start
    pure ⟨t0, d0, t1, d1, sum⟩

/-! ### with deletions -/

/-- `std::map<std::string, int64_t>`: entries with distinct keys.  Entries are kept in order of insertion
instead of key order: the only use of the order is `sample`, whose index is arbitrary. -/
abbrev EMap := List (Bytes × Int)

/-- `map[k] = v`. -/
def EMap.assign (m : EMap) (k : Bytes) (v : Int) : EMap :=
  if k ∈ m.map Prod.fst then m.map (fun e => if e.1 = k then (k, v) else e) else m ++ [(k, v)]

/-- `sample`: data_util.cc:308-319; `r` is the random index. -/
def sample (r : Nat) (m : EMap) : Outcome ((Bytes × Int) × EMap) :=
  match m[r % m.length]? with
  | none => .err "[DataUtil] sampling empty set"
  | some e => .ok (e, m.eraseIdx (r % m.length))

/-- Generator state: both maps and the number of operations so far. -/
structure DelSt where
  pool : EMap
  current : EMap
  ops : Nat

/-- The deletions of a day: data_util.cc:336-340.  `n` is `daily_del - i`; the result is what was recorded and
the new state. -/
def delGo (rnd : Nat → Nat) : Nat → DelSt → Outcome (List (Bytes × Int) × DelSt)
  | 0, s => .ok ([], s)
  | n + 1, s =>
    if s.current.isEmpty then .ok ([], s)
    else do
      let (e, cur) ← sample (rnd s.ops) s.current
      let (es, s') ← delGo rnd n { s with current := cur, ops := s.ops + 1 }
      pure ((e.1, -e.2) :: es, s')

/-- Additions: data_util.cc:343-348 and 361-366. -/
def addGo (rnd : Nat → Nat) : Nat → DelSt → Outcome (List (Bytes × Int) × DelSt)
  | 0, s => .ok ([], s)
  | n + 1, s => do
    let (e, uni) ← sample (rnd s.ops) s.pool
    let (es, s') ← addGo rnd n { pool := uni, current := s.current.assign e.1 e.2, ops := s.ops + 1 }
    pure (e :: es, s')

/-- The loop over the days: data_util.cc:331-350. -/
def delDays (rnd : Nat → Nat) (daily dailyDel : Nat) : Nat → DelSt → Outcome (List (List (Bytes × Int)) × DelSt)
  | 0, s => .ok ([], s)
  | k + 1, s => do
    let (ds, s1) ← delGo rnd dailyDel s
    let (as, s2) ← addGo rnd (daily - ds.length) s1
    let (rest, s3) ← delDays rnd daily dailyDel k s2
    pure ((ds ++ as) :: rest, s3)

/-- Append operations to the first day. -/
def extendFirst (extra : List (Bytes × Int)) : List (List (Bytes × Int)) → List (List (Bytes × Int))
  | [] => [extra]
  | d :: ds => (d ++ extra) :: ds

/-- `GenerateDeletionDays`: data_util.cc:322-368; a day is the list of its (element, value) rows.  Division
by `daily_size = 0` is undefined. -/
def genDeletionDays (rnd : Nat → Nat) (daily dailyDel total : Nat) (pool current : EMap) :
    Outcome (List (List (Bytes × Int)) × DelSt) :=
  if daily = 0 then .ub
  else do
    let (days, s) ← delDays rnd daily dailyDel (total / daily) ⟨pool, current, 0⟩
    let (extra, s') ← addGo rnd (total - s.ops) s
    pure (extendFirst extra days, s')

/-- The random choices of `GenerateDeletionSets`: the strings, the random payloads and the sampled indices. -/
structure DelRand where
  shared : List Bytes
  diff0 : List Bytes
  diff1 : List Bytes
  payload : Nat → Int
  idx0 : Nat → Nat
  idx1 : Nat → Nat
  start0 : Nat → Nat
  start1 : Nat → Nat

/-- The payload given to an element of party zero: data_util.cc:402-412, 418-428. -/
def delValue (func : Functionality) (payload : Int) (e : Bytes) : Outcome Int :=
  match func with
  | .CA => .ok 1
  | .SUM => .ok payload
  | .PSI => stoll e
  | _ => .err "[DataUtil] incorrect functionality provided"

/-- Filling both universes: data_util.cc:399-430. -/
def fillGo (func : Functionality) (payload : Nat → Int) : Nat → List (Bytes × Bytes) → EMap → EMap → Outcome (EMap × EMap)
  | _, [], u0, u1 => .ok (u0, u1)
  | i, (a, b) :: es, u0, u1 => do
    let v ← delValue func (payload i) a
    fillGo func payload (i + 1) es (u0.assign a v) (u1.assign b 1)

/-- Drawing the initial tree: data_util.cc:434-445. -/
def startGo (rnd : Nat → Nat) : Nat → Nat → EMap → EMap → Outcome (List (Bytes × Int) × EMap × EMap)
  | _, 0, u, cur => .ok ([], u, cur)
  | j, n + 1, u, cur => do
    let (e, u') ← sample (rnd j) u
    let (es, u2, cur2) ← startGo rnd (j + 1) n u' (cur.assign e.1 e.2)
    pure (e :: es, u2, cur2)

/-- The expected result of the current maps: data_util.cc:447-453 and 463-469 (`uint64_t` arithmetic is
applied by the caller). -/
def interSum (func : Functionality) (m0 m1 : EMap) : Int :=
  (m0.map (fun e => if e.1 ∈ m1.map Prod.fst then (if func = .PSI then 1 else e.2) else 0)).sum

/-- Conversion of a `uint64_t` difference to `int64_t`. -/
def wrap64 (z : Int) : Int := (z + 2 ^ 63) % 2 ^ 64 - 2 ^ 63

/-- A data set from its rows. -/
def Dataset.ofRows (rows : List (Bytes × Int)) : Dataset := ⟨rows.map Prod.fst, rows.map Prod.snd⟩

/-- `GenerateDeletionSets`: data_util.cc:370-475.  The `uint32_t` products are assumed not to wrap
(`total < 2^32`), otherwise the model gives `ub`.  A range `[1, max_value)` that is empty aborts
(context.cc:188-191). -/
def genDeletionSets (days daily start maxValue : Nat) (func : Functionality) (R : DelRand) : Outcome GenSets := do
  let total := start + days * daily
  if 2 ^ 32 ≤ total then .ub
  else if func = .SUM ∧ maxValue ≤ 1 ∧ total > 0 then .abort
  else
    let dailyDel := daily / 4
    let (u0, u1) ← fillGo func R.payload 0 (R.shared.map (fun e => (e, e)) ++ R.diff0.zip R.diff1) [] []
    let (t0, u0', c0) ← startGo R.start0 0 start u0 []
    let (t1, u1', c1) ← startGo R.start1 0 start u1 []
    let (d0, s0) ← genDeletionDays R.idx0 daily dailyDel (daily * days) u0' c0
    let (d1, s1) ← genDeletionDays R.idx1 daily dailyDel (daily * days) u1' c1
    pure ⟨.ofRows t0, d0.map .ofRows, .ofRows t1, d1.map .ofRows,
      wrap64 (interSum func s0.current s1.current - interSum func c0 c1)⟩

end Upsi.Data
