import Verif.Main.Files
import Verif.Main.Net
/-
Model of the programs addition/setup.cc and addition/run.cc (both parties) over a file system.  The trees made
by `--start_size` of run.cc (`CreateMockTrees`) are modelled in Mock/ (C78) only.  Not modelled: timing and progress output.
-/
namespace Upsi.Main
open Upsi Upsi.Rec Upsi.ElGamal Upsi.Tree Upsi.Proto Upsi.Setup Upsi.Wire Upsi.Data

/-- The flags of addition/setup.cc:17-41.  `days`, `daily`, `start` are `uint32_t`, `shared` and `maxValue` `int32_t`.
`--func=SS` is `setupMainSS`, any other functionality `setupMain`. -/
structure SetupFlags where
  days : Nat
  daily : Nat
  start : Nat
  shared : Int
  maxValue : Int
  expected : Bool
  dataDir : String
  outDir : String

/-- The random choices of setup. -/
structure SetupRand where
  coin0 : Nat
  coin1 : Nat
  paillier : TCoins
  data : AddRand
  tree0 : TreeCoins (Nat × Int)
  tree1 : TreeCoins Nat

/-- `total / 8` unless given: addition/setup.cc:49-54. -/
def sharedSize (f : SetupFlags) : Int :=
  if f.shared < 0 then (((f.start + f.days * f.daily) % 2 ^ 32 / 8 : Nat) : Int) else f.shared

/-- The inner loop counting the initial matches of an element: addition/setup.cc:107-112.  `initial_ca` is an `int`;
`initial_sum` is an `int` to which an `int64_t` is added. -/
def initInner (e : Data.Bytes) (v : Int) : List Data.Bytes → Int × Int → Outcome (Int × Int)
  | [], acc => .ok acc
  | y :: ys, (n, s) =>
    if e = y then (if n + 1 < 2 ^ 31 then initInner e v ys (n + 1, int32 (s + v)) else .ub) else initInner e v ys (n, s)

/-- The outer loop: addition/setup.cc:105-114. -/
def initGo (ys : List Data.Bytes) : List Data.Bytes → List Int → Int × Int → Outcome (Int × Int)
  | [], _, acc => .ok acc
  | _ :: _, [], _ => .ub
  | e :: es, v :: vs, acc => do
    let acc ← initInner e v ys acc
    initGo ys es vs acc

variable {G : Type} [AddCommGroup G] [DecidableEq G]

/-- `GetElGamal`: setup_util.cc:164-179. -/
def getElGamal (c : Codec G) (name : String) (fs : FS) : Outcome (PK G) := do
  let m ← readKey PkProto.parse name fs
  deserializePublicKey c m

/-- `WriteTrees`: setup_util.cc:181-199. -/
def writeTrees (t : TreeFiles) (plainDir encDir : String) (fs : FS) : Outcome FS := do
  let fs ← writeKey serPTree t.plain (plainDir ++ "plaintext.tree") fs
  writeKey serETree t.enc (encDir ++ "encrypted.tree") fs

/-- Party zero's initial trees unless `--func=SS`: setup_util.cc:234, 252-267. -/
def initialTrees0 (c : Codec G) (hashOf : Nat → List Bool) (stash node : Nat) (f : SetupFlags) (ρ : SetupRand)
    (x0 : List (Nat × Int)) (fs : FS) : Outcome (TreeFiles × List (Nat × Int)) := do
  let pk0 ← getElGamal c (f.outDir ++ "p0/" ++ "shared.pub") fs
  genAdd0 c hashOf pk0 stash node x0 ρ.tree0

/-- Party zero's initial trees with `--func=SS`: setup_util.cc:234-251.  `x` is the coin of the Paillier object made from the key
file (threshold_paillier.cc:82-87). -/
def initialTrees0SS (c : Codec G) (mont : Int → Option Num.Mont) (x : Int) (hashOf : Nat → List Bool) (stash node : Nat)
    (f : SetupFlags) (ρ : SetupRand) (x0 : List (Nat × Int)) (fs : FS) : Outcome (TreeFiles × List (Nat × Int)) := do
  let pk0 ← getElGamal c (f.outDir ++ "p0/" ++ "shared.pub") fs
  let m ← readKey TkProto.parse (f.outDir ++ "p0/" ++ "paillier.key") fs
  let pub ← Paillier.Public.new x m.key.n 1
  genAdd0SS c mont ⟨m.key, pub⟩ hashOf pk0 stash node x0 ρ.tree0

/-- The initial trees of both parties: addition/setup.cc:82-98 with setup_util.cc:201-223, 225-267; `gen0` makes party zero's.
The last components are ghost: the elements dropped by stash overflow. -/
def writeInitial (c : Codec G) (gen0 : List (Nat × Int) → FS → Outcome (TreeFiles × List (Nat × Int)))
    (hashOf : Nat → List Bool) (stash node : Nat) (f : SetupFlags) (ρ : SetupRand) (g : GenSets)
    (fs : FS) : Outcome (FS × List (Nat × Int) × List Nat) := do
  let x0 ← orAbort g.tree0.pairs
  let (t0, l0) ← gen0 (x0.map (fun p => (p.1.toNat, p.2))) fs
  let fs ← writeTrees t0 (f.dataDir ++ "p0/") (f.dataDir ++ "p1/") fs
  let y0 ← orAbort g.tree1.elems
  let pk1 ← getElGamal c (f.outDir ++ "p1/" ++ "shared.pub") fs
  let (t1, l1) ← genAdd1 c hashOf pk1 stash node y0 ρ.tree1
  let fs ← writeTrees t1 (f.dataDir ++ "p1/") (f.dataDir ++ "p0/") fs
  pure (fs, l0, l1)

/-- What setup leaves behind: the files, the printed expected cardinality and sum, and (ghost) the elements its trees lost. -/
structure SetupOut where
  fs : FS
  printed : Option (Int × Int)
  lost0 : List (Nat × Int)
  lost1 : List Nat

/-- `GenerateData`: addition/setup.cc:43-131.  Exceptions of the generator are not caught.  Overflow of the printed difference
is undefined. -/
def generateData (c : Codec G) (gen0 : List (Nat × Int) → FS → Outcome (TreeFiles × List (Nat × Int))) (hashOf : Nat → List Bool) (stash node : Nat) (f : SetupFlags) (ρ : SetupRand) (fs : FS) :
    Outcome SetupOut := do
  let shared := sharedSize f
  let g ← orAbort (genAddOnly f.days f.daily f.start shared.toNat (f.maxValue % 2 ^ 32).toNat ρ.data)
  let fs ← writeDays (f.dataDir ++ "p0/") (f.dataDir ++ "p1/") g.days0 g.days1 f.days 0 fs
  if f.start > 0 then
    let (fs, l0, l1) ← writeInitial c gen0 hashOf stash node f ρ g fs
    if f.expected then
      let (ca, sum) ← initGo g.tree1.elements g.tree0.elements g.tree0.values (0, 0)
      if g.sum - sum < 2 ^ 63 then pure ⟨fs, some (shared - ca, g.sum - sum), l0, l1⟩ else .ub
    else pure ⟨fs, none, l0, l1⟩
  else pure ⟨fs, some (shared, g.sum), [], []⟩

/-- `main` of addition/setup.cc:133-162 with `--keys` and `--data` (the defaults) and a functionality other than `SS`. -/
def setupMain (c : Codec G) (g : G) (order : Nat) (hashOf : Nat → List Bool) (stash node : Nat) (f : SetupFlags)
    (ρ : SetupRand) (fs : FS) : Outcome SetupOut := do
  let fs ← setupAddition c g order ρ.coin0 ρ.coin1 ρ.paillier f.outDir fs
  generateData c (initialTrees0 c hashOf stash node f ρ) hashOf stash node f ρ fs

/-- The same with `--func=SS`. -/
def setupMainSS (c : Codec G) (g : G) (order : Nat) (mont : Int → Option Num.Mont) (x : Int) (hashOf : Nat → List Bool)
    (stash node : Nat) (f : SetupFlags) (ρ : SetupRand) (fs : FS) : Outcome SetupOut := do
  let fs ← setupAddition c g order ρ.coin0 ρ.coin1 ρ.paillier f.outDir fs
  generateData c (initialTrees0SS c mont x hashOf stash node f ρ) hashOf stash node f ρ fs

/-! ### the parties -/

/-- The flags of addition/run.cc:36-44.  A negative number of days is not modelled (`resize` throws). -/
structure RunFlags where
  dataDir : String
  outDir : String
  days : Nat
  trees : Bool

/-- The two tree files of a party: addition/run.cc:57-59, 119-121, read by roles.h:84-100 (failures end the program). -/
def readTrees (f : RunFlags) (party : String) (fs : FS) : Outcome TreeFiles := do
  let p ← orAbort (readKey parsePTree (f.dataDir ++ party ++ "plaintext.tree") fs)
  let e ← orAbort (readKey parseETree (f.dataDir ++ party ++ "encrypted.tree") fs)
  pure ⟨p, e⟩

/-- Both parties' trees at the start: empty, or imported with `--trees`.  Note that `encrypted.tree` of a party is the copy
of its peer's tree. -/
def startTrees (c : Codec G) (dec : PElem → P) (deser : EncElem → Outcome γ) (stash node : Nat) (f : RunFlags) (fs : FS) :
    Outcome (St0 G P × St1 γ) :=
  if f.trees then do
    let a ← readTrees f "p0/" fs
    let b ← readTrees f "p1/" fs
    importAdd c dec deser ⟨a.plain, b.enc⟩ ⟨b.plain, a.enc⟩ [] []
  else .ok (⟨Tree.empty stash node, Tree.empty stash node, []⟩, ⟨Tree.empty stash node, Tree.empty stash node, []⟩)

/-- The days: the two parties' sets and the day's coins. -/
def mkDays (xs : List (List P)) (ys : List (List Nat)) (coins : Nat → Coins G P κ) : List (DayIn G P κ) :=
  (xs.zip ys).mapIdx (fun i p => ⟨p.1, p.2, coins i⟩)

/-- What both parties read before the protocol starts. -/
structure Started (G P γ : Type) where
  k0 : AddKeys G
  k1 : AddKeys G
  xs : List (List P)
  ys : List (List Nat)
  s0 : St0 G P
  s1 : St1 γ

/-- Reading data sets, keys and trees: addition/run.cc:46-86, 108-140. -/
def start (c : Codec G) (dec : PElem → P) (deser : EncElem → Outcome γ) (load : List Dataset → Outcome (List (List P)))
    (stash node : Nat) (f : RunFlags) (fs : FS) : Outcome (Started G P γ) := do
  let d0 ← readDaily (f.dataDir ++ "p0/") fs f.days 1
  let d1 ← readDaily (f.dataDir ++ "p1/") fs f.days 1
  let k0 ← additionParty c f.outDir "p0" fs
  let k1 ← additionParty c f.outDir "p1" fs
  let (s0, s1) ← startTrees c dec deser stash node f fs
  let xs ← load d0
  let ys ← loadElems d1
  pure ⟨k0, k1, xs, ys, s0, s1⟩

/-- Both parties of the cardinality protocol, to the end: the final state and party one's byte counts. -/
def mainCA (c : Codec G) (hashOf : Nat → List Bool) (stash node : Nat) (f : RunFlags) (coins : Nat → Coins G Nat Unit)
    (fs : FS) : Outcome (StCA G × List Int) := do
  let b ← start c decNat (deserTreeCt c) loadElems stash node f fs
  runNet (fun s d => dayCANet c hashOf b.k0.pk b.k1.pk b.k0.sk b.k1.sk s d.xs d.ys d.coins) ⟨b.s0, b.s1, 0⟩
    (mkDays b.xs b.ys coins)

/-- Both parties of the PSI protocol. -/
def mainPSI (c cu : Codec G) (hashOf : Nat → List Bool) (stash node : Nat) (f : RunFlags) (coins : Nat → Coins G Nat (Ct G))
    (fs : FS) : Outcome (StPSI G × List Int) := do
  let b ← start c decNat (deserTreeCt c) loadElems stash node f fs
  runNet (fun s d => dayPSINet c cu hashOf b.k0.pk b.k1.pk b.k0.sk b.k1.sk s d.xs d.ys d.coins) ⟨b.s0, b.s1, [], []⟩
    (mkDays b.xs b.ys coins)

/-- Both parties of the sum protocol. -/
def mainSum (c : Codec G) (limit : Nat) (hashOf : Nat → List Bool) (stash node : Nat) (f : RunFlags)
    (coins : Nat → Coins G (Nat × Int) (Ct G)) (fs : FS) : Outcome (StSum G × List Int) := do
  let b ← start c decNatPair (deserElGamal c) loadPairs stash node f fs
  runNet (fun s d => daySumNet c limit hashOf b.k0.pk b.k1.pk b.k0.sk b.k1.sk s d.xs d.ys d.coins) ⟨b.s0, b.s1, 0, 0⟩
    (mkDays b.xs b.ys coins)

/-- Both parties of the secret-sharing protocol; `x0`, `x1` are the coins of the Paillier objects made
from the key files (threshold_paillier.cc:82-87). -/
def mainSS (c : Codec G) (mont : Int → Option Num.Mont) (x0 x1 : Int) (hashOf : Nat → List Bool) (stash node : Nat)
    (f : RunFlags) (coins : Nat → Coins G (Nat × Int) Int) (fs : FS) : Outcome (StSS G × List Int) := do
  let b ← start (γ := Ct G × Int) c decNatPair (deserPaillier c) loadPairs stash node f fs
  let pa ← Paillier.Public.new x0 b.k0.paillier.n 1
  let pb ← Paillier.Public.new x1 b.k1.paillier.n 1
  runNet (fun s d => daySSNet c mont ⟨b.k0.paillier, pa⟩ ⟨b.k1.paillier, pb⟩ hashOf b.k0.pk b.k1.pk b.k0.sk b.k1.sk s
    d.xs d.ys d.coins) ⟨b.s0, b.s1, [], []⟩ (mkDays b.xs b.ys coins)

end Upsi.Main
