import Verif.Main.AddMain
import Verif.Main.NetOther
import Verif.Data.GenValues
import Verif.Proto.DelPsiProps
/-
Model of the programs deletion/setup.cc, deletion-psi/setup.cc, deletion/run.cc and deletion-psi/run.cc (both parties) over a
file system.  The two setup programs differ only in defaults of flags.  The trees made by `--start_size` of run.cc are
modelled in Mock/ (C78) only.  Not modelled: timing and progress output, connections being set up and shut down.
-/
namespace Upsi.Main
open Upsi Upsi.Rec Upsi.Tree Upsi.Proto Upsi.Setup Upsi.Wire Upsi.Data Upsi.Num Upsi.Paillier

/-- The flags of deletion/setup.cc:16-36: `days`, `daily`, `start` are `uint32_t`, `maxValue` and `modLength` `int32_t`. -/
structure DelSetupFlags where
  days : Nat
  daily : Nat
  start : Nat
  maxValue : Int
  modLength : Int
  func : Functionality
  dataDir : String
  outDir : String

/-- The random choices of setup: the primes of both keys, the data, the coins of the initial trees. -/
structure DelSetupRand where
  p0 : Nat
  q0 : Nat
  p1 : Nat
  q1 : Nat
  data : DelRand
  tree0 : TreeCoins EP
  tree1 : TreeCoins EP

/-- `GenerateTrees` for the protocols with deletions: setup_util.cc:268-296.  `tries` bounds the generator search of the key
object (`kGeneratorTryCount`); the second component is ghost: the entries lost by stash overflow. -/
def delTrees (mont : Int → Option Mont) (tries : Nat) (hashOf : Nat → List Bool) (stash node : Nat) (d : Dataset)
    (keyDir plainDir encDir : String) (ρ : TreeCoins EP) (fs : FS) : Outcome (FS × List EP) := do
  let key ← readKey PrivProto.parse (keyDir ++ "paillier.key") fs
  let sk ← Private.new tries (ofBytes key.p) (ofBytes key.q) key.s
  let x ← orAbort d.pairs
  let (t, lost) ← genDel mont sk hashOf stash node (x.map (fun p => (p.1.toNat, p.2))) ρ
  let fs ← writeTrees t plainDir encDir fs
  pure (fs, lost)

/-- What setup leaves behind: the files, the number printed as expected output, and (ghost) the entries its trees lost. -/
structure DelSetupOut where
  fs : FS
  printed : Int
  lost0 : List EP
  lost1 : List EP

/-- `GenerateData`: deletion/setup.cc:38-79.  Exceptions of the generator are not caught. -/
def generateDataDel (mont : Int → Option Mont) (tries : Nat) (hashOf : Nat → List Bool) (stash node : Nat) (f : DelSetupFlags)
    (ρ : DelSetupRand) (fs : FS) : Outcome DelSetupOut := do
  let g ← orAbort (genDeletionSets f.days f.daily f.start (f.maxValue % 2 ^ 32).toNat f.func ρ.data)
  let fs ← writeDays (f.dataDir ++ "p0/") (f.dataDir ++ "p1/") g.days0 g.days1 f.days 0 fs
  if f.start > 0 then
    let (fs, l0) ← delTrees mont tries hashOf stash node g.tree0 (f.outDir ++ "p0/") (f.dataDir ++ "p0/") (f.dataDir ++ "p1/")
      ρ.tree0 fs
    let (fs, l1) ← delTrees mont tries hashOf stash node g.tree1 (f.outDir ++ "p1/") (f.dataDir ++ "p1/") (f.dataDir ++ "p0/")
      ρ.tree1 fs
    pure ⟨fs, g.sum, l0, l1⟩
  else pure ⟨fs, g.sum, [], []⟩

/-- `main` of deletion/setup.cc:81-112 with `--keys` and `--data` (the defaults). -/
def setupMainDel (mont : Int → Option Mont) (tries : Nat) (hashOf : Nat → List Bool) (stash node : Nat) (f : DelSetupFlags)
    (ρ : DelSetupRand) (fs : FS) : Outcome DelSetupOut := do
  let fs ← setupDeletion f.modLength ρ.p0 ρ.q0 ρ.p1 ρ.q1 f.outDir fs
  generateDataDel mont tries hashOf stash node f ρ fs

/-! ### the parties -/

/-- The flags of deletion/run.cc:36-48 and deletion-psi/run.cc; `trees` is `--import`, which excludes a positive
`--start_size` (run.cc:248-251). -/
structure DelRunFlags where
  dataDir : String
  outDir : String
  days : Nat
  trees : Bool
  func : Functionality

/-- The two tree files of a party: deletion/run.cc:63-65, 159-161, read by roles.h:84-100 (failures end the program). -/
def readDelTrees (f : DelRunFlags) (party : String) (fs : FS) : Outcome TreeFiles := do
  let p ← orAbort (readKey parsePTree (f.dataDir ++ party ++ "plaintext.tree") fs)
  let e ← orAbort (readKey parseETree (f.dataDir ++ party ++ "encrypted.tree") fs)
  pure ⟨p, e⟩

/-- Both parties' trees at the start: empty, or imported.  `encrypted.tree` of a party is the copy of its peer's tree. -/
def startDelTrees (stash node : Nat) (f : DelRunFlags) (fs : FS) : Outcome (DSt × DSt) :=
  if f.trees then do
    let a ← readDelTrees f "p0/" fs
    let b ← readDelTrees f "p1/" fs
    importDel ⟨a.plain, b.enc⟩ ⟨b.plain, a.enc⟩ [] []
  else .ok (DSt.init stash node, DSt.init stash node)

/-- What both parties read before the protocol starts. -/
structure StartedDel where
  k0 : DKeys
  k1 : DKeys
  xs : List (List EP)
  ys : List (List EP)
  s0 : DSt
  s1 : DSt

/-- Reading data sets, trees and keys: deletion/run.cc:50-84, 146-180 with deletion/party.h:36-52 (the base class reads the
trees first) and deletion-psi/run.cc; `accept` is the `switch` over the functionality, `x0`, `x1` the coins of the public-key
objects. -/
def startDel (accept : Functionality → Bool) (tries : Nat) (x0 x1 : Int) (stash node : Nat) (f : DelRunFlags) (fs : FS) :
    Outcome StartedDel := do
  let d0 ← readDaily (f.dataDir ++ "p0/") fs f.days 1
  let d1 ← readDaily (f.dataDir ++ "p1/") fs f.days 1
  if accept f.func then
    let (s0, s1) ← startDelTrees stash node f fs
    let (sk0, pk1) ← deletionParty tries x0 f.outDir "p0" fs
    let (sk1, pk0) ← deletionParty tries x1 f.outDir "p1" fs
    let xs ← loadPairs d0
    let ys ← loadPairs d1
    pure ⟨⟨sk0, pk1⟩, ⟨sk1, pk0⟩, xs, ys, s0, s1⟩
  else .err "unimplemented functionality"

/-- The functionalities of deletion/run.cc:76-83, 172-179. -/
def acceptDel : Functionality → Bool
  | .CA => true
  | .SUM => true
  | _ => false

/-- The functionalities of deletion-psi/run.cc:74-80, 165-171. -/
def acceptDelPsi : Functionality → Bool
  | .PSI => true
  | _ => false

/-- The days of deletion: the parties' updates and the day's coins. -/
def mkDelDays (xs ys : List (List EP)) (coins : Nat → DelCoins) : List DayDelIn :=
  (xs.zip ys).mapIdx (fun i p => ⟨p.1, p.2, coins i⟩)

/-- Both parties of deletion/run.cc: the final state and the parties' byte counts. -/
def mainDel (ro : List UInt8 → Nat) (mont : Int → Option Mont) (tries : Nat) (x0 x1 : Int) (hashOf : Nat → List Bool)
    (stash node : Nat) (f : DelRunFlags) (coins : Nat → DelCoins) (fs : FS) : Outcome (StDel × List (Nat × Nat)) := do
  let b ← startDel acceptDel tries x0 x1 stash node f fs
  runNet (fun s d => dayDelNet ro mont hashOf b.k0 b.k1 s d.xs d.ys d.coins) ⟨b.s0, b.s1, 0, []⟩ (mkDelDays b.xs b.ys coins)

/-- `PrintResult` of deletion: deletion/party_zero.cc:52-54 prints the `uint64_t`. -/
def shownDel (s : StDel) : Nat := s.result.toNat

/-- One path identifier is drawn per inserted entry: the coins of a round cut to the entries. -/
def RoundCoins.cut (ρ : RoundCoins) (xs ys : List EP) : RoundCoins :=
  { ρ with hsh0 := ρ.hsh0.take xs.length, hsh1 := ρ.hsh1.take ys.length }

/-- The coins of a day of deletion-psi, cut to the day's deletions and additions. -/
def DelPsiCoins.cut (ρ : DelPsiCoins) (xs ys : List EP) : DelPsiCoins :=
  { ρ with round1 := RoundCoins.cut ρ.round1 (deletionsOf xs) (deletionsOf ys),
           round2 := RoundCoins.cut ρ.round2 (additionsOf xs) (additionsOf ys) }

/-- The days of deletion-psi. -/
def mkPsiDays (xs ys : List (List EP)) (coins : Nat → DelPsiCoins) : List DayPsiIn :=
  (xs.zip ys).mapIdx (fun i p => ⟨p.1, p.2, DelPsiCoins.cut (coins i) p.1 p.2⟩)

/-- Both parties of deletion-psi/run.cc. -/
def mainDelPsi (ro : List UInt8 → Nat) (mont : Int → Option Mont) (tries : Nat) (x0 x1 : Int) (hashOf : Nat → List Bool)
    (stash node : Nat) (f : DelRunFlags) (coins : Nat → DelPsiCoins) (fs : FS) : Outcome (StDelPsi × List (Nat × Nat)) := do
  let b ← startDel acceptDelPsi tries x0 x1 stash node f fs
  runNet (fun s d => dayDelPsiNet ro mont hashOf b.k0 b.k1 s d.xs d.ys d.coins) ⟨b.s0, b.s1, 0, [], [], []⟩
    (mkPsiDays b.xs b.ys coins)

/-- `PrintResult` of deletion-psi: deletion-psi/party_zero.cc:111-119 prints the number as `long long` and, if there are fewer
than ten, the elements. -/
def shownPsi (s : StDelPsi) : Int × Option (List Int) :=
  (wrap64 s.result.toNat, if s.inter.length < 10 then some s.inter else none)

end Upsi.Main
