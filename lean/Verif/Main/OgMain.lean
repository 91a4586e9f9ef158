import Verif.Main.AddMain
import Verif.Main.NetOther
/-
Model of the programs original/setup.cc and original/run.cc (both parties) over a file system.  Not modelled: timing and
progress output, connections being set up and shut down.
-/
namespace Upsi.Main
open Upsi Upsi.Rec Upsi.ElGamal Upsi.Tree Upsi.Proto Upsi.Setup Upsi.Wire Upsi.Data

/-- The random choices of original/setup.cc: both keys, the data, the coins of party one's initial tree. -/
structure OgSetupRand where
  coin0 : Nat
  coin1 : Nat
  data : AddRand
  tree1 : TreeCoins Nat

/-- The number of initial matches: original/setup.cc:123-130.  `initial_ca` is a `size_t`; its wrapping around is immaterial, as
it is only used modulo `2^64` (`printedOg`). -/
def initCount (ys : List Data.Bytes) : List Data.Bytes → Nat
  | [] => 0
  | x :: xs => (ys.filter (fun y => x == y)).length + initCount ys xs

/-- `shared_size - initial_ca`, an `int32_t` minus a `size_t`: original/setup.cc:133. -/
def printedOg (shared : Int) (initial : Nat) : Int := (shared - initial) % 2 ^ 64

variable {G : Type} [AddCommGroup G] [DecidableEq G]

/-- The secret key in a file: original/setup.cc:41-57. -/
def readSk (name : String) (fs : FS) : Outcome Int := do
  let m ← readKey SkProto.parse name fs
  valueOf (deserializePrivateKey m)

/-- `WriteHX`: original/setup.cc:39-74.  The elements are written as decimal strings. -/
def writeHXFile (cu : Codec G) (H : Nat → G) (outDir dataDir : String) (d : Dataset) (fs : FS) : Outcome FS := do
  let a ← readSk (outDir ++ "p0/" ++ "elgamal.key") fs
  let b ← readSk (outDir ++ "p1/" ++ "elgamal.key") fs
  let xs ← orAbort d.elems
  let hx ← writeHX cu H ⟨0, 0, a, b⟩ xs
  writeKey serOPRF (hx.map (fun p => (digits p.1, p.2))) (dataDir ++ "p0/" ++ "elements.ec") fs

/-- What setup leaves behind: the files, the printed expected size, and (ghost) the elements party one's tree lost. -/
structure OgSetupOut where
  fs : FS
  printed : Option Int
  lost1 : List Nat

/-- `GenerateData`: original/setup.cc:76-140.  Exceptions of the generator are not caught. -/
def generateDataOg (c cu : Codec G) (H : Nat → G) (hashOf : Nat → List Bool) (stash node : Nat) (f : SetupFlags)
    (ρ : OgSetupRand) (fs : FS) : Outcome OgSetupOut := do
  let shared := sharedSize f
  let g ← orAbort (genAddOnly f.days f.daily f.start shared.toNat (f.maxValue % 2 ^ 32).toNat ρ.data)
  let fs ← writeDays (f.dataDir ++ "p0/") (f.dataDir ++ "p1/") g.days0 g.days1 f.days 0 fs
  if f.start > 0 then
    let y0 ← orAbort g.tree1.elems
    let pk ← getElGamal c (f.outDir ++ "p1/" ++ "elgamal.pub") fs
    let (t, lost) ← genAdd1 c hashOf pk stash node y0 ρ.tree1
    let fs ← writeTrees t (f.dataDir ++ "p1/") (f.dataDir ++ "p0/") fs
    let fs ← writeHXFile cu H f.outDir f.dataDir g.tree0 fs
    pure ⟨fs, if f.expected then some (printedOg shared (initCount g.tree1.elements g.tree0.elements)) else none, lost⟩
  else pure ⟨fs, some shared, []⟩

/-- `main` of original/setup.cc:142-170 with `--keys` and `--data` (the defaults). -/
def setupMainOg (c cu : Codec G) (g : G) (order : Nat) (H : Nat → G) (hashOf : Nat → List Bool) (stash node : Nat)
    (f : SetupFlags) (ρ : OgSetupRand) (fs : FS) : Outcome OgSetupOut := do
  let fs ← setupOriginal c g order ρ.coin0 ρ.coin1 f.outDir fs
  generateDataOg c cu H hashOf stash node f ρ fs

/-! ### the parties -/

/-- Both parties' state at the start: empty, or (with `--trees`, the default) read from the files.  original/run.cc:56-59,
116-118, original/party_zero.h:24-43, party_one.h:24-37.  Strings read from `elements.ec` stand for their values. -/
def startOgTrees (c cu : Codec G) (stash node : Nat) (f : RunFlags) (fs : FS) : Outcome (OgSt G) :=
  if f.trees then do
    let e ← orAbort (readKey parseETree (f.dataDir ++ "p0/" ++ "encrypted.tree") fs)
    let kv ← orAbort (readKey parseOPRF (f.dataDir ++ "p0/" ++ "elements.ec") fs)
    let p ← orAbort (readKey parsePTree (f.dataDir ++ "p1/" ++ "plaintext.tree") fs)
    importOg c cu ⟨p, e⟩ (kv.map (fun x => (digitsValue x.1, x.2))) []
  else .ok ⟨Og0.init stash node, Og1.init stash node⟩

/-- What both parties read before the protocol starts. -/
structure StartedOg (G : Type) where
  k0 : OgKeysRead G
  k1 : OgKeysRead G
  xs : List (List Nat)
  ys : List (List Nat)
  s : OgSt G

/-- Reading data sets, keys and trees: original/run.cc:45-66, 104-126, original/party.h:29-66. -/
def startOg (c cu : Codec G) (stash node : Nat) (f : RunFlags) (fs : FS) : Outcome (StartedOg G) := do
  let d0 ← readDaily (f.dataDir ++ "p0/") fs f.days 1
  let d1 ← readDaily (f.dataDir ++ "p1/") fs f.days 1
  let xs ← loadElems d0
  let ys ← loadElems d1
  let k0 ← originalParty c f.outDir "p0" "p1" fs
  let k1 ← originalParty c f.outDir "p1" "p0" fs
  let s ← startOgTrees c cu stash node f fs
  pure ⟨k0, k1, xs, ys, s⟩

/-- A day over the network, each party with the keys it read (`dayOgNet` is the special case of matching keys);
original/party_one.cc:19-35, party_zero.cc:18-41. -/
def dayOgRead (q : Nat) (k0 k1 : OgKeysRead G) (c cu : Codec G) (H : Nat → G) (hashOf : Nat → List Bool) (s : OgSt G)
    (xs ys : List Nat) (ρ : OgCoins G) : Outcome (OgSt G × Int) := do
  let (p1, m1) ← ogSendI c H hashOf k1.mine k1.sk s.p1 ys ρ
  let r1 ← toServer (ogI m1)
  let m1' ← getOgI r1
  let (p0, m2) ← ogSendII c cu hashOf k0.mine k0.theirs k0.sk s.p0 m1' xs ρ
  let r2 ← toClient (ogII m2)
  let m3 ← ogSendIII c k1.theirs k1.sk (getOgII r2) ρ
  let r3 ← toServer (.og (.iii m3))
  let m3' ← getOgIII r3
  let (p0, m4) ← ogSendIV c H k0.sk p0 m3' xs ρ
  let r4 ← toClient (.og (.iv m4))
  let m5 ← ogSendV c k1.sk (getOgIV r4)
  let r5 ← toServer (.og (.v m5))
  let m5' ← getOgV r5
  let p0 ← ogProcV c cu q p0 m5' xs
  pure (⟨p0, p1⟩, addComm (addComm (addComm (addComm (addComm 0 (serClient (ogI m1)).length) (serServer (ogII m2)).length)
    (serClient (.og (.iii m3))).length) (serServer (.og (.iv m4))).length) (serClient (.og (.v m5))).length)

/-- The days: the two parties' sets and the day's coins. -/
def mkOgDays (xs ys : List (List Nat)) (coins : Nat → OgCoins G) : List (OgDay G) :=
  (xs.zip ys).mapIdx (fun i p => ⟨p.1, p.2, coins i⟩)

/-- Both parties of original/run.cc, to the end: the final state and party zero's byte counts. -/
def mainOg (c cu : Codec G) (q : Nat) (H : Nat → G) (hashOf : Nat → List Bool) (stash node : Nat) (f : RunFlags)
    (coins : Nat → OgCoins G) (fs : FS) : Outcome (OgSt G × List Int) := do
  let b ← startOg c cu stash node f fs
  runNet (fun s d => dayOgRead q b.k0 b.k1 c cu H hashOf s d.xs d.ys d.coins) b.s (mkOgDays b.xs b.ys coins)

/-- `PrintResult`: original/party_zero.cc:192-199: the number of elements and, if there are fewer than 30, the elements. -/
def shownOg (s : OgSt G) : Nat × List Data.Bytes :=
  (s.p0.intersection.length, if s.p0.intersection.length < 30 then s.p0.intersection.map digits else [])

/-- `PrintComm`: original/party_zero.cc:182-190: the total of the days' counts, an `unsigned long long`. -/
def totalComm (ns : List Int) : Int := ns.foldl (fun t n => (t + n) % 2 ^ 64) 0

end Upsi.Main
