import Verif.Setup.Trees
import Verif.Setup.KeyProps
import Verif.Wire.Props
import Verif.Data.GenProps
/-
Model of the files the setup programs and the parties exchange: the daily data sets (upsi/util/data_util.cc:124-172,
207-219), written by the loops of the four `setup.cc` programs and read by the four `run.cc` programs.
-/
namespace Upsi.Main
open Upsi Upsi.Rec Upsi.Setup Upsi.Data

/-- `dir + std::to_string(day) + ".csv"`: data_util.cc:212-214, addition/setup.cc:72-77. -/
def dayFile (dir : String) (day : Nat) : String := dir ++ toString day ++ ".csv"

/-- `Dataset::Write` to a file: data_util.cc:154-172. -/
def writeDataset (d : Dataset) (name : String) (fs : FS) : Outcome FS :=
  if fs.writable (canon name) then do
    let b ← d.write
    pure (fs.set (canon name) b)
  else .err "[Dataset] failed to open"

/-- The loop writing the days: addition/setup.cc:70-79, deletion/setup.cc:51-58, deletion-psi/setup.cc and
original/setup.cc (the same loop).  `n` days are left, `i` is `day`. -/
def writeDays (dir0 dir1 : String) (d0 d1 : List Dataset) : Nat → Nat → FS → Outcome FS
  | 0, _, fs => .ok fs
  | n + 1, i, fs => do
    let a ← Num.vget d0 i
    let fs ← writeDataset a (dayFile dir0 (i + 1)) fs
    let b ← Num.vget d1 i
    let fs ← writeDataset b (dayFile dir1 (i + 1)) fs
    writeDays dir0 dir1 d0 d1 n (i + 1) fs

/-- `Dataset(ctx, fn)`: data_util.cc:124-152.  Nothing catches its exceptions. -/
def readDataset (name : String) (fs : FS) : Outcome Dataset :=
  match fs.data (canon name) with
  | none => .abort
  | some b => orAbort (Dataset.read b)

/-- `ReadDailyDatasets`: data_util.cc:207-219.  `n` days are left, `i` is `day`. -/
def readDaily (dir : String) (fs : FS) : Nat → Nat → Outcome (List Dataset)
  | 0, _ => .ok []
  | n + 1, i => do
    let d ← readDataset (dayFile dir i) fs
    let r ← readDaily dir fs n (i + 1)
    pure (d :: r)

/-- `Elements()` of every day: addition/party_zero.cc:21-26, addition/party_one.h:22-26.  Exceptions are not caught. -/
def loadElems : List Dataset → Outcome (List (List Nat))
  | [] => .ok []
  | d :: ds => do
    let x ← orAbort d.elems
    let r ← loadElems ds
    pure (x :: r)

/-- `ElementsAndValues()` of every day: addition/party_zero.cc:77-87, deletion/party_zero.cc and party_one.cc.  The elements
are results of `stoull`, hence non-negative. -/
def loadPairs : List Dataset → Outcome (List (List (Nat × Int)))
  | [] => .ok []
  | d :: ds => do
    let x ← orAbort d.pairs
    let r ← loadPairs ds
    pure (x.map (fun p => (p.1.toNat, p.2)) :: r)

end Upsi.Main
