import Verif.Main.AddMain
import Verif.Main.DelMain
import Verif.Mock.Model
/-
The programs of the parties with the flag `--start_size`: random initial trees instead of imported ones.
-/
namespace Upsi.Main
open Upsi Upsi.Rec Upsi.ElGamal Upsi.Tree Upsi.Proto Upsi.Setup Upsi.Wire Upsi.Num Upsi.Data Upsi.Mock

variable {G : Type} [AddCommGroup G] [DecidableEq G]

/-- Both parties of `addition/run.cc --func=SS` with `--start_size` (`start0`, `start1`): addition/run.cc:57-62, 119-124 and
the constructors party_zero.h:229-236, party_one.h:135-142.  With `--trees` the flag is ignored.  Simplification: the trees
are filled after the data sets were converted, not before; both steps are independent. -/
def mainSSMock (c : Codec G) (mont : Int → Option Num.Mont) (x0 x1 : Int) (hashOf : Nat → List Bool) (stash node : Nat)
    (f : RunFlags) (start0 start1 : Int) (m0 m1 : MockCoins) (coins : Nat → Coins G (Nat × Int) Int) (fs : FS) :
    Outcome (StSS G × List Int) :=
  if f.trees then mainSS c mont x0 x1 hashOf stash node f coins fs
  else do
    let b ← start (γ := Ct G × Int) c decNatPair (deserPaillier c) loadPairs stash node f fs
    let pa ← Paillier.Public.new x0 b.k0.paillier.n 1
    let pb ← Paillier.Public.new x1 b.k1.paillier.n 1
    let s0 ← startSS0 hashOf b.k0.pk stash node start0 m0
    let s1 ← startSS1 hashOf b.k1.pk mont ⟨b.k1.paillier, pb⟩ stash node start1 m1
    runNet (fun s d => daySSNet c mont ⟨b.k0.paillier, pa⟩ ⟨b.k1.paillier, pb⟩ hashOf b.k0.pk b.k1.pk b.k0.sk b.k1.sk s
      d.xs d.ys d.coins) ⟨s0, s1, [], []⟩ (mkDays b.xs b.ys coins)

/-- Both parties' trees with `--start_size`: deletion/run.cc:63-68, 159-164, 248-251 and deletion/party.h:53-59;
deletion-psi/run.cc:62-67, 153-158, 240-243 and deletion-psi/party.h:52-58.  A positive number together with `--import` is
refused.  Simplification as in `mainSSMock`. -/
def startDelMock (accept : Functionality → Bool) (mont : Int → Option Mont) (tries : Nat) (x0 x1 : Int) (hashOf : Nat → List Bool)
    (stash node : Nat) (f : DelRunFlags) (start0 start1 : Int) (m0 m1 : MockCoins) (fs : FS) : Outcome StartedDel :=
  if f.trees && (decide (0 < start0) || decide (0 < start1)) then .err "[Run] cannot both import trees and create mock trees"
  else if f.trees then startDel accept tries x0 x1 stash node f fs
  else do
    let b ← startDel accept tries x0 x1 stash node f fs
    let (s0, s1) ← Mock.startDel hashOf mont b.k0 b.k1 stash node start0 start1 m0 m1
    pure ⟨b.k0, b.k1, b.xs, b.ys, s0, s1⟩

/-- Both parties of deletion/run.cc with `--start_size`. -/
def mainDelMock (ro : List UInt8 → Nat) (mont : Int → Option Mont) (tries : Nat) (x0 x1 : Int) (hashOf : Nat → List Bool)
    (stash node : Nat) (f : DelRunFlags) (start0 start1 : Int) (m0 m1 : MockCoins) (coins : Nat → DelCoins) (fs : FS) :
    Outcome (StDel × List (Nat × Nat)) := do
  let b ← startDelMock acceptDel mont tries x0 x1 hashOf stash node f start0 start1 m0 m1 fs
  runNet (fun s d => dayDelNet ro mont hashOf b.k0 b.k1 s d.xs d.ys d.coins) ⟨b.s0, b.s1, 0, []⟩ (mkDelDays b.xs b.ys coins)

/-- Both parties of deletion-psi/run.cc with `--start_size`. -/
def mainDelPsiMock (ro : List UInt8 → Nat) (mont : Int → Option Mont) (tries : Nat) (x0 x1 : Int) (hashOf : Nat → List Bool)
    (stash node : Nat) (f : DelRunFlags) (start0 start1 : Int) (m0 m1 : MockCoins) (coins : Nat → DelPsiCoins) (fs : FS) :
    Outcome (StDelPsi × List (Nat × Nat)) := do
  let b ← startDelMock acceptDelPsi mont tries x0 x1 hashOf stash node f start0 start1 m0 m1 fs
  runNet (fun s d => dayDelPsiNet ro mont hashOf b.k0 b.k1 s d.xs d.ys d.coins) ⟨b.s0, b.s1, 0, [], [], []⟩
    (mkPsiDays b.xs b.ys coins)

end Upsi.Main
