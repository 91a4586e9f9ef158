import Verif.Proto.GcModel
/-
Model of the cardinality/sum protocol with deletions: upsi/deletion/{party_zero,party_one,run}.cc.
-/
namespace Upsi.Proto
open Upsi Upsi.Tree Upsi.Num Upsi.Paillier

/-- Coins of one day. -/
structure DelCoins where
  round : RoundCoins
  gc0 : GcCoins
  gc1 : GcCoins

/-- Both parties and party zero's `result`; `trace` is ghost: the circuit phases so far. -/
structure StDel where
  p0 : DSt
  p1 : DSt
  result : UInt64
  trace : List Phase

/-- One day: `PartyZero::Run` (party_zero.cc:44-50), `PartyOne::Handle`, then `GarbledCircuit()` on both
sides (party.h:280-291: party zero = BOB sends first) and the exchange of the shares
(run.cc:115-123). -/
def dayDel (ro : List UInt8 → Nat) (mont : Int → Option Mont) (hashOf : Nat → List Bool) (k0 k1 : DKeys)
    (s : StDel) (xs ys : List EP) (ρ : DelCoins) : Outcome StDel := do
  let (p0, p1, o) ← roundDel mont hashOf k0 k1 s.p0 s.p1 xs ys ρ.round
  let f1 ← gcPhase ro mont k0.pk k1.sk false ρ.gc0 o.items0.flatten o.resp1.flatten
  let f2 ← gcPhase ro mont k1.pk k0.sk true ρ.gc1 o.items1.flatten o.resp0.flatten
  let rs := f1.sender + f2.receiver
  let other := f1.receiver + f2.sender
  pure ⟨p0, p1, s.result + (rs + other), s.trace ++ [f1, f2]⟩

/-- The initial state. -/
def StDel.init (stash node : Nat) : StDel := ⟨DSt.init stash node, DSt.init stash node, 0, []⟩

end Upsi.Proto
