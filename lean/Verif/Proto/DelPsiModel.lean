import Verif.Proto.GcModel
/-
Model of the intersection protocol with deletions: upsi/deletion-psi/{party_zero,party_one,run}.cc.
-/
namespace Upsi.Proto
open Upsi Upsi.Tree Upsi.Num Upsi.Paillier

/-- Coins of one day: two message rounds (deletions, then additions), the circuit phase (one entry per
group), the encryptions of the shares and the shuffle of party one. -/
structure DelPsiCoins where
  round1 : RoundCoins
  round2 : RoundCoins
  gc0 : Nat → GcCoins
  gc1 : Nat → GcCoins
  enc0 : Nat → Nat → Int
  enc1 : Nat → Int
  shuffle : List Int → List Int

/-- Both parties and party zero's outputs.  `inter` is the `std::set<std::string>` of decimal strings,
kept as the list of the integers they denote (`std::to_string` is injective on 64-bit integers).
`trace` and `updates` are ghost: the circuit phases, and per day the signed numbers in the order in which
they were processed. -/
structure StDelPsi where
  p0 : DSt
  p1 : DSt
  result : UInt64
  inter : List Int
  trace : List Phase
  updates : List (List Int)

/-- The split of a day's data: party_zero.cc:19-30, party_one.h:30-41. -/
def deletionsOf (xs : List EP) : List EP := xs.filter (fun e => e.2 < 0)
/-- The split of a day's data: party_zero.cc:19-30, party_one.h:30-41. -/
def additionsOf (xs : List EP) : List EP := xs.filter (fun e => 0 ≤ e.2)

/-- `GarbledCircuit(is_sender, ans)` of both parties, group by group: party.h:185-304.  Lists of different
lengths on the two sides desynchronise the circuit (`ub`). -/
def gcGroups (ro : List UInt8 → Nat) (mont : Int → Option Mont) (pk : Public) (sk : Private)
    (aliceSends : Bool) (ρ : Nat → GcCoins) : Nat → List (List Item) → List (List Int) → Outcome (List Phase)
  | _, [], [] => .ok []
  | i, g :: gs, y :: ys => do
    let f ← gcPhase ro mont pk sk aliceSends (ρ i) g y
    let fs ← gcGroups ro mont pk sk aliceSends ρ (i + 1) gs ys
    pure (f :: fs)
  | _, _, _ => .ub

/-- Sending a ciphertext over the raw channel: `PadBytes` to `16 * cnt_block` bytes, send and receive that
many bytes, `CreateBigNum`: party_zero.cc:76-80, party_one.cc:53-57, 68-72, party_zero.cc:88-91. -/
def transmit (blocks : Nat) (x : Int) : Outcome Int := do
  let b ← bigNum2block x blocks
  pure (block2BigNum b blocks : Int)

/-- The exchange of `SecondPhase` up to the decrypted words: party_zero.cc:66-96, party_one.cc:44-76.
`words` holds the shares `rs[i]` of party zero and party one. -/
def secondPhase (mont : Int → Option Mont) (sk : Private) (pk : Public) (ρ : DelPsiCoins)
    (words : List (UInt64 × UInt64)) : Outcome (List UInt64) := do
  let b0 ← cntBlock sk.ns
  let b1 ← cntBlock pk.n
  if b0 ≠ b1 then .ub
  else
    let enc ← forIdx (fun i (w : UInt64 × UInt64) => do
      let a ← sk.encrypt mont (w.1.toNat : Int) (ρ.enc0 i 0) (ρ.enc0 i 1)
      let a' ← transmit b0 a
      let b ← pk.encrypt mont (w.2.toNat : Int) (ρ.enc1 i)
      pk.add a' b) 0 words
    let ds ← forIdx (fun _ c => do
      let c' ← transmit b0 c
      let d ← sk.decrypt c'
      let d' := if d ≥ 2 ^ 64 then d - 2 ^ 64 else d
      toIntValue d') 0 (ρ.shuffle enc)
    pure (ds.filter (fun w => 0 < w))

/-- `long long num = result_updates[i]`: party_zero.cc:99-100. -/
def signed (u : UInt64) : Int := if u.toNat < 2 ^ 63 then u.toNat else (u.toNat : Int) - 2 ^ 64

/-- One iteration of party_zero.cc:99-106: `-num` overflows for the most negative value (`ub`). -/
def applyUpdate (st : UInt64 × List Int) (num : Int) : Outcome (UInt64 × List Int) :=
  if num = -2 ^ 63 then .ub
  else
    let r := if num < 0 then st.1 - 1 else st.1 + 1
    let inter :=
      if -num ∈ st.2 then st.2.erase (-num)
      else if num ∈ st.2 then st.2 else num :: st.2
    .ok (r, inter)

/-- The loop party_zero.cc:98-106. -/
def applyUpdates : UInt64 × List Int → List Int → Outcome (UInt64 × List Int)
  | st, [] => .ok st
  | st, u :: us => do
    let st' ← applyUpdate st u
    applyUpdates st' us

/-- One day: `PartyZero::Run` (party_zero.cc:50-64) with `PartyOne::Handle` (party_one.cc:14-42), then
`SecondPhase` of both parties (run.cc:114-118, 217).  The circuit inputs of the two rounds are
concatenated (`gc_x`, `gc_y`, `gc_z` are only cleared at the start of the day); party zero (BOB) sends
first. -/
def dayDelPsi (ro : List UInt8 → Nat) (mont : Int → Option Mont) (hashOf : Nat → List Bool) (k0 k1 : DKeys)
    (s : StDelPsi) (xs ys : List EP) (ρ : DelPsiCoins) : Outcome StDelPsi := do
  let (a0, a1, o1) ← roundDel mont hashOf k0 k1 s.p0 s.p1 (deletionsOf xs) (deletionsOf ys) ρ.round1
  let (b0, b1, o2) ← roundDel mont hashOf k0 k1 a0 a1 (additionsOf xs) (additionsOf ys) ρ.round2
  let f0 ← gcGroups ro mont k0.pk k1.sk false ρ.gc0 0 (o1.items0 ++ o2.items0) (o1.resp1 ++ o2.resp1)
  let f1 ← gcGroups ro mont k1.pk k0.sk true ρ.gc1 0 (o1.items1 ++ o2.items1) (o1.resp0 ++ o2.resp0)
  let words := f0.map (fun f => (f.sender, f.receiver)) ++ f1.map (fun f => (f.receiver, f.sender))
  let us ← secondPhase mont k0.sk k1.pk ρ words
  let (r, inter) ← applyUpdates (s.result, s.inter) (us.map signed)
  pure ⟨b0, b1, r, inter, s.trace ++ f0 ++ f1, s.updates ++ [us.map signed]⟩

/-- The initial state. -/
def StDelPsi.init (stash node : Nat) : StDelPsi := ⟨DSt.init stash node, DSt.init stash node, 0, [], [], []⟩

end Upsi.Proto
