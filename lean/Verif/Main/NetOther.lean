import Verif.Main.Net
import Verif.Proto.OgModel
import Verif.Proto.DelModel
import Verif.Proto.DelPsiModel
/-
Model of the original protocol and of the protocols with deletions over the network: messages are turned into bytes,
transported by gRPC with its size limit and parsed by the peer; the bytes are counted as each party's `AddComm` does.
The garbled-circuit channel (emp::NetIO) is not gRPC and stays as in the models of the days.
-/
namespace Upsi.Main
open Upsi Upsi.Rec Upsi.ElGamal Upsi.Tree Upsi.Proto Upsi.Setup Upsi.Wire Upsi.Num

/-! ### original protocol -/

variable {G : Type} [AddCommGroup G] [DecidableEq G]

/-- Message I: original/party_one.cc:37-58 (`updates` is always touched). -/
def ogI (m : OgMsgI) : CMsg := .og (.i (some m.updates) m.ciphertexts)
/-- Message II: original/party_zero.cc:43-109 (`alpha` is always set). -/
def ogII (m : OgMsgII) : SMsg := .og (.ii (some m.alpha) m.candidates)

/-- `Handle` of party zero, message I: original/party_zero.cc:18-28. -/
def getOgI : CMsg → Outcome OgMsgI
  | .og (.i u cs) => .ok ⟨u.getD ⟨[], []⟩, cs⟩
  | .og _ => .err "received a message of unknown type"
  | _ => .err "incorrect message type"

/-- `message_ii.og_msg().message_ii()`: original/party_one.cc:26-27; a missing message reads as empty. -/
def getOgII : SMsg → OgMsgII
  | .og (.ii a cs) => ⟨a.getD ⟨[], []⟩, cs⟩
  | _ => ⟨⟨[], []⟩, []⟩

/-- `Handle` of party zero, message III: original/party_zero.cc:29-31. -/
def getOgIII : CMsg → Outcome (List (List EncElem))
  | .og (.iii cs) => .ok cs
  | .og _ => .err "received a message of unknown type"
  | _ => .err "incorrect message type"

/-- `message_iv.og_msg().message_iv()`: original/party_one.cc:28-29. -/
def getOgIV : SMsg → List Bytes
  | .og (.iv cs) => cs
  | _ => []

/-- `Handle` of party zero, message V: original/party_zero.cc:32-35. -/
def getOgV : CMsg → Outcome (List Bytes)
  | .og (.v cs) => .ok cs
  | .og _ => .err "received a message of unknown type"
  | _ => .err "incorrect message type"

/-- A day of the original protocol over the network (original/party_one.cc:19-35, party_zero.cc:18-41); the second
component is the day's byte count of party zero (party_zero.h:58-60), which counts all five messages. -/
def dayOgNet (K : OgKeys G) (c cu : Codec G) (H : Nat → G) (hashOf : Nat → List Bool) (s : OgSt G)
    (xs ys : List Nat) (ρ : OgCoins G) : Outcome (OgSt G × Int) := do
  let (p1, m1) ← ogSendI c H hashOf K.pk1 K.b s.p1 ys ρ
  let r1 ← toServer (ogI m1)
  let m1' ← getOgI r1
  let (p0, m2) ← ogSendII c cu hashOf K.pk0 K.pk1 K.a s.p0 m1' xs ρ
  let r2 ← toClient (ogII m2)
  let m3 ← ogSendIII c K.pk0 K.b (getOgII r2) ρ
  let r3 ← toServer (.og (.iii m3))
  let m3' ← getOgIII r3
  let (p0, m4) ← ogSendIV c H K.a p0 m3' xs ρ
  let r4 ← toClient (.og (.iv m4))
  let m5 ← ogSendV c K.b (getOgIV r4)
  let r5 ← toServer (.og (.v m5))
  let m5' ← getOgV r5
  let p0 ← ogProcV c cu K.q p0 m5' xs
  pure (⟨p0, p1⟩, addComm (addComm (addComm (addComm (addComm 0 (serClient (ogI m1)).length) (serServer (ogII m2)).length)
    (serClient (.og (.iii m3))).length) (serServer (.og (.iv m4))).length) (serClient (.og (.v m5))).length)

/-! ### protocols with deletions -/

/-- `uint64_t += size_t`: deletion/party.h:97-99, deletion-psi/party.h:97-99. -/
def addComm64 (acc bytes : Nat) : Nat := (acc + bytes) % 2 ^ 64

/-- How a protocol writes its candidates into a message and reads them back. -/
structure DelFormat where
  pack : DelMsg → PMsg
  unpack : PMsg → DelMsg

/-- deletion: one flat list `candidates` (deletion/party_zero.cc:99-109, party_one.cc:65-75; read at party_zero.cc:80-86,
party_one.cc:52-58). -/
def flatFormat : DelFormat where
  pack m := ⟨some m.updates, if m.candidates.flatten = [] then none else some m.candidates.flatten, none⟩
  unpack m := ⟨m.updates.getD ⟨[], []⟩, [m.candidates.getD []]⟩

/-- deletion-psi: one entry of `candidates_vct` per element (deletion-psi/party_zero.cc:164-174, party_one.cc:103-113; read
at party_zero.cc:140-147, party_one.cc:87-94). -/
def groupFormat : DelFormat where
  pack m := ⟨some m.updates, none, if m.candidates = [] then none else some m.candidates⟩
  unpack m := ⟨m.updates.getD ⟨[], []⟩, m.vct.getD []⟩

/-- `Handle` of party one: deletion/party_one.cc:14-41, deletion-psi/party_one.cc:14-42. -/
def getDelI (F : DelFormat) : CMsg → Outcome DelMsg
  | .p0 (.i m) => .ok (F.unpack m)
  | .p0 _ => .err "received a party zero message of unknown type"
  | _ => .err "incorrect message type"

/-- `Handle` of party zero: deletion/party_zero.cc:26-42, deletion-psi/party_zero.cc:32-47. -/
def getDelII (F : DelFormat) : SMsg → Outcome DelMsg
  | .p1 (.ii m) => .ok (F.unpack m)
  | .p1 _ => .err "received a party one message of unknown type"
  | _ => .err "incorrect message type"

/-- Messages I and II of a round over the network.  The last two components are what the parties add to their byte counts:
party zero counts the whole request (party_zero.cc:65-67), party one only the inner message II (party_one.cc:77). -/
def roundNet (F : DelFormat) (mont : Int → Option Mont) (hashOf : Nat → List Bool) (k0 k1 : DKeys) (s0 s1 : DSt)
    (xs ys : List EP) (ρ : RoundCoins) : Outcome (DSt × DSt × RoundOut × Nat × Nat) := do
  let (s0', m1, g0) ← delGenI mont hashOf k0 s0 xs ρ
  let r1 ← toServer (.p0 (.i (F.pack m1)))
  let m1' ← getDelI F r1
  let (s1', m2, r1, g1) ← delGenII mont hashOf k1 s1 m1' ys ρ
  let r2 ← toClient (.p1 (.ii (F.pack m2)))
  let m2' ← getDelII F r2
  let (s0'', r0) ← delRecvII k0 s0' m2'
  pure (s0'', s1', ⟨g0, r1, g1, r0⟩, (serClient (.p0 (.i (F.pack m1)))).length, (serPMsg (F.pack m2)).length)

/-- A day of the deletion protocol over the network: deletion/party_zero.cc:44-50, run.cc:115-123. -/
def dayDelNet (ro : List UInt8 → Nat) (mont : Int → Option Mont) (hashOf : Nat → List Bool) (k0 k1 : DKeys)
    (s : StDel) (xs ys : List EP) (ρ : DelCoins) : Outcome (StDel × Nat × Nat) := do
  let (p0, p1, o, n0, n1) ← roundNet flatFormat mont hashOf k0 k1 s.p0 s.p1 xs ys ρ.round
  let f1 ← gcPhase ro mont k0.pk k1.sk false ρ.gc0 o.items0.flatten o.resp1.flatten
  let f2 ← gcPhase ro mont k1.pk k0.sk true ρ.gc1 o.items1.flatten o.resp0.flatten
  let rs := f1.sender + f2.receiver
  let other := f1.receiver + f2.sender
  pure (⟨p0, p1, s.result + (rs + other), s.trace ++ [f1, f2]⟩, addComm64 0 n0, addComm64 0 n1)

/-- A day of the deletion-psi protocol over the network: deletion-psi/party_zero.cc:50-64, party_one.cc:14-42, run.cc:114-118. -/
def dayDelPsiNet (ro : List UInt8 → Nat) (mont : Int → Option Mont) (hashOf : Nat → List Bool) (k0 k1 : DKeys)
    (s : StDelPsi) (xs ys : List EP) (ρ : DelPsiCoins) : Outcome (StDelPsi × Nat × Nat) := do
  let (a0, a1, o1, n0, n1) ← roundNet groupFormat mont hashOf k0 k1 s.p0 s.p1 (deletionsOf xs) (deletionsOf ys) ρ.round1
  let (b0, b1, o2, n0', n1') ← roundNet groupFormat mont hashOf k0 k1 a0 a1 (additionsOf xs) (additionsOf ys) ρ.round2
  let f0 ← gcGroups ro mont k0.pk k1.sk false ρ.gc0 0 (o1.items0 ++ o2.items0) (o1.resp1 ++ o2.resp1)
  let f1 ← gcGroups ro mont k1.pk k0.sk true ρ.gc1 0 (o1.items1 ++ o2.items1) (o1.resp0 ++ o2.resp0)
  let words := f0.map (fun f => (f.sender, f.receiver)) ++ f1.map (fun f => (f.receiver, f.sender))
  let us ← secondPhase mont k0.sk k1.pk ρ words
  let (r, inter) ← applyUpdates (s.result, s.inter) (us.map signed)
  pure (⟨b0, b1, r, inter, s.trace ++ f0 ++ f1, s.updates ++ [us.map signed]⟩,
    addComm64 (addComm64 0 n0) n0', addComm64 (addComm64 0 n1) n1')

end Upsi.Main
