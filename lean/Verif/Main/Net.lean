import Verif.Wire.Props
import Verif.Proto.SSModel
import Verif.Proto.AddProps
import Verif.Proto.SSProps
/-
Model of the addition-only protocols over the network: the messages of a day are turned into bytes, transported by gRPC with
its size limit, and parsed by the peer; each party uses the public key of its own key file.  The bytes are counted as
`PartyOne::AddComm` does.
-/
namespace Upsi.Main
open Upsi Upsi.Rec Upsi.ElGamal Upsi.Tree Upsi.Proto Upsi.Setup Upsi.Wire Upsi.Num

/-- The largest message either side accepts: addition/run.cc:90-91, 147-149 (the same in the other `run.cc`). -/
def maxMessage : Nat := 1024 * 1024 * 1024

/-- A request on its way to the server (connection.h:37-55): a larger message is refused by gRPC. -/
def toServer (m : CMsg) : Outcome CMsg :=
  if (serClient m).length ≤ maxMessage then .ok (parseClient (serClient m)) else .err "[ClientMessageSink] failed to send message"

/-- The response on its way to the client (service.cc:47-55). -/
def toClient (m : SMsg) : Outcome SMsg :=
  if (serServer m).length ≤ maxMessage then .ok (parseServer (serServer m)) else .err "[ClientMessageSink] failed to send message"

/-- `int += size_t` (addition/party_one.h:28-30): wraps at 32 bits. -/
def addComm (acc : Int) (bytes : Nat) : Int := int32 (acc + bytes)

/-- Messages I and II as the code fills them: `updates` is always touched, `candidates` only when an element is added
(addition/party_zero.cc:171-196, party_one.cc:236-250). -/
def toPMsg (m : ProtoMsg) : PMsg := ⟨some m.updates, if m.candidates = [] then none else some m.candidates, none⟩

/-- Getters of absent fields return empty messages. -/
def ofPMsg (m : PMsg) : ProtoMsg := ⟨m.updates.getD ⟨[], []⟩, m.candidates.getD []⟩

/-- The request of message I. -/
def reqI (m : ProtoMsg) : CMsg := .p0 (.i (toPMsg m))
/-- The response with message II. -/
def resII (m : ProtoMsg) : SMsg := .p1 (.ii (toPMsg m))

/-- `Handle` of the server, the branch for message I: addition/party_one.cc:18-44, 48-62, 86-103. -/
def getI : CMsg → Outcome ProtoMsg
  | .p0 (.i m) => .ok (ofPMsg m)
  | .p0 _ => .err "received a party zero message of unknown type"
  | _ => .err "incorrect message type"

/-- `Handle` of the client, the branch for message II: addition/party_zero.cc:52-72, 101-120. -/
def getII : SMsg → Outcome ProtoMsg
  | .p1 (.ii m) => .ok (ofPMsg m)
  | .p1 _ => .err "received a party one message of unknown type"
  | _ => .err "incorrect message type"

/-- `Handle` of `PartyOneSum`, the branch for message III: addition/party_one.cc:63-70. -/
def getIII : CMsg → Outcome CtProto
  | .p0 (.iiiSum m) => .ok (m.getD ⟨[], []⟩)
  | .p0 _ => .err "received a party zero message of unknown type"
  | _ => .err "incorrect message type"

/-- `Handle` of `PartyZeroSum`, the branch for message IV: addition/party_zero.cc:111-112. -/
def getIV : SMsg → Outcome CtProto
  | .p1 (.iv m) => .ok (m.getD ⟨[], []⟩)
  | .p1 _ => .err "received a party one message of unknown type"
  | _ => .err "incorrect message type"

/-- `Handle` of `PartyOneSecretShare`, the branch for message III: addition/party_one.cc:104-108. -/
def getShares : CMsg → Outcome (List Bytes)
  | .p0 (.iiiSS l) => .ok l
  | .p0 _ => .err "received a party zero message of unknown type"
  | _ => .err "incorrect message type"

variable {G : Type} [AddCommGroup G] [DecidableEq G]

/-- Messages I and II of one day over the network (addition/party_zero.cc:28-50, party_one.cc:18-44); the last component is
the day's byte count of party one. -/
def exchangeNet (F : Func G P γ κ) (c : Codec G) (hashOf : Nat → List Bool) (pk0 pk1 : PK G) (sk1 : Int)
    (s0 : St0 G P) (s1 : St1 γ) (xs : List P) (ys : List Nat) (ρ : Coins G P κ) :
    Outcome (St0 G P × St1 γ × List (Ct G × κ) × Int) := do
  let (s0', m1) ← genI F hashOf pk0 s0 xs ρ
  let r1 ← toServer (reqI m1)
  let m1' ← getI r1
  let (s1', m2) ← genII F c hashOf pk1 sk1 s1 m1' ys ρ
  let r2 ← toClient (resII m2)
  let m2' ← getII r2
  let (s0'', cands) ← recvII F c s0' m2'
  pure (s0'', s1', cands, addComm (addComm 0 (serClient (reqI m1)).length) (serServer (resII m2)).length)

/-- A day of the cardinality protocol over the network. -/
def dayCANet (c : Codec G) (hashOf : Nat → List Bool) (pk0 pk1 : PK G) (sk0 sk1 : Int) (s : StCA G)
    (xs ys : List Nat) (ρ : Coins G Nat Unit) : Outcome (StCA G × Int) := do
  let (p0, p1, cands, n) ← exchangeNet (funcCA c) c hashOf pk0 pk1 sk1 s.p0 s.p1 xs ys ρ
  pure (⟨p0, p1, countLoop sk0 cands s.cardinality⟩, n)

/-- A day of the PSI protocol over the network. -/
def dayPSINet (c cu : Codec G) (hashOf : Nat → List Bool) (pk0 pk1 : PK G) (sk0 sk1 : Int) (s : StPSI G)
    (xs ys : List Nat) (ρ : Coins G Nat (Ct G)) : Outcome (StPSI G × Int) := do
  let m ← recordAll cu pk0 xs s.mapping
  let (p0, p1, cands, n) ← exchangeNet (funcPSI c cu) c hashOf pk0 pk1 sk1 s.p0 s.p1 xs ys ρ
  let out ← psiLoop cu sk0 m cands s.intersection
  pure (⟨p0, p1, m, out⟩, n)

/-- A day of the sum protocol over the network: addition/party_zero.cc:328-363, 425-443, 463-477, party_one.cc:63-70,
324-344. -/
def daySumNet (c : Codec G) (limit : Nat) (hashOf : Nat → List Bool) (pk0 pk1 : PK G) (sk0 sk1 : Int)
    (s : StSum G) (xs : List (Nat × Int)) (ys : List Nat) (ρ : Coins G (Nat × Int) (Ct G)) :
    Outcome (StSum G × Int) := do
  let (p0, p1, cands, b) ← exchangeNet (funcSum c) c hashOf pk0 pk1 sk1 s.p0 s.p1 xs ys ρ
  let (n, sum) := sumLoop sk0 cands s.cardinality (encrypt pk0 (ρ.last 0 0) 0)
  let m3 ← serializeCt c sum
  let r3 ← toServer (.p0 (.iiiSum (some m3)))
  let m3' ← getIII r3
  let sum1 ← deserializeCt c m3'
  let m4 ← serializeCt c (partialDecrypt sk1 sum1)
  let r4 ← toClient (.p1 (.iv (some m4)))
  let m4' ← getIV r4
  let sum2 ← deserializeCt c m4'
  let big ← decryptExp sk0 (initDecryptExp pk0.g limit) sum2
  let v ← toIntValue big
  pure (⟨p0, p1, n, s.sum + v⟩, addComm (addComm b (serClient (.p0 (.iiiSum (some m3)))).length)
    (serServer (.p1 (.iv (some m4)))).length)

/-- A day of the secret-sharing protocol over the network: addition/party_zero.cc:365-405, 445-459, party_one.cc:82-113,
414-428.  The response to message III is empty. -/
def daySSNet (c : Codec G) (mont : Int → Option Mont) (a b : TPaillier) (hashOf : Nat → List Bool)
    (pk0 pk1 : PK G) (sk0 sk1 : Int) (s : StSS G) (xs : List (Nat × Int)) (ys : List Nat)
    (ρ : Coins G (Nat × Int) Int) : Outcome (StSS G × Int) := do
  let (p0, p1, cands, n) ← exchangeNet (funcSS c mont a b) c hashOf pk0 pk1 sk1 s.p0 s.p1 (xs.map getPayloadSS) ys ρ
  let (sh0, pays) ← ssLoop mont a sk0 ρ.last 0 cands s.shares0 []
  let r3 ← toServer (.p0 (.iiiSS pays))
  let pays' ← getShares r3
  let sh1 ← ssRecv b pays' s.shares1
  pure (⟨p0, p1, sh0, sh1⟩, addComm n (serClient (.p0 (.iiiSS pays))).length)

/-- A run over the days: the state and the byte counts of the days. -/
def runNet (step : σ → δ → Outcome (σ × ν)) : σ → List δ → Outcome (σ × List ν)
  | s, [] => .ok (s, [])
  | s, d :: ds => do
    let (s', n) ← step s d
    let (s'', ns) ← runNet step s' ds
    pure (s'', n :: ns)

end Upsi.Main
