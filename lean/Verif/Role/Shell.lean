import Verif.Role.Service
/-
Model of the protocol roles: day counters, message dispatch, communication counters and run loops of
`upsi/roles.h`, `upsi/addition/party_zero.cc`, `upsi/addition/party_one.cc`, `upsi/addition/party_one.h`,
`upsi/deletion/party_one.{h,cc}`, `upsi/deletion-psi/party_one.{h,cc}`.

What a party computes from a message (trees, cryptography) is a parameter: the theorems hold for every computation.  A
computation can fail, and on the server side its state may have changed nevertheless (`σ × Outcome _`).
Message contents are arbitrary types, `size` is `ByteSizeLong`.
-/
namespace Upsi.Role
open Upsi

/-- `PartyZeroMessage` (upsi.proto): contents by kind; `none` when the `oneof` is not set. -/
inductive P0Body (I S X : Type) where
  | i (m : I) | iiiSum (m : S) | iiiSS (m : X) | none

/-- `ClientMessage` (upsi.proto). -/
inductive ClientMsg (I S X : Type) where
  | p0 (b : P0Body I S X) | og | none

/-- `PartyOneMessage` (upsi.proto). -/
inductive P1Body (II IV : Type) where
  | ii (m : II) | iv (m : IV) | none

/-- `ServerMessage` (upsi.proto). -/
inductive ServerMsg (II IV : Type) where
  | p1 (b : P1Body II IV) | og | none

/-- The computations of party one: `GenerateMessageII` (with the index of the day whose data set is used),
`ProcessMessageIII` of the sum and of the secret-share protocol; and the two message sizes. -/
structure Biz1 (σ I S X II IV : Type) where
  genII : σ → I → Nat → σ × Outcome II
  procSum : σ → S → σ × Outcome IV
  procSS : σ → X → σ × Outcome Unit
  sizeC : ClientMsg I S X → Nat
  sizeS : ServerMsg II IV → Nat

/-- Party one: `current_day`, `total_days` (roles.h:16-22), `comm_` (addition/party_one.h:46). -/
structure Srv (σ : Type) where
  biz : σ
  day : Nat
  total : Nat
  comm : List Int

/-- Conversion to `int` (32 bits, two's complement). -/
def wrap32 (x : Int) : Int := (x + 2 ^ 31) % 2 ^ 32 - 2 ^ 31

/-- `AddComm`: addition/party_one.h:27-29; `comm_` is a vector of `int`. -/
def Srv.addComm (s : Srv σ) (n : Nat) : Srv σ :=
  { s with comm := s.comm.modify s.day (fun c => wrap32 (c + n)) }

/-- `ProtocolRole::FinishDay`: roles.h:26-28. -/
def Srv.finishDay (s : Srv σ) : Srv σ := { s with day := s.day + 1 }

/-- `ProtocolRole::ProtocolFinished`: roles.h:31-33. -/
def Srv.finished (s : Srv σ) : Bool := s.day ≥ s.total

/-- The start: roles.h:16-22, addition/party_one.h:18-25. -/
def Srv.init (biz : σ) (total : Nat) : Srv σ := ⟨biz, 0, total, List.replicate total 0⟩

/-- The three dispatchers of addition/party_one.cc. -/
inductive Variant where
  | noPayload | sum | secretShare
  deriving DecidableEq

variable {σ I S X II IV : Type}

/-- The part of `Handle` that answers a message I: addition/party_one.cc:30-38 (`finish`: no payload), 65-71, 101-108. -/
def answerI (B : Biz1 σ I S X II IV) (finish : Bool) (s : Srv σ) (m : I) : Srv σ × Outcome (Option (ServerMsg II IV)) :=
  let r := B.genII s.biz m s.day
  let s := { s with biz := r.1 }
  match r.2 with
  | .ok ii =>
    let res : ServerMsg II IV := .p1 (.ii ii)
    let s := s.addComm (B.sizeS res)
    (if finish then s.finishDay else s, .ok (some res))
  | .err e => (s, .err e)
  | .abort => (s, .abort)
  | .ub => (s, .ub)

/-- The sum protocol's answer to message III: addition/party_one.cc:72-79. -/
def answerSum (B : Biz1 σ I S X II IV) (s : Srv σ) (m : S) : Srv σ × Outcome (Option (ServerMsg II IV)) :=
  let r := B.procSum s.biz m
  let s := { s with biz := r.1 }
  match r.2 with
  | .ok iv =>
    let res : ServerMsg II IV := .p1 (.iv iv)
    ((s.addComm (B.sizeS res)).finishDay, .ok (some res))
  | .err e => (s, .err e)
  | .abort => (s, .abort)
  | .ub => (s, .ub)

/-- The secret-share protocol's reaction to message III: addition/party_one.cc:109-113; nothing is sent. -/
def answerSS (B : Biz1 σ I S X II IV) (s : Srv σ) (m : X) : Srv σ × Outcome (Option (ServerMsg II IV)) :=
  let r := B.procSS s.biz m
  let s := { s with biz := r.1 }
  match r.2 with
  | .ok _ => (s.finishDay, .ok none)
  | .err e => (s, .err e)
  | .abort => (s, .abort)
  | .ub => (s, .ub)

/-- The dispatch on the kind of party-zero message: addition/party_one.cc:30-46, 65-88, 101-119. -/
def dispatch (v : Variant) (B : Biz1 σ I S X II IV) (s : Srv σ) (b : P0Body I S X) :
    Srv σ × Outcome (Option (ServerMsg II IV)) :=
  match v, b with
  | .noPayload, .i m => answerI B true s m
  | .sum, .i m => answerI B false s m
  | .secretShare, .i m => answerI B false s m
  | .sum, .iiiSum m => answerSum B s m
  | .secretShare, .iiiSS m => answerSS B s m
  | _, _ => (s, .err "received a party zero message of unknown type")

/-- `PartyOneNoPayload::Handle`, `PartyOneSum::Handle`, `PartyOneSecretShare::Handle`: addition/party_one.cc:19-46, 49-83,
85-119.  The result `ok (some m)` stands for the final `return sink->Send(m)`, `ok none` for `return OkStatus()`. -/
def Srv.handle (v : Variant) (B : Biz1 σ I S X II IV) (s : Srv σ) (req : ClientMsg I S X) :
    Srv σ × Outcome (Option (ServerMsg II IV)) :=
  if s.finished then (s, .err "protocol is already complete")
  else match req with
    | .p0 b => dispatch v B (s.addComm (B.sizeC req)) b
    | _ => (s, .err "incorrect message type")

/-- The server answering a sequence of requests; a crash ends the process. -/
def serve (v : Variant) (B : Biz1 σ I S X II IV) : Srv σ → List (ClientMsg I S X) →
    Srv σ × List (Outcome (Option (ServerMsg II IV)))
  | s, [] => (s, [])
  | s, r :: rs =>
    let a := s.handle v B r
    match a.2 with
    | .abort => (a.1, [.abort])
    | .ub => (a.1, [.ub])
    | o => let b := serve v B a.1 rs; (b.1, o :: b.2)

/-- `PartyOne::PrintComm`: addition/party_one.h:31-40; `total` is `unsigned long long`, a negative `int` is converted
modulo `2^64`. -/
def Srv.printComm (s : Srv σ) : List Int × Nat :=
  (s.comm, s.comm.foldl (fun t c => (((t : Int) + c) % 2 ^ 64).toNat) 0)

/-! ### Party zero -/

/-- The computations of party zero: `GenerateMessageI`, `ProcessMessageII`, the computing part of `SendMessageIII` (both
protocols with payload; the day only selects the coins), `ProcessMessageIV`.  An error ends party zero, so its state after an error is irrelevant. -/
structure Biz0 (τ I S X II IV : Type) where
  genI : τ → Nat → Outcome (τ × I)
  procII : τ → II → Outcome τ
  sendSum : τ → II → Nat → Outcome (τ × S)
  sendSS : τ → II → Nat → Outcome (τ × X)
  procIV : τ → IV → Outcome τ

/-- Party zero: `current_day`, `total_days`. -/
structure Cli (τ : Type) where
  biz : τ
  day : Nat
  total : Nat

def Cli.finished (c : Cli τ) : Bool := c.day ≥ c.total
def Cli.finishDay (c : Cli τ) : Cli τ := { c with day := c.day + 1 }

/-- Both processes and the connection's stored response (connection.h:52-54). -/
structure World (τ σ II IV : Type) where
  cli : Cli τ
  srv : Srv σ
  response : ServerMsg II IV

variable {τ : Type}

/-- `Connection::Send` through the service (C51): the server handles the request; on OK the stored response is what it
sent, or a blank message.  A server crash ends the run. -/
def World.send (v : Variant) (B1 : Biz1 σ I S X II IV) (w : World τ σ II IV) (req : ClientMsg I S X) :
    Outcome (World τ σ II IV) :=
  let a := w.srv.handle v B1 req
  match a.2 with
  | .ok (some m) => .ok { w with srv := a.1, response := m }
  | .ok none => .ok { w with srv := a.1, response := .none }
  | .err e => .err e
  | .abort => .abort
  | .ub => .ub

/-- `SendMessageI`: addition/party_zero.cc:43-50, 87-94. -/
def sendI (v : Variant) (B0 : Biz0 τ I S X II IV) (B1 : Biz1 σ I S X II IV) (w : World τ σ II IV) : Outcome (World τ σ II IV) := do
  let (t, m) ← B0.genI w.cli.biz w.cli.day
  World.send v B1 { w with cli := { w.cli with biz := t } } (.p0 (.i m))

/-- What party zero does with a message II: `ProcessMessageII` and `FinishDay` (addition/party_zero.cc:279-326);
`PartyZeroSum::SendMessageIII` (328-362); `PartyZeroSecretShare::SendMessageIII` (364-405: the day is finished before the
message is sent). -/
def onII (v : Variant) (B0 : Biz0 τ I S X II IV) (B1 : Biz1 σ I S X II IV) (w : World τ σ II IV) (m : II) : Outcome (World τ σ II IV) :=
  match v with
  | .noPayload => do
    let t ← B0.procII w.cli.biz m
    pure { w with cli := Cli.finishDay { w.cli with biz := t } }
  | .sum => do
    let (t, r) ← B0.sendSum w.cli.biz m w.cli.day
    World.send v B1 { w with cli := { w.cli with biz := t } } (.p0 (.iiiSum r))
  | .secretShare => do
    let (t, r) ← B0.sendSS w.cli.biz m w.cli.day
    World.send v B1 { w with cli := Cli.finishDay { w.cli with biz := t } } (.p0 (.iiiSS r))

/-- What party zero does with a message IV: `PartyZeroSum::ProcessMessageIV` (addition/party_zero.cc:463-477); nothing in the
secret-share protocol (479-482); not accepted without payload. -/
def onIV (v : Variant) (B0 : Biz0 τ I S X II IV) (w : World τ σ II IV) (m : IV) : Outcome (World τ σ II IV) :=
  match v with
  | .noPayload => .err "received a party one message of unknown type"
  | .sum => do
    let t ← B0.procIV w.cli.biz m
    pure { w with cli := Cli.finishDay { w.cli with biz := t } }
  | .secretShare => .ok w

/-- `PartyZeroNoPayload::Handle`, `PartyZeroWithPayload::Handle`: addition/party_zero.cc:52-73, 96-117. -/
def handle0 (v : Variant) (B0 : Biz0 τ I S X II IV) (B1 : Biz1 σ I S X II IV) (w : World τ σ II IV) (msg : ServerMsg II IV) :
    Outcome (World τ σ II IV) :=
  if w.cli.finished then .err "protocol is already complete"
  else match msg with
    | .p1 (.ii m) => onII v B0 B1 w m
    | .p1 (.iv m) => onIV v B0 w m
    | .p1 .none => .err "received a party one message of unknown type"
    | _ => .err "incorrect message type"

/-- The body of the `while` loop of `Run`: addition/party_zero.cc:30-38, 425-436, 444-453. -/
def runBody (v : Variant) (B0 : Biz0 τ I S X II IV) (B1 : Biz1 σ I S X II IV) (w : World τ σ II IV) : Outcome (World τ σ II IV) := do
  let w ← sendI v B0 B1 w
  let w ← handle0 v B0 B1 w w.response
  match v with
  | .sum => handle0 v B0 B1 w w.response
  | _ => pure w

/-- `Run`: addition/party_zero.cc:28-41, 423-440, 442-457; `ok none`: still running after `fuel` rounds. -/
def runLoop (v : Variant) (B0 : Biz0 τ I S X II IV) (B1 : Biz1 σ I S X II IV) : Nat → World τ σ II IV → Outcome (Option (World τ σ II IV))
  | 0, w => if w.cli.finished then .ok (some w) else .ok none
  | fuel + 1, w =>
    if w.cli.finished then .ok (some w)
    else do
      let w ← runBody v B0 B1 w
      runLoop v B0 B1 fuel w

/-! ### Party one with deletions: one server per day -/

/-- `deletion::PartyOne` / `deletion_psi::PartyOne`: the flags, `current_day`, and `comm_` (64-bit counters,
deletion/party.h:33).  `two` tells the two-round protocol of deletion-psi. -/
structure DSrv (σ : Type) where
  biz : σ
  day : Nat
  dayFinished : Bool
  firstRound : Bool
  comm : List Nat

/-- The start. -/
def DSrv.init (biz : σ) (total : Nat) : DSrv σ := ⟨biz, 0, false, false, List.replicate total 0⟩

/-- `Reset`: deletion/party_one.h:47-49, deletion-psi/party_one.h:53-56. -/
def DSrv.reset (s : DSrv σ) : DSrv σ := { s with dayFinished := false, firstRound := false }

/-- `FinishDay`: deletion/party_one.h:51-54, deletion-psi/party_one.h:58-61. -/
def DSrv.finishDay (two : Bool) (s : DSrv σ) : DSrv σ :=
  if two && !s.firstRound then { s with firstRound := true }
  else { s with dayFinished := true, day := s.day + 1 }

/-- The computation of a deletion server: `GenerateMessageII` for the data of a day and round (round `true`: additions of
deletion-psi), with the size of the message it returns. -/
structure DBiz (σ I II : Type) where
  genII : σ → I → Nat → Bool → σ × Outcome II
  size : II → Nat

/-- `Handle`: deletion/party_one.cc:14-41, deletion-psi/party_one.cc:14-42, including `AddComm(response, current_day)` at
the end of `GenerateMessageII` (deletion/party_one.cc:77, deletion-psi/party_one.cc:115).  `datasets[current_day]` and
`comm_[current_day]` outside the vectors are out-of-bounds accesses; the data set is read before `GenerateMessageII` is
called. -/
def DSrv.handle (two : Bool) (B : DBiz σ I II) (s : DSrv σ) (req : ClientMsg I S X) : DSrv σ × Outcome (Option (ServerMsg II IV)) :=
  if s.dayFinished then (s, .err "protocol is already complete")
  else match req with
    | .p0 (.i m) =>
      if s.day < s.comm.length then
        let r := B.genII s.biz m s.day (two && s.firstRound)
        let s := { s with biz := r.1 }
        match r.2 with
        | .ok ii =>
          (DSrv.finishDay two { s with comm := s.comm.modify s.day (fun c => (c + B.size ii) % 2 ^ 64) }, .ok (some (.p1 (.ii ii))))
        | .err e => (s, .err e)
        | .abort => (s, .abort)
        | .ub => (s, .ub)
      else (s, .ub)
    | .p0 _ => (s, .err "received a party zero message of unknown type")
    | _ => (s, .err "incorrect message type")

/-- The requests of one day; a crash ends the process. -/
def dserve (two : Bool) (B : DBiz σ I II) : DSrv σ → List (ClientMsg I S X) → DSrv σ × List (Outcome (Option (ServerMsg II IV)))
  | s, [] => (s, [])
  | s, r :: rs =>
    let a := s.handle two B r
    match a.2 with
    | .abort => (a.1, [.abort])
    | .ub => (a.1, [.ub])
    | o => let b := dserve two B a.1 rs; (b.1, o :: b.2)

/-- `Party::PrintComm`: deletion/party.h:105-116, for message bytes `comm` and the cumulative garbled-circuit counter `gc`
after each day (`StoreCommGC`, 101-103): the printed pairs and the printed total (64-bit).  Without any day,
`comm_gc[cnt - 1]` is out of bounds. -/
def printCommGC (comm gc : List Nat) : Outcome (List (Nat × Nat) × Nat) :=
  match gc.getLast? with
  | none => .ub
  | some last =>
    .ok (comm.zip (gc.zipWith (fun a b => (a + 2 ^ 64 - b) % 2 ^ 64) (0 :: gc)), (comm.foldl (fun t c => (t + c) % 2 ^ 64) 0 + last) % 2 ^ 64)

end Upsi.Role
