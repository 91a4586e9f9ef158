import Verif.Base
/-
Model of the transport shell: `upsi/network/service.cc`, `upsi/network/connection.h`, `upsi/network/message_sink.h`.
gRPC delivers one request and one response per call, or an error status.
-/
namespace Upsi.Role
open Upsi

/-- `absl::StatusCode` of a non-OK status (the two that are tested for, and all others). -/
inductive Code where
  | invalidArgument | internal | other (n : Nat)
  deriving DecidableEq

/-- `absl::Status`. -/
inductive Status where
  | ok
  | error (code : Code) (message : String)
  deriving DecidableEq

/-- `grpc::StatusCode` (the ones used). -/
inductive GCode where
  | invalidArgument | internal | unknown
  deriving DecidableEq

/-- The numbers `absl::StrCat` prints for the codes (grpc/status.h: UNKNOWN 2, INVALID_ARGUMENT 3, INTERNAL 13). -/
def GCode.number : GCode → Nat
  | .unknown => 2 | .invalidArgument => 3 | .internal => 13

/-- `grpc::Status`. -/
inductive GStatus where
  | ok
  | error (code : GCode) (message : String)
  deriving DecidableEq

/-- `ConvertStatus`: service.cc:11-25. -/
def convertStatus : Status → GStatus
  | .ok => .ok
  | .error .invalidArgument m => .error .invalidArgument m
  | .error .internal m => .error .internal m
  | .error (.other _) m => .error .unknown m

/-- What a request handler does with its sink: it sends messages, looking at the status of each `Send`, and finally
returns a status.  Handlers are arbitrary such programs. -/
inductive Handler (M : Type) where
  | done (s : Status)
  | send (m : M) (k : Status → Handler M)

/-- `ServerSink`: service.cc:27-48 (the response object and the flag). -/
structure Sink (M : Type) where
  response : M
  sent : Bool

/-- `ServerSink::Send`: service.cc:33-43. -/
def Sink.send (s : Sink M) (m : M) : Sink M × Status :=
  if s.sent = false then (⟨m, true⟩, .ok)
  else (s, .error .invalidArgument "ServerSink can only accept a single message.")

/-- Running a handler on a sink. -/
def Handler.run : Handler M → Sink M → Sink M × Status
  | .done st, s => (s, st)
  | .send m k, s => let r := s.send m; (k r.2).run r.1

/-- `UPSIService::Handle`: service.cc:52-60; `blank` is the fresh response object gRPC passes. -/
def serviceHandle (blank : M) (h : Handler M) : M × GStatus :=
  let r := h.run ⟨blank, false⟩
  (r.1.response, convertStatus r.2)

/-- `Connection`: connection.h (only `response_`). -/
structure Conn (M : Type) where
  response : M

/-- `Connection::Send`: connection.h:31-49, given what the call to the service yields.  On a failed call the stored
response is left as it was. -/
def Conn.send (c : Conn M) (reply : M × GStatus) : Conn M × Status :=
  match reply.2 with
  | .ok => (⟨reply.1⟩, .ok)
  | .error code m =>
    (c, .error .internal ("[ClientMessageSink] failed to send message, error code: " ++ toString code.number ++
      ", error_message: \n" ++ m))

end Upsi.Role
