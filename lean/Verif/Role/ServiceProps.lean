import Verif.Role.Service
/-
Property theorems C51.
-/
namespace Upsi.Role
open Upsi

/-- Specification: the first message a handler sends. -/
def Handler.firstSent : Handler M → Option M
  | .done _ => none
  | .send m _ => some m

/-- Specification: the status with which a handler ends when its first send succeeds and all later ones fail. -/
def Handler.verdict (first : Bool) : Handler M → Status
  | .done s => s
  | .send _ k => (k (if first then .ok else .error .invalidArgument "ServerSink can only accept a single message.")).verdict false

theorem run_sent : ∀ (h : Handler M) (s : Sink M), s.sent = true → h.run s = (s, h.verdict false) := by
  intro h
  induction h with
  | done st => intro s _; rfl
  | send m k ih =>
    intro s hs
    simp only [Handler.run, Sink.send, hs, Handler.verdict]
    exact ih _ s hs

/-- **C51** For every handler: the response is the first message it sends (the blank response if it sends none), later
messages are refused and never replace it, and the status is the handler's own. -/
theorem C51_single_response (blank : M) (h : Handler M) :
    serviceHandle blank h = ((h.firstSent).getD blank, convertStatus (h.verdict true)) := by
  cases h with
  | done s => rfl
  | send m k =>
    simp only [serviceHandle, Handler.run, Sink.send, if_true, Handler.firstSent, Option.getD_some]
    rw [run_sent (k .ok) ⟨m, true⟩ rfl]
    rfl

/-- **C51** A handler that tries to send twice and passes on the status gets an error to the client. -/
theorem C51_second_send (blank a b : M) :
    serviceHandle blank (.send a (fun _ => .send b (fun s => .done s))) =
      (a, .error .invalidArgument "ServerSink can only accept a single message.") := rfl

/-- **C51** Status translation: OK exactly for OK, and the message is kept for every error; the code is kept for the two
codes the project uses. -/
theorem C51_status (s : Status) :
    (convertStatus s = .ok ↔ s = .ok) ∧
    (∀ c m, s = .error c m → ∃ g, convertStatus s = .error g m ∧
      (c = .invalidArgument → g = .invalidArgument) ∧ (c = .internal → g = .internal)) := by
  cases s with
  | ok => simp [convertStatus]
  | error c m => cases c <;> simp [convertStatus]

/-- **C51** End to end: the client's `Send` succeeds exactly when the handler returned OK, and then the stored response is
the message the handler sent (or the blank one); on failure the client gets an internal error that contains the handler's
message, and its stored response is unchanged. -/
theorem C51_end_to_end (c : Conn M) (blank : M) (h : Handler M) :
    (h.verdict true = .ok → c.send (serviceHandle blank h) = (⟨(h.firstSent).getD blank⟩, .ok)) ∧
    (∀ code m, h.verdict true = .error code m → ∃ pre, c.send (serviceHandle blank h) = (c, .error .internal (pre ++ m))) := by
  rw [C51_single_response]
  constructor
  · intro hv; simp [Conn.send, hv, convertStatus]
  · intro code m hv
    cases code <;> exact ⟨_, by simp only [Conn.send, hv, convertStatus]; rfl⟩

/-- Non-vacuity: a handler that inspects the status of its send. -/
example : serviceHandle (0 : Nat) (.send 7 (fun s => if s = .ok then .send 8 (fun _ => .done .ok) else .done s)) = (7, .ok) := rfl
example : (serviceHandle (0 : Nat) (.done (.error .internal "x"))).2 = .error .internal "x" := rfl

end Upsi.Role
