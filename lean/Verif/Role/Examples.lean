import Verif.Role.DelProps
import Verif.Role.Refine
/-
Concrete cases for C50 and C52, and what the code does not guarantee.
-/
namespace Upsi.Role
open Upsi

/-- A small party one: messages are numbers; the state is the list of `(day, message)` processed; message 0 fails. -/
def toy1 : Biz1 (List (Nat × Nat)) Nat Nat Nat Nat Nat where
  genII s m d := if m = 0 then (s, .err "bad") else (s ++ [(d, m)], .ok (m + 1))
  procSum s m := if m = 0 then (s, .err "bad") else (s, .ok (m + 2))
  procSS s m := if m = 0 then (s, .err "bad") else (s, .ok ())
  sizeC _ := 10
  sizeS _ := 7

/-- A small party zero. -/
def toy0 : Biz0 (List Nat) Nat Nat Nat Nat Nat where
  genI t d := .ok (t, d + 1)
  procII t m := .ok (t ++ [m])
  sendSum t m _ := .ok (t ++ [m], m)
  sendSS t m _ := .ok (t ++ [m], m)
  procIV t m := .ok (t ++ [m])

/-- Two days, with a rejected kind, a failing message and a request after the end: the days are 0 and 1, each processed once. -/
example :
    let r := serve .noPayload toy1 (Srv.init [] 2) [.og, .p0 (.i 5), .p0 (.iiiSum 1), .p0 (.i 0), .p0 (.i 6), .p0 (.i 7)]
    (r.1.day, r.1.biz, r.1.finished, r.2.map Outcome.isOk) = (2, [(0, 5), (1, 6)], true, [false, true, false, false, true, false]) := by
  decide

example : daysDone .noPayload [(.og : ClientMsg Nat Nat Nat), .p0 (.i 5), .p0 (.i 6)]
    (serve .noPayload toy1 (Srv.init [] 2) [.og, .p0 (.i 5), .p0 (.i 6)]).2 = 2 := by decide

/-- The printed bytes of that run: day 0 counts 17 bytes, day 1 counts the rejected and failing requests too. -/
example :
    (serve .noPayload toy1 (Srv.init [] 2) [.og, .p0 (.i 5), .p0 (.iiiSum 1), .p0 (.i 0), .p0 (.i 6), .p0 (.i 7)]).1.printComm =
      ([17, 37], 54) := by decide

example : ∀ d < 2, ledger .noPayload toy1 0 [(.p0 (.i 5) : ClientMsg Nat Nat Nat), .p0 (.i 6)]
    (serve .noPayload toy1 (Srv.init [] 2) [.p0 (.i 5), .p0 (.i 6)]).2 d < 2 ^ 31 := by decide

/-- C50, what is not enforced with payload: the order of the messages within a day.  A third message before the first
ends the day although the day's data set was never used. -/
theorem C50_order_not_enforced :
    let r := serve .sum toy1 (Srv.init [] 2) [.p0 (.iiiSum 3), .p0 (.i 4), .p0 (.iiiSum 5)]
    r.2.map Outcome.isOk = [true, true, true] ∧ r.1.finished = true ∧ r.1.biz = [(1, 4)] := by decide

/-- C50, also not enforced: repeating the first message processes the day's data set twice. -/
theorem C50_repeat_not_rejected :
    let r := serve .secretShare toy1 (Srv.init [] 1) [.p0 (.i 4), .p0 (.i 4), .p0 (.iiiSS 5)]
    r.2.map Outcome.isOk = [true, true, true] ∧ r.1.finished = true ∧ r.1.biz = [(0, 4), (0, 4)] := by decide

/-- Complete runs of the three protocols over three days. -/
example : ((runLoop .noPayload toy0 toy1 3 (World.start [] [] 3)) >>= fun r => Outcome.ok (r.map fun w => (w.cli.day, w.srv.day, w.cli.biz, w.srv.biz))) =
    .ok (some (3, 3, [2, 3, 4], [(0, 1), (1, 2), (2, 3)])) := by rfl
example : ((runLoop .sum toy0 toy1 3 (World.start [] [] 3)) >>= fun r => Outcome.ok (r.map fun w => (w.cli.day, w.srv.day, w.cli.biz, w.srv.biz))) =
    .ok (some (3, 3, [2, 4, 3, 5, 4, 6], [(0, 1), (1, 2), (2, 3)])) := by rfl
example : ((runLoop .secretShare toy0 toy1 3 (World.start [] [] 3)) >>= fun r => Outcome.ok (r.map fun w => (w.cli.day, w.srv.day, w.cli.biz, w.srv.biz))) =
    .ok (some (3, 3, [2, 3, 4], [(0, 1), (1, 2), (2, 3)])) := by rfl

/-- A small deletion server. -/
def toyD : DBiz (List (Nat × Bool)) Nat Nat where
  genII s m d a := if m = 0 then (s, .err "bad") else (s ++ [(d, a)], .ok (m + 1))
  size m := m

/-- Deletion-psi: two requests a day, a third is rejected; two days. -/
example :
    let d1 : DSrv _ × List (Outcome (Option (ServerMsg Nat Nat))) :=
      dserve true toyD (DSrv.init [] 2).reset [(.p0 (.i 5) : ClientMsg Nat Nat Nat), .p0 (.i 0), .p0 (.i 6), .p0 (.i 7)]
    (d1.1.day, d1.1.dayFinished, d1.1.biz, d1.1.comm, accepted d1.2) = (1, true, [(0, false), (0, true)], [13, 0], 2) := by decide

example : ((drun true (dlogged toyD) (DSrv.init ([], []) 2) [[(.p0 (.i 5) : ClientMsg Nat Nat Nat), .p0 (.i 0), .p0 (.i 6)], [.p0 (.i 1), .p0 (.i 1)]]).map
    fun s => (s.day, dokDays s.biz.2)) = some (2, [(0, false), (0, true), (1, false), (1, true)]) := by decide

/-- Printing after two days of garbled circuits. -/
example : printCommGC [100, 200] [1000, 2500] = .ok ([(100, 1000), (200, 1500)], 2800) := by decide

end Upsi.Role
