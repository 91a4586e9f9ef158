import Verif.Role.Shell
import Mathlib.Data.List.Basic
import Mathlib.Tactic.Ring
/-
C50 (role state machine) and C52 (communication accounting): specification and theorems about `Verif/Role/Shell.lean`.
-/
namespace Upsi.Role
open Upsi

variable {σ τ I S X II IV : Type}

/-! ### Specification -/

/-- The requests that end a day, by protocol: the only request without payload, the third message otherwise. -/
def endsDay : Variant → ClientMsg I S X → Bool
  | .noPayload, .p0 (.i _) => true
  | .sum, .p0 (.iiiSum _) => true
  | .secretShare, .p0 (.iiiSS _) => true
  | _, _ => false

/-- The requests a server of this protocol knows. -/
def known : Variant → ClientMsg I S X → Bool
  | _, .p0 (.i _) => true
  | .sum, .p0 (.iiiSum _) => true
  | .secretShare, .p0 (.iiiSS _) => true
  | _, _ => false

/-- Number of day-ending requests that were accepted. -/
def daysDone (v : Variant) (reqs : List (ClientMsg I S X)) (outs : List (Outcome (Option (ServerMsg II IV)))) : Nat :=
  ((reqs.zip outs).filter (fun p => endsDay v p.1 && p.2.isOk)).length

/-- The bytes of one exchange that count: a party-zero message and the answer to it, if there was one. -/
def bytes (B : Biz1 σ I S X II IV) (r : ClientMsg I S X) (o : Outcome (Option (ServerMsg II IV))) : Nat :=
  match r with
  | .p0 _ => B.sizeC r + (match o with | .ok (some m) => B.sizeS m | _ => 0)
  | _ => 0

/-- The bytes exchanged on day `d`, when the exchanges start on day `day`. -/
def ledger (v : Variant) (B : Biz1 σ I S X II IV) : Nat → List (ClientMsg I S X) → List (Outcome (Option (ServerMsg II IV))) → Nat → Nat
  | day, r :: rs, o :: os, d =>
    (if day = d then bytes B r o else 0) + ledger v B (if endsDay v r && o.isOk then day + 1 else day) rs os d
  | _, _, _, _ => 0

/-! ### One request -/

@[simp] theorem Srv.addComm_biz (s : Srv σ) (n) : (s.addComm n).biz = s.biz := rfl
@[simp] theorem Srv.addComm_day (s : Srv σ) (n) : (s.addComm n).day = s.day := rfl
@[simp] theorem Srv.addComm_total (s : Srv σ) (n) : (s.addComm n).total = s.total := rfl
@[simp] theorem Srv.finishDay_day (s : Srv σ) : s.finishDay.day = s.day + 1 := rfl
@[simp] theorem Srv.finishDay_total (s : Srv σ) : s.finishDay.total = s.total := rfl
@[simp] theorem Srv.finishDay_comm (s : Srv σ) : s.finishDay.comm = s.comm := rfl
@[simp] theorem Srv.finishDay_biz (s : Srv σ) : s.finishDay.biz = s.biz := rfl

theorem handle_finished (v : Variant) (B : Biz1 σ I S X II IV) (s : Srv σ) (r : ClientMsg I S X) (h : s.total ≤ s.day) :
    s.handle v B r = (s, .err "protocol is already complete") := by
  simp [Srv.handle, Srv.finished, h]

theorem handle_p0 (v : Variant) (B : Biz1 σ I S X II IV) (s : Srv σ) (b : P0Body I S X) (h : s.day < s.total) :
    s.handle v B (.p0 b) = dispatch v B (s.addComm (B.sizeC (.p0 b))) b := by
  have : ¬ s.total ≤ s.day := by omega
  simp [Srv.handle, Srv.finished, this]

@[simp] theorem isOk_ok {α : Type} (a : α) : (Outcome.ok a).isOk = true := rfl
@[simp] theorem isOk_err {α : Type} (e) : (Outcome.err e : Outcome α).isOk = false := rfl
@[simp] theorem isOk_abort {α : Type} : (Outcome.abort : Outcome α).isOk = false := rfl
@[simp] theorem isOk_ub {α : Type} : (Outcome.ub : Outcome α).isOk = false := rfl

theorem answerI_day (B : Biz1 σ I S X II IV) (f : Bool) (s : Srv σ) (m : I) :
    (answerI B f s m).1.day = s.day + (if f && (answerI B f s m).2.isOk then 1 else 0) ∧ (answerI B f s m).1.total = s.total := by
  rcases hg : B.genII s.biz m s.day with ⟨b, o⟩
  cases o <;> cases f <;> simp [answerI, hg]

theorem answerSum_day (B : Biz1 σ I S X II IV) (s : Srv σ) (m : S) :
    (answerSum B s m).1.day = s.day + (if (answerSum B s m).2.isOk then 1 else 0) ∧ (answerSum B s m).1.total = s.total := by
  rcases hg : B.procSum s.biz m with ⟨b, o⟩
  cases o <;> simp [answerSum, hg]

theorem answerSS_day (B : Biz1 σ I S X II IV) (s : Srv σ) (m : X) :
    (answerSS B s m).1.day = s.day + (if (answerSS B s m).2.isOk then 1 else 0) ∧ (answerSS B s m).1.total = s.total := by
  rcases hg : B.procSS s.biz m with ⟨b, o⟩
  cases o <;> simp [answerSS, hg]

theorem handle_day (v : Variant) (B : Biz1 σ I S X II IV) (s : Srv σ) (r : ClientMsg I S X) :
    (s.handle v B r).1.day = s.day + (if endsDay v r && (s.handle v B r).2.isOk then 1 else 0) ∧
    (s.handle v B r).1.total = s.total := by
  by_cases h : s.total ≤ s.day
  · rw [handle_finished v B s r h]; simp [Outcome.isOk]
  · have h' : s.day < s.total := by omega
    cases r with
    | og => simp [Srv.handle, Srv.finished, h, Outcome.isOk]
    | none => simp [Srv.handle, Srv.finished, h, Outcome.isOk]
    | p0 b =>
      rw [handle_p0 v B s b h']
      cases v <;> cases b <;> simp only [dispatch] <;>
        simp [endsDay, answerI_day, answerSum_day, answerSS_day]

theorem handle_day_le (v : Variant) (B : Biz1 σ I S X II IV) (s : Srv σ) (r : ClientMsg I S X) (h : s.day ≤ s.total) :
    (s.handle v B r).1.day ≤ s.total := by
  by_cases h' : s.total ≤ s.day
  · rw [handle_finished v B s r h']; exact h
  · rw [(handle_day v B s r).1]; split <;> omega

/-! ### C50 -/

theorem serve_day (v : Variant) (B : Biz1 σ I S X II IV) (reqs : List (ClientMsg I S X)) : ∀ s : Srv σ, s.day ≤ s.total →
    (serve v B s reqs).1.day = s.day + daysDone v reqs (serve v B s reqs).2 ∧ (serve v B s reqs).1.day ≤ s.total ∧
    (serve v B s reqs).1.total = s.total := by
  induction reqs with
  | nil => intro s h; simp [serve, daysDone, h]
  | cons r rs ih =>
    intro s h
    have h1 := handle_day v B s r
    have h2 := handle_day_le v B s r h
    have h3 := ih (s.handle v B r).1 (by rw [h1.2]; exact h2)
    rw [h1.2] at h3
    simp only [serve]
    cases hc : (s.handle v B r).2 with
    | abort => simp_all [daysDone, Outcome.isOk]
    | ub => simp_all [daysDone, Outcome.isOk]
    | err e =>
      rw [hc] at h1
      refine ⟨?_, h3.2⟩
      rw [h3.1, h1.1]; simp [daysDone, Outcome.isOk]
    | ok a =>
      rw [hc] at h1
      refine ⟨?_, h3.2⟩
      rw [h3.1, h1.1]
      have e : daysDone v (r :: rs) (Outcome.ok a :: (serve v B (s.handle v B r).1 rs).2) =
          daysDone v rs (serve v B (s.handle v B r).1 rs).2 + (if endsDay v r && (Outcome.ok a : Outcome (Option (ServerMsg II IV))).isOk then 1 else 0) := by
        simp only [daysDone, List.zip_cons_cons, List.filter_cons]
        split <;> simp
      rw [e]; omega

/-- C50: whatever requests a freshly started server receives and whatever its computations do, the current day is the
number of day-ending requests it has accepted; it never exceeds the configured number of days, and the protocol is
finished exactly when it reaches that number. -/
theorem C50_day_count (v : Variant) (B : Biz1 σ I S X II IV) (b : σ) (T : Nat) (reqs : List (ClientMsg I S X)) :
    let r := serve v B (Srv.init b T) reqs
    r.1.day = daysDone v reqs r.2 ∧ r.1.day ≤ T ∧ (r.1.finished = true ↔ r.1.day = T) := by
  have h := serve_day v B reqs (Srv.init b T) (by simp [Srv.init])
  simp only [Srv.init, Nat.zero_add] at h
  refine ⟨h.1, h.2.1, ?_⟩
  simp only [Srv.finished, Srv.init, h.2.2, decide_eq_true_eq]
  have := h.2.1
  omega

/-- C50: once the protocol is finished, every request is answered with an error and changes nothing. -/
theorem C50_finished_rejects (v : Variant) (B : Biz1 σ I S X II IV) (s : Srv σ) (h : s.finished = true) (r : ClientMsg I S X) :
    s.handle v B r = (s, .err "protocol is already complete") :=
  handle_finished v B s r (by simpa [Srv.finished] using h)

/-- C50: a request of a kind the protocol does not know is answered with an error; the party's data, the day and what is
finished stay as they were. -/
theorem C50_unexpected (v : Variant) (B : Biz1 σ I S X II IV) (s : Srv σ) (r : ClientMsg I S X) (h : known v r = false) :
    (∃ e, (s.handle v B r).2 = .err e) ∧ (s.handle v B r).1.biz = s.biz ∧ (s.handle v B r).1.day = s.day ∧
    (s.handle v B r).1.finished = s.finished := by
  by_cases hf : s.total ≤ s.day
  · rw [handle_finished v B s r hf]; exact ⟨⟨_, rfl⟩, rfl, rfl, rfl⟩
  · have h' : s.day < s.total := by omega
    cases r with
    | og => simp [Srv.handle, Srv.finished, hf]
    | none => simp [Srv.handle, Srv.finished, hf]
    | p0 b =>
      rw [handle_p0 v B s b h']
      cases v <;> cases b <;> simp_all [dispatch, known, Srv.finished]

/-- C50: a request that is not answered with success does not end the day. -/
theorem C50_failure_keeps_day (v : Variant) (B : Biz1 σ I S X II IV) (s : Srv σ) (r : ClientMsg I S X)
    (h : (s.handle v B r).2.isOk = false) : (s.handle v B r).1.day = s.day := by
  rw [(handle_day v B s r).1, h]; simp

/-- The computations, keeping a record of which day's data set each call of `GenerateMessageII` used and whether it
succeeded. -/
def logged (B : Biz1 σ I S X II IV) : Biz1 (σ × List (Nat × Bool)) I S X II IV where
  genII s m d := let r := B.genII s.1 m d; ((r.1, s.2 ++ [(d, r.2.isOk)]), r.2)
  procSum s m := let r := B.procSum s.1 m; ((r.1, s.2), r.2)
  procSS s m := let r := B.procSS s.1 m; ((r.1, s.2), r.2)
  sizeC := B.sizeC
  sizeS := B.sizeS

/-- Forgetting the record. -/
def Srv.forget (s : Srv (σ × List (Nat × Bool))) : Srv σ := ⟨s.biz.1, s.day, s.total, s.comm⟩

theorem handle_logged (v : Variant) (B : Biz1 σ I S X II IV) (s : Srv (σ × List (Nat × Bool))) (r : ClientMsg I S X) :
    s.forget.handle v B r = ((s.handle v (logged B) r).1.forget, (s.handle v (logged B) r).2) := by
  by_cases h : s.total ≤ s.day
  · rw [handle_finished v _ s r h, handle_finished v B s.forget r h]
  · have h' : s.day < s.total := by omega
    cases r with
    | og => simp [Srv.handle, Srv.finished, h, Srv.forget]
    | none => simp [Srv.handle, Srv.finished, h, Srv.forget]
    | p0 b =>
      rw [handle_p0 v _ s b h', handle_p0 v B s.forget b h']
      cases v <;> cases b <;> simp only [dispatch, answerI, answerSum, answerSS, logged, Srv.addComm, Srv.forget] <;>
        first
        | rfl
        | (split <;> simp_all [Srv.addComm, Srv.finishDay])

/-- Keeping the record does not change the server. -/
theorem serve_logged (v : Variant) (B : Biz1 σ I S X II IV) (reqs : List (ClientMsg I S X)) : ∀ s : Srv (σ × List (Nat × Bool)),
    serve v B s.forget reqs = ((serve v (logged B) s reqs).1.forget, (serve v (logged B) s reqs).2) := by
  induction reqs with
  | nil => intro s; rfl
  | cons r rs ih =>
    intro s
    simp only [serve, handle_logged]
    cases (s.handle v (logged B) r).2 <;> simp [ih]

def okDays (l : List (Nat × Bool)) : List Nat := (l.filter (·.2)).map (·.1)

theorem handle_log (B : Biz1 σ I S X II IV) (s : Srv (σ × List (Nat × Bool))) (r : ClientMsg I S X)
    (h : okDays s.biz.2 = List.range s.day) :
    okDays (s.handle .noPayload (logged B) r).1.biz.2 = List.range (s.handle .noPayload (logged B) r).1.day := by
  by_cases hf : s.total ≤ s.day
  · rw [handle_finished _ _ s r hf]; exact h
  · have h' : s.day < s.total := by omega
    cases r with
    | og => simpa [Srv.handle, Srv.finished, hf] using h
    | none => simpa [Srv.handle, Srv.finished, hf] using h
    | p0 b =>
      rw [handle_p0 _ _ s b h']
      cases b with
      | i m =>
        simp only [dispatch, answerI, logged, Srv.addComm_biz, Srv.addComm_day]
        cases hg : (B.genII s.biz.1 m s.day).2 with
        | ok a =>
          simp only [if_true, Srv.finishDay_biz, Srv.addComm_biz, Srv.finishDay_day, Srv.addComm_day, Outcome.isOk,
            List.range_succ, ← h]
          simp [okDays]
        | err e => simp only [Outcome.isOk, Srv.addComm_day, ← h]; simp [okDays]
        | abort => simp only [Outcome.isOk, Srv.addComm_day, ← h]; simp [okDays]
        | ub => simp only [Outcome.isOk, Srv.addComm_day, ← h]; simp [okDays]
      | iiiSum m => simpa [dispatch] using h
      | iiiSS m => simpa [dispatch] using h
      | none => simpa [dispatch] using h

theorem serve_log (B : Biz1 σ I S X II IV) (reqs : List (ClientMsg I S X)) : ∀ s : Srv (σ × List (Nat × Bool)),
    okDays s.biz.2 = List.range s.day →
    okDays (serve .noPayload (logged B) s reqs).1.biz.2 = List.range (serve .noPayload (logged B) s reqs).1.day := by
  induction reqs with
  | nil => intro s h; exact h
  | cons r rs ih =>
    intro s h
    have h1 := handle_log B s r h
    simp only [serve]
    cases (s.handle .noPayload (logged B) r).2 with
    | ok a => exact ih _ h1
    | err e => exact ih _ h1
    | abort => exact h1
    | ub => exact h1

/-- C50: without payload, the data sets a server has successfully processed are those of day 0, 1, …, in order, each
exactly once, up to the current day – for every sequence of requests, including failing ones.  (The recorded server is
the server: `serve_logged`.) -/
theorem C50_each_data_set_once (B : Biz1 σ I S X II IV) (b : σ) (T : Nat) (reqs : List (ClientMsg I S X)) :
    let r := serve .noPayload (logged B) (Srv.init (b, []) T) reqs
    okDays r.1.biz.2 = List.range (serve .noPayload B (Srv.init b T) reqs).1.day := by
  have h1 := serve_logged .noPayload B reqs (Srv.init (b, []) T)
  have h2 := serve_log B reqs (Srv.init (b, []) T) rfl
  have h3 : (Srv.init (b, ([] : List (Nat × Bool))) T).forget = Srv.init b T := rfl
  rw [h3] at h1
  rw [h1]
  exact h2

/-! ### The run loop -/

theorem send_ok {v : Variant} {B1 : Biz1 σ I S X II IV} {w w' : World τ σ II IV} {r : ClientMsg I S X}
    (h : World.send v B1 w r = .ok w') :
    w'.cli = w.cli ∧ w'.srv = (w.srv.handle v B1 r).1 ∧
    (∃ o, (w.srv.handle v B1 r).2 = .ok o ∧ w'.response = o.getD .none) := by
  rcases hc : w.srv.handle v B1 r with ⟨s', o⟩
  simp only [World.send, hc] at h
  rcases o with (_ | o) | e | _ | _ <;> simp at h
  · subst h; simp
  · subst h; simp

theorem send_day {v : Variant} {B1 : Biz1 σ I S X II IV} {w w' : World τ σ II IV} {r : ClientMsg I S X}
    (h : World.send v B1 w r = .ok w') :
    w'.srv.day = w.srv.day + (if endsDay v r then 1 else 0) ∧ w'.srv.total = w.srv.total ∧ w'.cli = w.cli := by
  obtain ⟨h1, h2, o, h3, -⟩ := send_ok h
  have hd := handle_day v B1 w.srv r
  rw [h3] at hd
  rw [h2]
  exact ⟨by simpa [Outcome.isOk] using hd.1, hd.2, h1⟩

/-- The answer to an accepted message of kind I is a message of kind II. -/
theorem handle_I_response {v : Variant} {B : Biz1 σ I S X II IV} {s : Srv σ} {m : I} {o}
    (h : (s.handle v B (.p0 (.i m))).2 = .ok o) : ∃ x, o = some (.p1 (.ii x)) := by
  by_cases hf : s.total ≤ s.day
  · rw [handle_finished _ _ s _ hf] at h; simp at h
  · rw [handle_p0 _ _ s _ (by omega)] at h
    cases v <;> simp only [dispatch, answerI] at h <;> revert h <;> split <;> intro h <;> simp at h <;> exact ⟨_, h.symm⟩

theorem handle_Sum_response {B : Biz1 σ I S X II IV} {s : Srv σ} {m : S} {o}
    (h : (s.handle .sum B (.p0 (.iiiSum m))).2 = .ok o) : ∃ x, o = some (.p1 (.iv x)) := by
  by_cases hf : s.total ≤ s.day
  · rw [handle_finished _ _ s _ hf] at h; simp at h
  · rw [handle_p0 _ _ s _ (by omega)] at h
    simp only [dispatch, answerSum] at h
    revert h; split <;> intro h <;> simp at h
    exact ⟨_, h.symm⟩

theorem runBody_day {v : Variant} {B0 : Biz0 τ I S X II IV} {B1 : Biz1 σ I S X II IV} {w w' : World τ σ II IV}
    (h : runBody v B0 B1 w = .ok w') :
    w'.cli.day = w.cli.day + 1 ∧ w'.srv.day = w.srv.day + 1 ∧ w'.cli.total = w.cli.total ∧ w'.srv.total = w.srv.total := by
  unfold runBody at h
  obtain ⟨w1, h1, h⟩ := Outcome.bind_eq_ok.1 h
  obtain ⟨w2, h2, h⟩ := Outcome.bind_eq_ok.1 h
  unfold sendI at h1
  obtain ⟨⟨t, m⟩, -, h1⟩ := Outcome.bind_eq_ok.1 h1
  have hd1 := send_day h1
  obtain ⟨-, -, o, ho, hr⟩ := send_ok h1
  obtain ⟨x, rfl⟩ := handle_I_response ho
  simp only [Option.getD_some] at hr
  simp only [hr, handle0] at h2
  by_cases hf : w1.cli.finished = true
  · simp [hf] at h2
  · simp only [hf, Bool.false_eq_true, if_false] at h2
    obtain ⟨a1, a2, a3⟩ := hd1
    cases v with
    | noPayload =>
      simp only [onII] at h2
      obtain ⟨t', -, h2⟩ := Outcome.bind_eq_ok.1 h2
      cases h2; cases h
      simp only [a3, Cli.finishDay, a1, a2, endsDay, if_true, and_self]
    | secretShare =>
      simp only [onII] at h2
      obtain ⟨t', -, h2⟩ := Outcome.bind_eq_ok.1 h2
      have hd2 := send_day h2
      cases h
      obtain ⟨b1, b2, b3⟩ := hd2
      simp only [b1, b2, b3, a3, Cli.finishDay, a1, a2, endsDay, if_true, and_self, Bool.false_eq_true, if_false, Nat.add_zero]
    | sum =>
      simp only [onII] at h2
      obtain ⟨⟨t', r⟩, -, h2⟩ := Outcome.bind_eq_ok.1 h2
      have hd2 := send_day h2
      obtain ⟨-, -, o, ho, hr⟩ := send_ok h2
      obtain ⟨x, rfl⟩ := handle_Sum_response ho
      simp only [Option.getD_some] at hr
      simp only [hr, handle0] at h
      obtain ⟨b1, b2, b3⟩ := hd2
      by_cases hf2 : w2.cli.finished = true
      · simp [hf2] at h
      · simp only [hf2, Bool.false_eq_true, if_false, onIV] at h
        obtain ⟨t2, -, h⟩ := Outcome.bind_eq_ok.1 h
        cases h
        simp only [b1, b2, b3, a3, Cli.finishDay, a1, a2, endsDay, if_true, and_self, Bool.false_eq_true, if_false, Nat.add_zero]

theorem runLoop_days (v : Variant) (B0 : Biz0 τ I S X II IV) (B1 : Biz1 σ I S X II IV) : ∀ (fuel : Nat) (w : World τ σ II IV),
    w.cli.day ≤ w.cli.total → w.cli.total ≤ w.cli.day + fuel → ∀ r, runLoop v B0 B1 fuel w = .ok r →
    ∃ w', r = some w' ∧ w'.cli.day = w.cli.total ∧ w'.srv.day + w.cli.day = w.srv.day + w.cli.total ∧
      w'.cli.total = w.cli.total ∧ w'.srv.total = w.srv.total := by
  intro fuel
  induction fuel with
  | zero =>
    intro w h1 h2 r h
    have hf : w.cli.finished = true := by simp [Cli.finished]; omega
    simp only [runLoop, hf, if_true] at h
    cases h
    exact ⟨w, rfl, by omega, by omega, rfl, rfl⟩
  | succ n ih =>
    intro w h1 h2 r h
    by_cases hf : w.cli.finished = true
    · simp only [runLoop, hf, if_true] at h
      cases h
      simp [Cli.finished] at hf
      exact ⟨w, rfl, by omega, by omega, rfl, rfl⟩
    · simp only [runLoop, hf, Bool.false_eq_true, if_false] at h
      obtain ⟨w1, hb, h⟩ := Outcome.bind_eq_ok.1 h
      obtain ⟨b1, b2, b3, b4⟩ := runBody_day hb
      have hlt : w.cli.day < w.cli.total := by simp [Cli.finished] at hf; omega
      obtain ⟨w', rfl, c1, c2, c3, c4⟩ := ih w1 (by omega) (by omega) r h
      exact ⟨w', rfl, by omega, by omega, by omega, by omega⟩

/-- C50: for all three protocols and whatever the parties compute, a run over `T` days makes at most `T` rounds, and if it
ends without error then both parties have counted exactly `T` days and both regard the protocol as finished. -/
theorem C50_run (v : Variant) (B0 : Biz0 τ I S X II IV) (B1 : Biz1 σ I S X II IV) (t : τ) (s : σ) (T : Nat) (r)
    (h : runLoop v B0 B1 T ⟨⟨t, 0, T⟩, Srv.init s T, .none⟩ = .ok r) :
    ∃ w, r = some w ∧ w.cli.day = T ∧ w.srv.day = T ∧ w.cli.finished = true ∧ w.srv.finished = true := by
  obtain ⟨w, h1, h2, h3, h4, h5⟩ := runLoop_days v B0 B1 T _ (by simp) (by simp) r h
  simp only [Srv.init, Nat.add_zero, Nat.zero_add] at h2 h3 h4 h5
  exact ⟨w, h1, h2, h3, by simp [Cli.finished, h2, h4], by simp [Srv.finished, h3, h5]⟩

/-- C50: on the way, after every completed round the two day counters agree. -/
theorem C50_lockstep {v : Variant} {B0 : Biz0 τ I S X II IV} {B1 : Biz1 σ I S X II IV} {w w' : World τ σ II IV}
    (h : runBody v B0 B1 w = .ok w') (hd : w.cli.day = w.srv.day) : w'.cli.day = w'.srv.day ∧ w'.cli.day = w.cli.day + 1 := by
  obtain ⟨b1, b2, -⟩ := runBody_day h
  omega

/-! ### C52 -/

theorem wrap32_add (a : Int) (n : Int) : wrap32 (wrap32 a + n) = wrap32 (a + n) := by
  unfold wrap32; omega

theorem wrap32_id {a : Int} (h1 : -2 ^ 31 ≤ a) (h2 : a < 2 ^ 31) : wrap32 a = a := by unfold wrap32; omega

theorem addComm_get (s : Srv σ) (n d : Nat) :
    (s.addComm n).comm[d]? = (s.comm[d]?).map (fun c => if s.day = d then wrap32 (c + n) else c) := by
  simp only [Srv.addComm, List.getElem?_modify]
  split <;> simp_all

theorem handle_comm (v : Variant) (B : Biz1 σ I S X II IV) (s : Srv σ) (r : ClientMsg I S X) (d : Nat) (hd : d < s.total) (c : Int)
    (hc : s.comm[d]? = some (wrap32 c)) :
    (s.handle v B r).1.comm[d]? = some (wrap32 (c + (if s.day = d then bytes B r (s.handle v B r).2 else 0 : Nat))) := by
  by_cases h : s.total ≤ s.day
  · rw [handle_finished v B s r h]
    have : s.day ≠ d := by omega
    simp [this, hc]
  · have h' : s.day < s.total := by omega
    cases r with
    | og => simp [Srv.handle, Srv.finished, h, bytes, hc]
    | none => simp [Srv.handle, Srv.finished, h, bytes, hc]
    | p0 b =>
      rw [handle_p0 v B s b h']
      have key : ∀ k : Nat, ((s.addComm (B.sizeC (.p0 b))).addComm k).comm[d]? =
          some (wrap32 (c + (if s.day = d then (B.sizeC (.p0 b) + k : Nat) else 0 : Nat))) := by
        intro k
        rw [addComm_get, addComm_get, hc]
        by_cases e : s.day = d
        · simp only [e, Srv.addComm_day, if_true, Option.map_some, wrap32_add, Nat.cast_add, Int.add_assoc]
        · simp [e]
      have key0 : (s.addComm (B.sizeC (.p0 b))).comm[d]? =
          some (wrap32 (c + (if s.day = d then (B.sizeC (.p0 b) : Nat) else 0 : Nat))) := by
        rw [addComm_get, hc]
        by_cases e : s.day = d
        · simp only [e, if_true, Option.map_some, wrap32_add]
        · simp [e]
      have modc : ∀ (q : σ) (k : Nat), (Srv.addComm { (s.addComm (B.sizeC (.p0 b))) with biz := q } k).comm =
          ((s.addComm (B.sizeC (.p0 b))).addComm k).comm := fun _ _ => rfl
      by_cases e : s.day = d
      · simp only [e, if_true] at key key0 ⊢
        cases v <;> cases b <;> simp only [dispatch, answerI, answerSum, answerSS] <;>
          first
          | (split <;> simp_all only [bytes, if_true, Bool.false_eq_true, if_false, Srv.finishDay_comm, Nat.add_zero])
          | simp only [bytes, key0, Nat.add_zero]
      · simp only [e, if_false] at key key0 ⊢
        cases v <;> cases b <;> simp only [dispatch, answerI, answerSum, answerSS] <;>
          first
          | (split <;> simp_all only [bytes, if_true, Bool.false_eq_true, if_false, Srv.finishDay_comm, Nat.add_zero])
          | simp only [key0]

theorem serve_comm (v : Variant) (B : Biz1 σ I S X II IV) (d : Nat) (reqs : List (ClientMsg I S X)) : ∀ (s : Srv σ) (c : Int),
    d < s.total → s.comm[d]? = some (wrap32 c) →
    (serve v B s reqs).1.comm[d]? = some (wrap32 (c + (ledger v B s.day reqs (serve v B s reqs).2 d : Nat))) := by
  induction reqs with
  | nil => intro s c h1 h2; simp [serve, ledger, h2]
  | cons r rs ih =>
    intro s c h1 h2
    have a1 := handle_comm v B s r d h1 c h2
    have a2 := handle_day v B s r
    have ih' := ih (s.handle v B r).1 _ (by rw [a2.2]; exact h1) a1
    simp only [serve]
    cases hc : (s.handle v B r).2 with
    | abort => simp only [hc] at a1; cases rs <;> simpa [ledger] using a1
    | ub => simp only [hc] at a1; cases rs <;> simpa [ledger] using a1
    | err e =>
      simp only [hc, Outcome.isOk] at ih' a2
      simp only [ih', ledger, a2.1, Outcome.isOk, Bool.and_false, Bool.false_eq_true, if_false, Nat.add_zero, Nat.cast_add, Int.add_assoc]
    | ok x =>
      simp only [hc, Outcome.isOk] at ih' a2
      simp only [ih', ledger, a2.1, Outcome.isOk, Bool.and_true, Nat.cast_add, Int.add_assoc]
      by_cases e : endsDay v r = true <;> simp [e]

theorem handle_comm_length (v : Variant) (B : Biz1 σ I S X II IV) (s : Srv σ) (r : ClientMsg I S X) :
    (s.handle v B r).1.comm.length = s.comm.length := by
  by_cases h : s.total ≤ s.day
  · rw [handle_finished v B s r h]
  · cases r with
    | og => simp [Srv.handle, Srv.finished, h]
    | none => simp [Srv.handle, Srv.finished, h]
    | p0 b =>
      rw [handle_p0 v B s b (by omega)]
      cases v <;> cases b <;> simp only [dispatch, answerI, answerSum, answerSS] <;>
        first
        | (split <;> simp [Srv.addComm, Srv.finishDay])
        | simp [Srv.addComm]

theorem serve_comm_length (v : Variant) (B : Biz1 σ I S X II IV) (reqs : List (ClientMsg I S X)) : ∀ s : Srv σ,
    (serve v B s reqs).1.comm.length = s.comm.length := by
  induction reqs with
  | nil => intro s; rfl
  | cons r rs ih =>
    intro s
    simp only [serve]
    cases (s.handle v B r).2 <;> simp [ih, handle_comm_length]

/-- C52: after any requests to a fresh server, the counter of each day is the sum of the sizes of the party-zero messages
received that day and of the answers generated to them – as a 32-bit `int`, so modulo `2^32`. -/
theorem C52_day_counter (v : Variant) (B : Biz1 σ I S X II IV) (b : σ) (T : Nat) (reqs : List (ClientMsg I S X)) (d : Nat) (hd : d < T) :
    let r := serve v B (Srv.init b T) reqs
    r.1.printComm.1[d]? = some (wrap32 (ledger v B 0 reqs r.2 d : Nat)) := by
  have h := serve_comm v B d reqs (Srv.init b T) 0 hd (by simp [Srv.init, List.getElem?_replicate, hd, wrap32])
  intro r
  simp only [Int.zero_add] at h
  exact h

theorem foldl_total (l : List Nat) : ∀ t : Nat, t + l.sum < 2 ^ 64 →
    (l.map (fun n : Nat => (n : Int))).foldl (fun (t : Nat) c => (((t : Int) + c) % 2 ^ 64).toNat) t = t + l.sum := by
  induction l with
  | nil => intro t h; simp
  | cons a l ih =>
    intro t h
    simp only [List.sum_cons] at h
    simp only [List.map_cons, List.foldl_cons, List.sum_cons]
    have e : (((t : Int) + (a : Int)) % 2 ^ 64).toNat = t + a := by omega
    rw [e, ih (t + a) (by omega)]; omega

theorem sum_lt_of_lt (l : List Nat) (h : ∀ n ∈ l, n < 2 ^ 31) : l.sum ≤ 2 ^ 31 * l.length := by
  induction l with
  | nil => simp
  | cons a l ih =>
    have h1 := h a (by simp)
    have h2 := ih (fun n hn => h n (by simp [hn]))
    simp only [List.sum_cons, List.length_cons]
    omega

/-- C52: as long as fewer than `2^31` bytes are exchanged on each day, what is printed is exact: for each day the bytes
exchanged on it, and as the total their sum. -/
theorem C52_printed_exact (v : Variant) (B : Biz1 σ I S X II IV) (b : σ) (T : Nat) (hT : T < 2 ^ 31) (reqs : List (ClientMsg I S X))
    (hb : ∀ d < T, ledger v B 0 reqs (serve v B (Srv.init b T) reqs).2 d < 2 ^ 31) :
    let r := serve v B (Srv.init b T) reqs
    let perDay := (List.range T).map (ledger v B 0 reqs r.2)
    r.1.printComm = (perDay.map (fun n : Nat => (n : Int)), perDay.sum) := by
  intro r perDay
  have hcomm : r.1.comm = perDay.map (fun n : Nat => (n : Int)) := by
    apply List.ext_getElem?
    intro d
    by_cases hd : d < T
    · have h := C52_day_counter v B b T reqs d hd
      simp only [Srv.printComm] at h
      have hl := hb d hd
      rw [wrap32_id (by omega) (by omega)] at h
      rw [show r.1.comm[d]? = _ from h]
      simp [perDay, hd, r]
    · have h1 : r.1.comm.length = T := by
        have := serve_comm_length v B reqs (Srv.init b T)
        exact this.trans (by simp [Srv.init])
      have h2 : (perDay.map (fun n : Nat => (n : Int))).length = T := by simp [perDay]
      rw [List.getElem?_eq_none (by omega), List.getElem?_eq_none (by omega)]
  have hsum : perDay.sum < 2 ^ 64 := by
    have := sum_lt_of_lt perDay (by intro n hn; simp only [perDay, List.mem_map, List.mem_range] at hn
                                    obtain ⟨d, hd, rfl⟩ := hn; exact hb d hd)
    have hl : perDay.length = T := by simp [perDay]
    rw [hl] at this
    omega
  unfold Srv.printComm
  rw [hcomm, foldl_total perDay 0 (by omega)]
  simp

/-- C52, what the 32-bit counter does: `2^31` bytes on one day are reported as `-2^31`. -/
theorem C52_wraps :
    let B : Biz1 Unit Unit Unit Unit Unit Unit := ⟨fun _ _ _ => ((), .ok ()), fun _ _ => ((), .ok ()), fun _ _ => ((), .ok ()), fun _ => 2 ^ 31 - 10, fun _ => 10⟩
    (serve .noPayload B (Srv.init () 1) [.p0 (.i ())]).1.printComm = ([-2 ^ 31], 2 ^ 64 - 2 ^ 31) := by
  decide

end Upsi.Role
