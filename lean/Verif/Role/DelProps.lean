import Verif.Role.ShellProps
/-
C50 and C52 for the protocols with deletions (`deletion/`, `deletion-psi/`): party one is reset before each day.
-/
namespace Upsi.Role
open Upsi

variable {σ I S X II IV : Type}

/-- Number of requests that make up a day: one, or two (deletions, then additions) in deletion-psi. -/
def quota (two : Bool) : Nat := if two then 2 else 1

/-- Number of requests answered with success. -/
def accepted (outs : List (Outcome (Option (ServerMsg II IV)))) : Nat := (outs.filter (·.isOk)).length

/-- The rounds of the current day already done. -/
def DSrv.progress (two : Bool) (s : DSrv σ) : Nat :=
  if s.dayFinished then quota two else if two && s.firstRound then 1 else 0

theorem DSrv.progress_le (two : Bool) (s : DSrv σ) : s.progress two ≤ quota two := by
  unfold DSrv.progress quota; cases two <;> cases s.dayFinished <;> cases s.firstRound <;> simp

/-- The bytes of an answer. -/
def answerBytes (B : DBiz σ I II) : Outcome (Option (ServerMsg II IV)) → Nat
  | .ok (some (.p1 (.ii m))) => B.size m
  | _ => 0

/-- C50: a deletion server rejects requests it does not know and requests after the day is over; the party's data, the
day and the counters stay as they were. -/
theorem C50_del_rejects (two : Bool) (B : DBiz σ I II) (s : DSrv σ) (r : ClientMsg I S X)
    (h : s.dayFinished = true ∨ ∀ m, r ≠ .p0 (.i m)) :
    ∃ e, (s.handle two B r : DSrv σ × Outcome (Option (ServerMsg II IV))) = (s, .err e) := by
  unfold DSrv.handle
  by_cases hf : s.dayFinished = true
  · rw [if_pos hf]; exact ⟨_, rfl⟩
  · rw [if_neg hf]
    rcases h with h | h
    · exact absurd h hf
    · cases r with
      | og => exact ⟨_, rfl⟩
      | none => exact ⟨_, rfl⟩
      | p0 b =>
        cases b with
        | i m => exact absurd rfl (h m)
        | iiiSum m => exact ⟨_, rfl⟩
        | iiiSS m => exact ⟨_, rfl⟩
        | none => exact ⟨_, rfl⟩

theorem dhandle_i (two : Bool) (B : DBiz σ I II) (s : DSrv σ) (m : I) (hf : s.dayFinished = false) (hd : s.day < s.comm.length) :
    (s.handle two B (.p0 (.i m) : ClientMsg I S X) : DSrv σ × Outcome (Option (ServerMsg II IV))) =
      match (B.genII s.biz m s.day (two && s.firstRound)).2 with
      | .ok ii => (DSrv.finishDay two { s with biz := (B.genII s.biz m s.day (two && s.firstRound)).1,
                                               comm := s.comm.modify s.day (fun c => (c + B.size ii) % 2 ^ 64) },
                   .ok (some (.p1 (.ii ii))))
      | .err e => ({ s with biz := (B.genII s.biz m s.day (two && s.firstRound)).1 }, .err e)
      | .abort => ({ s with biz := (B.genII s.biz m s.day (two && s.firstRound)).1 }, .abort)
      | .ub => ({ s with biz := (B.genII s.biz m s.day (two && s.firstRound)).1 }, .ub) := by
  unfold DSrv.handle
  rw [if_neg (by simp [hf])]
  simp only
  rw [if_pos hd]
  rcases B.genII s.biz m s.day (two && s.firstRound) with ⟨b, o⟩
  cases o <;> rfl

theorem dhandle_i_ub (two : Bool) (B : DBiz σ I II) (s : DSrv σ) (m : I) (hf : s.dayFinished = false) (hd : ¬ s.day < s.comm.length) :
    (s.handle two B (.p0 (.i m) : ClientMsg I S X) : DSrv σ × Outcome (Option (ServerMsg II IV))) = (s, .ub) := by
  unfold DSrv.handle
  rw [if_neg (by simp [hf])]
  simp only
  rw [if_neg hd]

theorem dhandle_ok {two : Bool} {B : DBiz σ I II} {s : DSrv σ} {r : ClientMsg I S X} {o : Option (ServerMsg II IV)}
    (h : (s.handle two B r).2 = .ok o) :
    ∃ (m : I) (ii : II), r = .p0 (.i m) ∧ o = some (.p1 (.ii ii)) ∧ s.dayFinished = false ∧ s.day < s.comm.length ∧
      (B.genII s.biz m s.day (two && s.firstRound)).2 = .ok ii ∧
      (s.handle two B r : DSrv σ × Outcome (Option (ServerMsg II IV))).1 =
        DSrv.finishDay two { s with biz := (B.genII s.biz m s.day (two && s.firstRound)).1,
                                    comm := s.comm.modify s.day (fun c => (c + B.size ii) % 2 ^ 64) } := by
  by_cases hr : s.dayFinished = true ∨ ∀ m, r ≠ .p0 (.i m)
  · obtain ⟨e, he⟩ := C50_del_rejects (IV := IV) two B s r hr
    rw [he] at h; simp at h
  · obtain ⟨hf, m, rfl⟩ : s.dayFinished = false ∧ ∃ m, r = .p0 (.i m) := by simpa using hr
    by_cases hd : s.day < s.comm.length
    · rw [dhandle_i (IV := IV) two B s m hf hd] at h ⊢
      cases hg : (B.genII s.biz m s.day (two && s.firstRound)).2 with
      | ok ii =>
        rw [hg] at h
        simp only [Outcome.ok.injEq] at h
        exact ⟨m, ii, rfl, h.symm, hf, hd, hg, rfl⟩
      | err e => rw [hg] at h; simp at h
      | abort => rw [hg] at h; simp at h
      | ub => rw [hg] at h; simp at h
    · rw [dhandle_i_ub (IV := IV) two B s m hf hd] at h; simp at h

/-- A request that is not answered with success changes neither the day, nor the rounds done, nor the counters. -/
theorem dhandle_fail {two : Bool} {B : DBiz σ I II} {s : DSrv σ} {r : ClientMsg I S X}
    (h : (s.handle two B r : DSrv σ × Outcome (Option (ServerMsg II IV))).2.isOk = false) :
    (s.handle two B r : DSrv σ × Outcome (Option (ServerMsg II IV))).1 = s ∨
    ∃ m, r = .p0 (.i m) ∧ (B.genII s.biz m s.day (two && s.firstRound)).2.isOk = false ∧
      (s.handle two B r : DSrv σ × Outcome (Option (ServerMsg II IV))).1 = { s with biz := (B.genII s.biz m s.day (two && s.firstRound)).1 } := by
  by_cases hr : s.dayFinished = true ∨ ∀ m, r ≠ .p0 (.i m)
  · obtain ⟨e, he⟩ := C50_del_rejects (IV := IV) two B s r hr
    rw [he]; exact .inl rfl
  · obtain ⟨hf, m, rfl⟩ : s.dayFinished = false ∧ ∃ m, r = .p0 (.i m) := by simpa using hr
    by_cases hd : s.day < s.comm.length
    · rw [dhandle_i (IV := IV) two B s m hf hd] at h ⊢
      refine .inr ⟨m, rfl, ?_⟩
      cases hg : (B.genII s.biz m s.day (two && s.firstRound)).2 with
      | ok ii => rw [hg] at h; simp at h
      | err e => exact ⟨rfl, rfl⟩
      | abort => exact ⟨rfl, rfl⟩
      | ub => exact ⟨rfl, rfl⟩
    · rw [dhandle_i_ub (IV := IV) two B s m hf hd]; exact .inl rfl

theorem dhandle_fail' {two : Bool} {B : DBiz σ I II} {s : DSrv σ} {r : ClientMsg I S X}
    (h : (s.handle two B r : DSrv σ × Outcome (Option (ServerMsg II IV))).2.isOk = false) :
    ∃ b, (s.handle two B r : DSrv σ × Outcome (Option (ServerMsg II IV))).1 = { s with biz := b } := by
  rcases dhandle_fail h with h | ⟨m, -, -, h⟩
  · exact ⟨s.biz, h⟩
  · exact ⟨_, h⟩

theorem finishDay_progress (two : Bool) (s : DSrv σ) (hf : s.dayFinished = false) :
    (s.finishDay two).progress two = s.progress two + 1 ∧
    (s.finishDay two).day = s.day + (if s.progress two + 1 = quota two then 1 else 0) ∧
    (s.finishDay two).comm = s.comm := by
  cases two <;> cases h : s.firstRound <;> simp [DSrv.finishDay, DSrv.progress, quota, hf, h]

theorem dserve_day (two : Bool) (B : DBiz σ I II) (reqs : List (ClientMsg I S X)) : ∀ s : DSrv σ,
    let r : DSrv σ × List (Outcome (Option (ServerMsg II IV))) := dserve two B s reqs
    r.1.progress two = s.progress two + accepted r.2 ∧
    r.1.day = s.day + (if s.progress two < quota two ∧ s.progress two + accepted r.2 = quota two then 1 else 0) ∧
    ∀ d, r.1.comm[d]? = (s.comm[d]?).map (fun c => if accepted r.2 = 0 then c else
      if d = s.day then (c + (r.2.map (answerBytes B)).sum) % 2 ^ 64 else c) := by
  induction reqs with
  | nil =>
    intro s
    have : ¬ (s.progress two < quota two ∧ s.progress two + 0 = quota two) := by omega
    simp [dserve, accepted, this]
    omega
  | cons q qs ih =>
    intro s
    rcases ha : (s.handle two B q : DSrv σ × Outcome (Option (ServerMsg II IV))) with ⟨s1, o⟩
    have hno : ¬ (s.progress two < quota two ∧ s.progress two + 0 = quota two) := by omega
    have hfail : o.isOk = false → ∃ b, s1 = { s with biz := b } := by
      intro ho
      have := dhandle_fail' (II := II) (IV := IV) (two := two) (B := B) (s := s) (r := q) (by rw [ha]; exact ho)
      rw [ha] at this; exact this
    simp only [dserve, ha]
    cases o with
    | abort =>
      obtain ⟨b, rfl⟩ := hfail rfl
      simp only [accepted, List.filter_cons, isOk_abort, Bool.false_eq_true, if_false, List.filter_nil, List.length_nil]
      refine ⟨rfl, by rw [if_neg hno, Nat.add_zero], by simp⟩
    | ub =>
      obtain ⟨b, rfl⟩ := hfail rfl
      simp only [accepted, List.filter_cons, isOk_ub, Bool.false_eq_true, if_false, List.filter_nil, List.length_nil]
      refine ⟨rfl, by rw [if_neg hno, Nat.add_zero], by simp⟩
    | err e =>
      obtain ⟨b, rfl⟩ := hfail rfl
      have h := ih { s with biz := b }
      simpa [accepted, DSrv.progress, answerBytes] using h
    | ok o =>
      obtain ⟨m, ii, rfl, rfl, h1, h2, h3, h4⟩ := dhandle_ok (by rw [ha])
      rw [ha] at h4
      have h := ih s1
      simp only at h4
      rw [h4] at h ⊢
      obtain ⟨f1, f2, f3⟩ := finishDay_progress two
        { s with biz := (B.genII s.biz m s.day (two && s.firstRound)).1, comm := s.comm.modify s.day (fun c => (c + B.size ii) % 2 ^ 64) } h1
      have hp : DSrv.progress two { s with biz := (B.genII s.biz m s.day (two && s.firstRound)).1, comm := s.comm.modify s.day (fun c => (c + B.size ii) % 2 ^ 64) } =
          s.progress two := rfl
      generalize hs' : DSrv.finishDay two { s with biz := (B.genII s.biz m s.day (two && s.firstRound)).1, comm := s.comm.modify s.day (fun c => (c + B.size ii) % 2 ^ 64) } = s' at h f1 f2 f3 ⊢
      rw [hp] at f1 f2
      simp only at f2 f3
      obtain ⟨k1, k2, k3⟩ := h
      have hle : (dserve two B s' qs : DSrv σ × List (Outcome (Option (ServerMsg II IV)))).1.progress two ≤ quota two := DSrv.progress_le _ _
      have hacc : accepted (Outcome.ok (some (ServerMsg.p1 (P1Body.ii ii) : ServerMsg II IV)) :: (dserve two B s' qs).2) = accepted (IV := IV) (dserve two B s' qs).2 + 1 := by
        simp only [accepted, List.filter_cons, isOk_ok, if_true, List.length_cons]
      refine ⟨?_, ?_, ?_⟩
      · simp only [k1, f1, hacc]; omega
      · simp only [k2, f1, f2, hacc]
        rw [k1, f1] at hle
        split <;> split <;> split <;> omega
      · intro d
        simp only [k3, f3, hacc, List.getElem?_modify, Option.map_map]
        cases hcd : s.comm[d]? with
        | none => simp
        | some c =>
          have hne : accepted (IV := IV) (dserve two B s' qs).2 + 1 ≠ 0 := by omega
          simp only [Option.map_some, Option.map_eq_map, Function.comp, hne, if_false, List.map_cons, List.sum_cons, answerBytes, Option.some.injEq]
          by_cases e : d = s.day
          · subst e
            simp only [if_true]
            by_cases e2 : accepted (IV := IV) (dserve two B s' qs).2 = 0
            · -- nothing further accepted: no further answer bytes
              have hz : ∀ (l : List (Outcome (Option (ServerMsg II IV)))), accepted l = 0 → (l.map (answerBytes B)).sum = 0 := by
                intro l
                induction l with
                | nil => intro _; rfl
                | cons a l ihl =>
                  intro ha
                  cases a with
                  | ok x => simp [accepted] at ha
                  | err e => simp only [accepted, List.filter_cons, isOk_err, Bool.false_eq_true, if_false] at ha
                             simp [answerBytes, ihl ha]
                  | abort => simp only [accepted, List.filter_cons, isOk_abort, Bool.false_eq_true, if_false] at ha
                             simp [answerBytes, ihl ha]
                  | ub => simp only [accepted, List.filter_cons, isOk_ub, Bool.false_eq_true, if_false] at ha
                          simp [answerBytes, ihl ha]
              simp [e2, hz _ e2]
            · -- a further request was accepted, so the day had not ended yet
              have hd : s'.day = s.day := by
                rw [f2]
                rw [k1, f1] at hle
                have : ¬ (s.progress two + 1 = quota two) := by omega
                simp [this]
              simp only [e2, if_false, hd, if_true]
              omega
          · by_cases e2 : accepted (IV := IV) (dserve two B s' qs).2 = 0
            · simp [e2, e, Ne.symm e]
            · have hd : s'.day = s.day := by
                rw [f2]
                rw [k1, f1] at hle
                have : ¬ (s.progress two + 1 = quota two) := by omega
                simp [this]
              simp [e2, hd, e, Ne.symm e]

/-- C50: between two resets a deletion server accepts at most one request (two for deletion-psi) – whatever requests
arrive; the day is over exactly when that number has been accepted, and only then the day counter advances, by one. -/
theorem C50_del_day (two : Bool) (B : DBiz σ I II) (s : DSrv σ) (reqs : List (ClientMsg I S X)) :
    let r : DSrv σ × List (Outcome (Option (ServerMsg II IV))) := dserve two B s.reset reqs
    accepted r.2 ≤ quota two ∧ (r.1.dayFinished = true ↔ accepted r.2 = quota two) ∧
    r.1.day = s.day + (if accepted r.2 = quota two then 1 else 0) := by
  intro r
  obtain ⟨h1, h2, -⟩ := dserve_day (IV := IV) two B reqs s.reset
  have h0 : s.reset.progress two = 0 := by simp [DSrv.reset, DSrv.progress]
  change r.1.progress two = s.reset.progress two + accepted r.2 at h1
  change r.1.day = s.day + (if s.reset.progress two < quota two ∧ s.reset.progress two + accepted r.2 = quota two then 1 else 0) at h2
  have hle := DSrv.progress_le two r.1
  have hq : 0 < quota two := by cases two <;> simp [quota]
  rw [h0] at h1 h2
  simp only [Nat.zero_add] at h1 h2
  refine ⟨by omega, ?_, ?_⟩
  · rw [← h1]
    cases hf : r.1.dayFinished <;> simp only [DSrv.progress, hf, Bool.false_eq_true, if_false, if_true, false_iff, true_iff]
    cases two <;> cases r.1.firstRound <;> simp [quota]
  · rw [h2]; simp only [hq, true_and]

/-- C52: the answers of a day are added to that day's counter and to no other. -/
theorem C52_del_day (two : Bool) (B : DBiz σ I II) (s : DSrv σ) (reqs : List (ClientMsg I S X)) (d : Nat) (c : Nat)
    (hc : s.comm[d]? = some c) (hlt : c < 2 ^ 64) :
    let r : DSrv σ × List (Outcome (Option (ServerMsg II IV))) := dserve two B s.reset reqs
    r.1.comm[d]? = some (if d = s.day then (c + (r.2.map (answerBytes B)).sum) % 2 ^ 64 else c) := by
  intro r
  obtain ⟨-, -, h3⟩ := dserve_day (IV := IV) two B reqs s.reset
  have h := h3 d
  change r.1.comm[d]? = (s.comm[d]?).map (fun c => if accepted r.2 = 0 then c else if d = s.day then (c + (r.2.map (answerBytes B)).sum) % 2 ^ 64 else c) at h
  rw [h, hc]
  simp only [Option.map_some]
  by_cases e2 : accepted r.2 = 0
  · have hz : ∀ (l : List (Outcome (Option (ServerMsg II IV)))), accepted l = 0 → (l.map (answerBytes B)).sum = 0 := by
      intro l
      induction l with
      | nil => intro _; rfl
      | cons a l ihl =>
        intro ha
        cases a with
        | ok x => simp [accepted] at ha
        | err e => simp only [accepted, List.filter_cons, isOk_err, Bool.false_eq_true, if_false] at ha
                   simp [answerBytes, ihl ha]
        | abort => simp only [accepted, List.filter_cons, isOk_abort, Bool.false_eq_true, if_false] at ha
                   simp [answerBytes, ihl ha]
        | ub => simp only [accepted, List.filter_cons, isOk_ub, Bool.false_eq_true, if_false] at ha
                simp [answerBytes, ihl ha]
    simp only [e2, if_true, hz _ e2, Nat.add_zero, Nat.mod_eq_of_lt hlt, ite_self]
  · simp [e2]

/-! ### The data a deletion server uses -/

/-- Recording the data used: day, additions or deletions, success. -/
def dlogged (B : DBiz σ I II) : DBiz (σ × List (Nat × Bool × Bool)) I II where
  genII s m d a := let r := B.genII s.1 m d a; ((r.1, s.2 ++ [(d, a, r.2.isOk)]), r.2)
  size := B.size

def dokDays (l : List (Nat × Bool × Bool)) : List (Nat × Bool) := (l.filter (·.2.2)).map (fun x => (x.1, x.2.1))

/-- What must have been used: for each completed day its deletions and then its additions (deletion-psi), or its data set. -/
def expectedUse (two : Bool) (day progress : Nat) : List (Nat × Bool) :=
  ((List.range day).flatMap fun d => if two then [(d, false), (d, true)] else [(d, false)]) ++
  (if progress = 1 ∧ two then [(day, false)] else [])

/-- The rounds of the current day done, `0` once the day is over (and the counter has advanced). -/
def DSrv.open (two : Bool) (s : DSrv σ) : Nat := if s.dayFinished then 0 else s.progress two

theorem dhandle_log (two : Bool) (B : DBiz σ I II) (s : DSrv (σ × List (Nat × Bool × Bool))) (r : ClientMsg I S X)
    (h : dokDays s.biz.2 = expectedUse two s.day (s.open two)) :
    let s' := (s.handle two (dlogged B) r : _ × Outcome (Option (ServerMsg II IV))).1
    dokDays s'.biz.2 = expectedUse two s'.day (s'.open two) := by
  intro s'
  cases hc : (s.handle two (dlogged B) r : _ × Outcome (Option (ServerMsg II IV))).2.isOk with
  | false =>
    have : dokDays s'.biz.2 = dokDays s.biz.2 ∧ s'.day = s.day ∧ s'.open two = s.open two := by
      simp only [s']
      rcases dhandle_fail hc with h | ⟨m, -, hg, h⟩
      · rw [h]; exact ⟨rfl, rfl, rfl⟩
      · rw [h]
        have hg' : (B.genII s.biz.1 m s.day (two && s.firstRound)).2.isOk = false := hg
        refine ⟨?_, rfl, rfl⟩
        simp [dlogged, dokDays, hg']
    rw [this.1, this.2.1, this.2.2]; exact h
  | true =>
    obtain ⟨o, ho⟩ := Outcome.isOk_iff.1 hc
    obtain ⟨m, ii, rfl, rfl, h1, h2, h3, h4⟩ := dhandle_ok ho
    have h3' : (B.genII s.biz.1 m s.day (two && s.firstRound)).2 = .ok ii := h3
    simp only [s', h4]
    have hnew : dokDays ((dlogged B).genII s.biz m s.day (two && s.firstRound)).1.2 = dokDays s.biz.2 ++ [(s.day, two && s.firstRound)] := by
      simp only [dlogged, h3', isOk_ok]
      simp [dokDays]
    cases two <;> cases hr : s.firstRound <;>
      simp_all [DSrv.finishDay, DSrv.open, DSrv.progress, expectedUse, List.range_succ]

theorem dserve_log (two : Bool) (B : DBiz σ I II) (reqs : List (ClientMsg I S X)) : ∀ s : DSrv (σ × List (Nat × Bool × Bool)),
    dokDays s.biz.2 = expectedUse two s.day (s.open two) →
    let s' := (dserve two (dlogged B) s reqs : _ × List (Outcome (Option (ServerMsg II IV)))).1
    dokDays s'.biz.2 = expectedUse two s'.day (s'.open two) := by
  induction reqs with
  | nil => intro s h; exact h
  | cons r rs ih =>
    intro s h
    have h1 := dhandle_log (IV := IV) two B s r h
    simp only [dserve]
    cases (s.handle two (dlogged B) r : _ × Outcome (Option (ServerMsg II IV))).2 with
    | ok a => exact ih _ h1
    | err e => exact ih _ h1
    | abort => exact h1
    | ub => exact h1

/-- Party one's whole run: a reset before every day (deletion/run.cc:189-217, deletion-psi/run.cc), then the requests of the day, until the day is
over (the run waits for it; without that many accepted requests the run does not get further: `none`). -/
def drun (two : Bool) (B : DBiz σ I II) : DSrv σ → List (List (ClientMsg I S X)) → Option (DSrv σ)
  | s, [] => some s
  | s, rs :: days =>
    let a : DSrv σ × List (Outcome (Option (ServerMsg II Empty))) := dserve two B s.reset rs
    if a.1.dayFinished then drun two B a.1 days else none

theorem drun_log (two : Bool) (B : DBiz σ I II) (days : List (List (ClientMsg I S X))) : ∀ (s s' : DSrv (σ × List (Nat × Bool × Bool))),
    dokDays s.biz.2 = expectedUse two s.day 0 → drun two (dlogged B) s days = some s' →
    s'.day = s.day + days.length ∧ dokDays s'.biz.2 = expectedUse two s'.day 0 := by
  induction days with
  | nil => intro s s' h h'; simp [drun] at h'; subst h'; exact ⟨by simp, h⟩
  | cons rs days ih =>
    intro s s' h h'
    simp only [drun] at h'
    have h0 : DSrv.open two s.reset = 0 := by simp [DSrv.open, DSrv.reset, DSrv.progress]
    have h1 := dserve_log (IV := Empty) two B rs s.reset (by rw [h0]; exact h)
    have h2 := C50_del_day (IV := Empty) two (dlogged B) s rs
    revert h' h1 h2
    generalize (dserve two (dlogged B) s.reset rs : _ × List (Outcome (Option (ServerMsg II Empty)))) = a
    intro h' h1 h2
    cases hf : a.1.dayFinished with
    | false => simp [hf] at h'
    | true =>
      simp only [hf, if_true] at h'
      have ho : a.1.open two = 0 := by simp [DSrv.open, hf]
      simp only [ho] at h1
      obtain ⟨k1, k2⟩ := ih a.1 s' h1 h'
      simp only [hf, true_iff] at h2
      have := h2.2.2
      rw [if_pos h2.2.1] at this
      exact ⟨by simp only [List.length_cons]; omega, k2⟩

/-- C50: over a whole run of a deletion server – any requests on any day – the day counter ends at the number of days, and
the data processed successfully are, day after day, the data set of that day once (deletion), or its deletions once and
then its additions once (deletion-psi). -/
theorem C50_del_run (two : Bool) (B : DBiz σ I II) (b : σ) (T : Nat) (days : List (List (ClientMsg I S X)))
    (s' : DSrv (σ × List (Nat × Bool × Bool))) (h : drun two (dlogged B) (DSrv.init (b, []) T) days = some s') :
    s'.day = days.length ∧
    dokDays s'.biz.2 = (List.range days.length).flatMap (fun d => if two then [(d, false), (d, true)] else [(d, false)]) := by
  obtain ⟨h1, h2⟩ := drun_log two B days _ s' (by simp [DSrv.init, dokDays, expectedUse]) h
  simp only [DSrv.init, Nat.zero_add] at h1
  refine ⟨h1, ?_⟩
  rw [h2, h1]; simp [expectedUse]

/-- C50: a server that is reset for more days than configured reads past its data sets. -/
theorem C50_del_too_many_days (two : Bool) (B : DBiz σ I II) (s : DSrv σ) (h : s.comm.length ≤ s.day) (m : I) :
    (s.reset.handle two B (.p0 (.i m) : ClientMsg I S X) : DSrv σ × Outcome (Option (ServerMsg II IV))).2 = .ub := by
  have : ¬ s.day < s.comm.length := by omega
  simp [DSrv.handle, DSrv.reset, this]

/-! ### Printing -/

/-- The numbers printed for the garbled circuits: the growth of the connection's counter. -/
def deltas : Nat → List Nat → List Nat
  | _, [] => []
  | p, a :: l => (a - p) :: deltas a l

theorem deltas_sum (l : List Nat) : ∀ p, (p :: l).Pairwise (· ≤ ·) → p + (deltas p l).sum = (l.getLast?).getD p := by
  induction l with
  | nil => intro p _; simp [deltas]
  | cons a l ih =>
    intro p h
    have h1 : p ≤ a := by simp only [List.pairwise_cons] at h; exact h.1 a (by simp)
    have h2 := ih a (List.pairwise_cons.1 h).2
    simp only [deltas, List.sum_cons]
    cases l with
    | nil => simp [deltas]; omega
    | cons b l => simp only [List.getLast?_cons_cons]; simp only [List.getLast?_cons, Option.getD_some] at h2 ⊢; omega

theorem zip_deltas (l : List Nat) : ∀ p, (p :: l).Pairwise (· ≤ ·) → (∀ x ∈ l, x < 2 ^ 64) →
    l.zipWith (fun a b => (a + 2 ^ 64 - b) % 2 ^ 64) (p :: l) = deltas p l := by
  induction l with
  | nil => intro p _ _; simp [deltas]
  | cons a l ih =>
    intro p h hb
    have h1 : p ≤ a := by simp only [List.pairwise_cons] at h; exact h.1 a (by simp)
    have h2 := ih a (List.pairwise_cons.1 h).2 (fun x hx => hb x (by simp [hx]))
    have h3 := hb a (by simp)
    simp only [List.zipWith_cons_cons, deltas, h2]
    congr 1
    omega

theorem foldl_mod (l : List Nat) : ∀ t, t + l.sum < 2 ^ 64 → l.foldl (fun t c => (t + c) % 2 ^ 64) t = t + l.sum := by
  induction l with
  | nil => intro t _; simp
  | cons a l ih =>
    intro t h
    simp only [List.sum_cons] at h
    simp only [List.foldl_cons, List.sum_cons]
    rw [Nat.mod_eq_of_lt (by omega), ih _ (by omega)]; omega

/-- C52: with a connection counter that only grows and no 64-bit overflow, party zero and party one of the deletion
protocols print, for each day, its message bytes and the garbled-circuit bytes of that day, and as the total the sum of
everything printed. -/
theorem C52_del_printed (comm gc : List Nat) (hne : gc ≠ []) (hlen : comm.length = gc.length)
    (hmono : gc.Pairwise (· ≤ ·)) (hb : comm.sum + gc.getLast hne < 2 ^ 64) :
    printCommGC comm gc = .ok (comm.zip (deltas 0 gc), comm.sum + (deltas 0 gc).sum) ∧
    (∀ i (hi : i < gc.length), ((deltas 0 gc).take (i + 1)).sum = gc[i]) := by
  have hlast : gc.getLast? = some (gc.getLast hne) := List.getLast?_eq_some_getLast hne
  have hp : (0 :: gc).Pairwise (· ≤ ·) := by simp [hmono]
  have hmax : ∀ x ∈ gc, x ≤ gc.getLast hne := by
    intro x hx
    have := hmono
    rw [← List.dropLast_append_getLast hne, List.pairwise_append] at this
    rw [← List.dropLast_append_getLast hne] at hx
    rcases List.mem_append.1 hx with h | h
    · exact this.2.2 x h _ (by simp)
    · simp at h; omega
  have hsum := deltas_sum gc 0 hp
  rw [hlast] at hsum
  simp only [Nat.zero_add, Option.getD_some] at hsum
  constructor
  · unfold printCommGC
    rw [hlast]
    simp only
    rw [zip_deltas gc 0 hp (fun x hx => by have := hmax x hx; omega), foldl_mod comm 0 (by omega), hsum,
      Nat.mod_eq_of_lt (by omega)]
    simp
  · have key : ∀ (l : List Nat) (p : Nat), (p :: l).Pairwise (· ≤ ·) → ∀ i (hi : i < l.length), p + ((deltas p l).take (i + 1)).sum = l[i] := by
      intro l
      induction l with
      | nil => intro p _ i hi; simp at hi
      | cons a l ih =>
        intro p h i hi
        have h1 : p ≤ a := by simp only [List.pairwise_cons] at h; exact h.1 a (by simp)
        cases i with
        | zero => simp [deltas]; omega
        | succ i =>
          have := ih a (List.pairwise_cons.1 h).2 i (by simpa using hi)
          simp only [deltas, List.take_succ_cons, List.sum_cons, List.getElem_cons_succ]
          omega
    intro i hi
    have := key gc 0 hp i hi
    omega

/-- C52: a run over zero days reads `comm_gc[-1]` when printing. -/
theorem C52_del_zero_days : printCommGC [] [] = .ub := rfl

end Upsi.Role
