import Verif.Role.ShellProps
import Verif.Proto.SSProps
/-
The protocol theorems (C42–C45) are about `runCA`, `runPSI`, `runSum`, `runSS`: one step per day.  Here the computations of
`Verif/Proto/AddModel.lean` and `SSModel.lean` are put into the role shell of `Verif/Role/Shell.lean` – messages, dispatch on the
message kind, day counters, run loop – and the two descriptions are proved to give the same result.

`ds` holds, for each day, both data sets (`datasets[day]`) and the coins drawn that day.
-/
namespace Upsi.Role
open Upsi Upsi.Proto Upsi.ElGamal Upsi.Num

/-! ### General part -/

section General
variable {σ τ I S X II IV δ ρ : Type}

theorem runLoop_runDays (v : Variant) (B0 : Biz0 τ I S X II IV) (B1 : Biz1 σ I S X II IV) (proj : τ → σ → ρ)
    (step : ρ → δ → Outcome ρ) (ds : List δ)
    (hstep : ∀ (w : World τ σ II IV) (d : δ), w.cli.total = ds.length → w.srv.total = ds.length → w.srv.day = w.cli.day →
      ds[w.cli.day]? = some d →
      (runBody v B0 B1 w >>= fun w' => Outcome.ok (proj w'.cli.biz w'.srv.biz)) = step (proj w.cli.biz w.srv.biz) d) :
    ∀ (fuel : Nat) (w : World τ σ II IV), w.cli.total = ds.length → w.srv.total = ds.length → w.srv.day = w.cli.day →
      w.cli.day + fuel = ds.length →
      (runLoop v B0 B1 fuel w >>= fun r => Outcome.ok (r.map (fun w' => proj w'.cli.biz w'.srv.biz))) =
      (runDays step (proj w.cli.biz w.srv.biz) (ds.drop w.cli.day) >>= fun s => Outcome.ok (some s)) := by
  intro fuel
  induction fuel with
  | zero =>
    intro w h1 h2 h3 h4
    have hf : w.cli.finished = true := by simp [Cli.finished]; omega
    have hd : ds.drop w.cli.day = [] := List.drop_eq_nil_of_le (by omega)
    simp [runLoop, hf, hd, runDays]
  | succ n ih =>
    intro w h1 h2 h3 h4
    have hf : w.cli.finished = false := by simp [Cli.finished]; omega
    have hlt : w.cli.day < ds.length := by omega
    have hd : ds.drop w.cli.day = ds[w.cli.day] :: ds.drop (w.cli.day + 1) := List.drop_eq_getElem_cons hlt
    have hs := hstep w ds[w.cli.day] h1 h2 h3 (by simp [hlt])
    rw [hd]
    simp only [runLoop, hf, Bool.false_eq_true, if_false, runDays]
    rw [← hs]
    cases hb : runBody v B0 B1 w with
    | ok w' =>
      obtain ⟨b1, b2, b3, b4⟩ := runBody_day hb
      have := ih w' (by omega) (by omega) (by omega) (by omega)
      rw [b1] at this
      simpa using this
    | err e => simp
    | abort => simp
    | ub => simp

/-- An accepted message I, as seen by party zero. -/
theorem send_I (v : Variant) (B1 : Biz1 σ I S X II IV) (w : World τ σ II IV) (m : I) (h : w.srv.day < w.srv.total) :
    ∃ comm : II → List Int,
    World.send v B1 w (.p0 (.i m)) =
      match (B1.genII w.srv.biz m w.srv.day).2 with
      | .ok ii => .ok { w with srv := ⟨(B1.genII w.srv.biz m w.srv.day).1, w.srv.day + (if v = .noPayload then 1 else 0), w.srv.total, comm ii⟩,
                               response := .p1 (.ii ii) }
      | .err e => .err e
      | .abort => .abort
      | .ub => .ub := by
  refine ⟨fun ii => (((w.srv.addComm (B1.sizeC (.p0 (.i m)))).addComm (B1.sizeS (.p1 (.ii ii)))).comm), ?_⟩
  rcases hg : B1.genII w.srv.biz m w.srv.day with ⟨b, o⟩
  have hh := handle_p0 v B1 w.srv (.i m) h
  simp only [World.send, hh]
  cases v <;> cases o <;> simp [dispatch, answerI, hg, Srv.addComm, Srv.finishDay]

theorem send_Sum (B1 : Biz1 σ I S X II IV) (w : World τ σ II IV) (m : S) (h : w.srv.day < w.srv.total) :
    ∃ comm : IV → List Int,
    World.send .sum B1 w (.p0 (.iiiSum m)) =
      match (B1.procSum w.srv.biz m).2 with
      | .ok iv => .ok { w with srv := ⟨(B1.procSum w.srv.biz m).1, w.srv.day + 1, w.srv.total, comm iv⟩, response := .p1 (.iv iv) }
      | .err e => .err e
      | .abort => .abort
      | .ub => .ub := by
  refine ⟨fun iv => (((w.srv.addComm (B1.sizeC (.p0 (.iiiSum m)))).addComm (B1.sizeS (.p1 (.iv iv)))).comm), ?_⟩
  rcases hg : B1.procSum w.srv.biz m with ⟨b, o⟩
  have hh := handle_p0 .sum B1 w.srv (.iiiSum m) h
  simp only [World.send, hh]
  cases o <;> simp [dispatch, answerSum, hg, Srv.addComm, Srv.finishDay]

theorem send_SS (B1 : Biz1 σ I S X II IV) (w : World τ σ II IV) (m : X) (h : w.srv.day < w.srv.total) :
    ∃ comm : List Int,
    World.send .secretShare B1 w (.p0 (.iiiSS m)) =
      match (B1.procSS w.srv.biz m).2 with
      | .ok _ => .ok { w with srv := ⟨(B1.procSS w.srv.biz m).1, w.srv.day + 1, w.srv.total, comm⟩, response := .none }
      | .err e => .err e
      | .abort => .abort
      | .ub => .ub := by
  refine ⟨(w.srv.addComm (B1.sizeC (.p0 (.iiiSS m)))).comm, ?_⟩
  rcases hg : B1.procSS w.srv.biz m with ⟨b, o⟩
  have hh := handle_p0 .secretShare B1 w.srv (.iiiSS m) h
  simp only [World.send, hh]
  cases o <;> simp [dispatch, answerSS, hg, Srv.addComm, Srv.finishDay]

/-- Adapter: a computation that leaves the state alone when it fails. -/
def keep (s : σ) (x : Outcome (σ × α)) : σ × Outcome α :=
  match x with
  | .ok (s', a) => (s', .ok a)
  | .err e => (s, .err e)
  | .abort => (s, .abort)
  | .ub => (s, .ub)

@[simp] theorem keep_ok (s : σ) (x : σ × α) : keep s (.ok x) = (x.1, .ok x.2) := rfl
@[simp] theorem keep_err (s : σ) (e) : keep s (.err e : Outcome (σ × α)) = (s, .err e) := rfl
@[simp] theorem keep_abort (s : σ) : keep s (.abort : Outcome (σ × α)) = (s, .abort) := rfl
@[simp] theorem keep_ub (s : σ) : keep s (.ub : Outcome (σ × α)) = (s, .ub) := rfl

/-- Reading `datasets[day]`. -/
def atDay (ds : List δ) (d : Nat) : Outcome δ :=
  match ds[d]? with
  | some x => .ok x
  | none => .ub

theorem atDay_some {ds : List δ} {d : Nat} {x : δ} (h : ds[d]? = some x) : atDay ds d = .ok x := by simp [atDay, h]

/-- One round of the protocols without payload. -/
theorem runBody_noPayload (B0 : Biz0 τ I S X II IV) (B1 : Biz1 σ I S X II IV) (w : World τ σ II IV) (proj : τ → σ → ρ)
    (h1 : w.cli.day < w.cli.total) (h2 : w.srv.day < w.srv.total) :
    (runBody .noPayload B0 B1 w >>= fun w' => Outcome.ok (proj w'.cli.biz w'.srv.biz)) =
    (B0.genI w.cli.biz w.cli.day >>= fun tm =>
      (B1.genII w.srv.biz tm.2 w.srv.day).2 >>= fun ii =>
      B0.procII tm.1 ii >>= fun t => Outcome.ok (proj t (B1.genII w.srv.biz tm.2 w.srv.day).1)) := by
  have hf : w.cli.finished = false := by simp [Cli.finished]; omega
  simp only [runBody, sendI]
  cases hg : B0.genI w.cli.biz w.cli.day with
  | err e => simp
  | abort => simp
  | ub => simp
  | ok tm =>
    obtain ⟨t, m⟩ := tm
    obtain ⟨comm, hs⟩ := send_I .noPayload B1 { w with cli := { w.cli with biz := t } } m h2
    simp only [Outcome.bind_ok, hs]
    rcases (B1.genII w.srv.biz m w.srv.day) with ⟨b, o⟩
    cases o with
    | err e => simp
    | abort => simp
    | ub => simp
    | ok ii =>
      have hf' : (Cli.finished { w.cli with biz := t }) = false := hf
      simp only [Outcome.bind_ok, handle0, hf', Bool.false_eq_true, if_false, onII]
      cases B0.procII t ii <;> simp [Cli.finishDay]

/-- One round of the sum protocol. -/
theorem runBody_sum (B0 : Biz0 τ I S X II IV) (B1 : Biz1 σ I S X II IV) (w : World τ σ II IV) (proj : τ → σ → ρ)
    (h1 : w.cli.day < w.cli.total) (h2 : w.srv.day < w.srv.total) :
    (runBody .sum B0 B1 w >>= fun w' => Outcome.ok (proj w'.cli.biz w'.srv.biz)) =
    (B0.genI w.cli.biz w.cli.day >>= fun tm =>
      (B1.genII w.srv.biz tm.2 w.srv.day).2 >>= fun ii =>
      B0.sendSum tm.1 ii w.cli.day >>= fun tr =>
      (B1.procSum (B1.genII w.srv.biz tm.2 w.srv.day).1 tr.2).2 >>= fun iv =>
      B0.procIV tr.1 iv >>= fun t => Outcome.ok (proj t (B1.procSum (B1.genII w.srv.biz tm.2 w.srv.day).1 tr.2).1)) := by
  have hf : w.cli.finished = false := by simp [Cli.finished]; omega
  simp only [runBody, sendI]
  cases hg : B0.genI w.cli.biz w.cli.day with
  | err e => simp
  | abort => simp
  | ub => simp
  | ok tm =>
    obtain ⟨t, m⟩ := tm
    obtain ⟨comm, hs⟩ := send_I .sum B1 { w with cli := { w.cli with biz := t } } m h2
    simp only [Outcome.bind_ok, hs]
    rcases (B1.genII w.srv.biz m w.srv.day) with ⟨b, o⟩
    cases o with
    | err e => simp
    | abort => simp
    | ub => simp
    | ok ii =>
      have hf' : ∀ x, (Cli.finished (⟨x, w.cli.day, w.cli.total⟩ : Cli τ)) = false := fun _ => hf
      simp only [Outcome.bind_ok, handle0, hf', Bool.false_eq_true, if_false, onII]
      cases B0.sendSum t ii w.cli.day with
      | err e => simp
      | abort => simp
      | ub => simp
      | ok tr =>
        obtain ⟨t', r⟩ := tr
        simp only [Outcome.bind_ok, reduceCtorEq, if_false, Nat.add_zero]
        obtain ⟨comm2, hs2⟩ := send_Sum B1 (⟨⟨t', w.cli.day, w.cli.total⟩, ⟨b, w.srv.day, w.srv.total, comm ii⟩, .p1 (.ii ii)⟩ : World τ σ II IV) r h2
        rw [hs2]
        simp only
        rcases (B1.procSum b r) with ⟨b', o⟩
        cases o with
        | err e => simp
        | abort => simp
        | ub => simp
        | ok iv =>
          simp only [Outcome.bind_ok, hf', Bool.false_eq_true, if_false, onIV]
          cases B0.procIV t' iv <;> simp [Cli.finishDay]

/-- One round of the secret-sharing protocol. -/
theorem runBody_SS (B0 : Biz0 τ I S X II IV) (B1 : Biz1 σ I S X II IV) (w : World τ σ II IV) (proj : τ → σ → ρ)
    (h1 : w.cli.day < w.cli.total) (h2 : w.srv.day < w.srv.total) :
    (runBody .secretShare B0 B1 w >>= fun w' => Outcome.ok (proj w'.cli.biz w'.srv.biz)) =
    (B0.genI w.cli.biz w.cli.day >>= fun tm =>
      (B1.genII w.srv.biz tm.2 w.srv.day).2 >>= fun ii =>
      B0.sendSS tm.1 ii w.cli.day >>= fun tr =>
      (B1.procSS (B1.genII w.srv.biz tm.2 w.srv.day).1 tr.2).2 >>= fun _ =>
      Outcome.ok (proj tr.1 (B1.procSS (B1.genII w.srv.biz tm.2 w.srv.day).1 tr.2).1)) := by
  have hf : w.cli.finished = false := by simp [Cli.finished]; omega
  simp only [runBody, sendI]
  cases hg : B0.genI w.cli.biz w.cli.day with
  | err e => simp
  | abort => simp
  | ub => simp
  | ok tm =>
    obtain ⟨t, m⟩ := tm
    obtain ⟨comm, hs⟩ := send_I .secretShare B1 { w with cli := { w.cli with biz := t } } m h2
    simp only [Outcome.bind_ok, hs]
    rcases (B1.genII w.srv.biz m w.srv.day) with ⟨b, o⟩
    cases o with
    | err e => simp
    | abort => simp
    | ub => simp
    | ok ii =>
      have hf' : ∀ x, (Cli.finished (⟨x, w.cli.day, w.cli.total⟩ : Cli τ)) = false := fun _ => hf
      simp only [Outcome.bind_ok, handle0, hf', Bool.false_eq_true, if_false, onII]
      cases B0.sendSS t ii w.cli.day with
      | err e => simp
      | abort => simp
      | ub => simp
      | ok tr =>
        obtain ⟨t', r⟩ := tr
        simp only [Outcome.bind_ok, reduceCtorEq, if_false, Nat.add_zero]
        obtain ⟨comm2, hs2⟩ := send_SS B1 (⟨Cli.finishDay ⟨t', w.cli.day, w.cli.total⟩, ⟨b, w.srv.day, w.srv.total, comm ii⟩, .p1 (.ii ii)⟩ : World τ σ II IV) r h2
        rw [hs2]
        simp only
        rcases (B1.procSS b r) with ⟨b', o⟩
        cases o <;> simp [Cli.finishDay]

/-- The world before the first day. -/
def World.start (t : τ) (s : σ) (T : Nat) : World τ σ II IV := ⟨⟨t, 0, T⟩, Srv.init s T, .none⟩

end General

variable {G : Type} [AddCommGroup G] [DecidableEq G]

/-! ### Cardinality -/

/-- Party zero of the cardinality protocol: `genI`, then `ProcessMessageII` (addition/party_zero.cc:307-326). -/
def biz0CA (S : Setup G) (c : Codec G) (hashOf : Nat → List Bool) (ds : List (DayIn G Nat Unit)) :
    Biz0 (St0 G Nat × Nat) ProtoMsg Empty Empty ProtoMsg Empty where
  genI t d := do
    let day ← atDay ds d
    let (p0, m) ← genI (funcCA c) hashOf S.pk t.1 day.xs day.coins
    pure ((p0, t.2), m)
  procII t m := do
    let (p0, cands) ← recvII (funcCA c) c t.1 m
    pure (p0, countLoop S.sk0 cands t.2)
  sendSum _ x _ := .err "no such message"
  sendSS _ x _ := .err "no such message"
  procIV _ x := nomatch x

/-- Party one of the cardinality protocol.  `size` is any size function. -/
def biz1CA (S : Setup G) (c : Codec G) (hashOf : Nat → List Bool) (ds : List (DayIn G Nat Unit))
    (sizeC : ClientMsg ProtoMsg Empty Empty → Nat) (sizeS : ServerMsg ProtoMsg Empty → Nat) :
    Biz1 (St1 (Ct G)) ProtoMsg Empty Empty ProtoMsg Empty where
  genII s m d := keep s (do
    let day ← atDay ds d
    genII (funcCA c) c hashOf S.pk S.sk1 s m day.ys day.coins)
  procSum _ x := nomatch x
  procSS _ x := nomatch x
  sizeC := sizeC
  sizeS := sizeS

theorem bind_assoc' {α β γ : Type} (x : Outcome α) (f : α → Outcome β) (g : β → Outcome γ) :
    ((x >>= f) >>= g) = (x >>= fun a => f a >>= g) := by cases x <;> rfl

/-- C50/C42: the message-passing run of the cardinality protocol – requests, dispatch, day counters – gives exactly the
result of the day-by-day description that the C42 theorems are about. -/
theorem C50_refines_cardinality (S : Setup G) (c : Codec G) (hashOf : Nat → List Bool) (stash node : Nat)
    (ds : List (DayIn G Nat Unit)) (sizeC sizeS) :
    (runLoop .noPayload (biz0CA S c hashOf ds) (biz1CA S c hashOf ds sizeC sizeS) ds.length
        (World.start (St0.init stash node, 0) (St1.init stash node) ds.length) >>=
      fun r => Outcome.ok (r.map (fun w => (⟨w.cli.biz.1, w.srv.biz, w.cli.biz.2⟩ : StCA G)))) =
    (runCA S c hashOf stash node ds >>= fun s => Outcome.ok (some s)) := by
  have := runLoop_runDays .noPayload (biz0CA S c hashOf ds) (biz1CA S c hashOf ds sizeC sizeS)
    (fun t s => (⟨t.1, s, t.2⟩ : StCA G)) (fun s d => dayCA c hashOf S.pk S.sk0 S.sk1 s d.xs d.ys d.coins) ds ?_ ds.length
    (World.start (St0.init stash node, 0) (St1.init stash node) ds.length) rfl rfl rfl (by simp [World.start])
  · exact this
  · intro w d h1 h2 h3 h4
    have hlt : w.cli.day < ds.length := by
      by_contra hh
      rw [List.getElem?_eq_none (by omega)] at h4; cases h4
    rw [runBody_noPayload _ _ w (fun t s => (⟨t.1, s, t.2⟩ : StCA G)) (by omega) (by omega)]
    have h4' : ds[w.srv.day]? = some d := by rw [h3]; exact h4
    simp only [biz0CA, biz1CA, atDay_some h4, atDay_some h4', Outcome.bind_ok, dayCA, exchange, bind_assoc', Outcome.pure_eq]
    congr 1; funext a
    cases genII (funcCA c) c hashOf S.pk S.sk1 w.srv.biz a.2 d.ys d.coins <;> simp

/-! ### PSI -/

/-- Party zero of the PSI protocol: the element map (addition/party_zero.cc:135-137), `genI`, `ProcessMessageII`
(280-305). -/
def biz0PSI (S : Setup G) (c cu : Codec G) (hashOf : Nat → List Bool) (ds : List (DayIn G Nat (Ct G))) :
    Biz0 (St0 G Nat × Mapping × List (Option Nat)) ProtoMsg Empty Empty ProtoMsg Empty where
  genI t d := do
    let day ← atDay ds d
    let mp ← recordAll cu S.pk day.xs t.2.1
    let (p0, m) ← genI (funcPSI c cu) hashOf S.pk t.1 day.xs day.coins
    pure ((p0, mp, t.2.2), m)
  procII t m := do
    let (p0, cands) ← recvII (funcPSI c cu) c t.1 m
    let out ← psiLoop cu S.sk0 t.2.1 cands t.2.2
    pure (p0, t.2.1, out)
  sendSum _ x _ := .err "no such message"
  sendSS _ x _ := .err "no such message"
  procIV _ x := nomatch x

/-- Party one of the PSI protocol. -/
def biz1PSI (S : Setup G) (c cu : Codec G) (hashOf : Nat → List Bool) (ds : List (DayIn G Nat (Ct G)))
    (sizeC : ClientMsg ProtoMsg Empty Empty → Nat) (sizeS : ServerMsg ProtoMsg Empty → Nat) :
    Biz1 (St1 (Ct G)) ProtoMsg Empty Empty ProtoMsg Empty where
  genII s m d := keep s (do
    let day ← atDay ds d
    genII (funcPSI c cu) c hashOf S.pk S.sk1 s m day.ys day.coins)
  procSum _ x := nomatch x
  procSS _ x := nomatch x
  sizeC := sizeC
  sizeS := sizeS

/-- C50/C43: the same for the PSI protocol. -/
theorem C50_refines_psi (S : Setup G) (c cu : Codec G) (hashOf : Nat → List Bool) (stash node : Nat)
    (ds : List (DayIn G Nat (Ct G))) (sizeC sizeS) :
    (runLoop .noPayload (biz0PSI S c cu hashOf ds) (biz1PSI S c cu hashOf ds sizeC sizeS) ds.length
        (World.start (St0.init stash node, [], []) (St1.init stash node) ds.length) >>=
      fun r => Outcome.ok (r.map (fun w => (⟨w.cli.biz.1, w.srv.biz, w.cli.biz.2.1, w.cli.biz.2.2⟩ : StPSI G)))) =
    (runPSI S c cu hashOf stash node ds >>= fun s => Outcome.ok (some s)) := by
  have := runLoop_runDays .noPayload (biz0PSI S c cu hashOf ds) (biz1PSI S c cu hashOf ds sizeC sizeS)
    (fun t s => (⟨t.1, s, t.2.1, t.2.2⟩ : StPSI G)) (fun s d => dayPSI c cu hashOf S.pk S.sk0 S.sk1 s d.xs d.ys d.coins) ds ?_ ds.length
    (World.start (St0.init stash node, [], []) (St1.init stash node) ds.length) rfl rfl rfl (by simp [World.start])
  · exact this
  · intro w d h1 h2 h3 h4
    have hlt : w.cli.day < ds.length := by
      by_contra hh
      rw [List.getElem?_eq_none (by omega)] at h4; cases h4
    rw [runBody_noPayload _ _ w (fun t s => (⟨t.1, s, t.2.1, t.2.2⟩ : StPSI G)) (by omega) (by omega)]
    have h4' : ds[w.srv.day]? = some d := by rw [h3]; exact h4
    simp only [biz0PSI, biz1PSI, atDay_some h4, atDay_some h4', Outcome.bind_ok, dayPSI, exchange, bind_assoc', Outcome.pure_eq]
    congr 1; funext mp
    congr 1; funext a
    cases genII (funcPSI c cu) c hashOf S.pk S.sk1 w.srv.biz a.2 d.ys d.coins <;> simp

/-! ### Sum -/

/-- Party zero of the sum protocol: `genI`, `SendMessageIII` (addition/party_zero.cc:328-363), `ProcessMessageIV`
(463-477). -/
def biz0Sum (S : Setup G) (c : Codec G) (limit : Nat) (hashOf : Nat → List Bool) (ds : List (DayIn G (Nat × Int) (Ct G))) :
    Biz0 (St0 G (Nat × Int) × Nat × UInt64) ProtoMsg CtProto Empty ProtoMsg CtProto where
  genI t d := do
    let day ← atDay ds d
    let (p0, m) ← genI (funcSum c) hashOf S.pk t.1 day.xs day.coins
    pure ((p0, t.2), m)
  procII _ _ := .err "no such message"
  sendSum t m d := do
    let day ← atDay ds d
    let (p0, cands) ← recvII (funcSum c) c t.1 m
    let r := sumLoop S.sk0 cands t.2.1 (encrypt S.pk (day.coins.last 0 0) 0)
    let m3 ← serializeCt c r.2
    pure ((p0, r.1, t.2.2), m3)
  sendSS _ x _ := .err "no such message"
  procIV t m := do
    let sum ← deserializeCt c m
    let big ← decryptExp S.sk0 (initDecryptExp S.pk.g limit) sum
    let v ← toIntValue big
    pure (t.1, t.2.1, t.2.2 + v)

/-- Party one of the sum protocol: `genII`, `ProcessMessageIII` (addition/party_one.cc:324-344). -/
def biz1Sum (S : Setup G) (c : Codec G) (hashOf : Nat → List Bool) (ds : List (DayIn G (Nat × Int) (Ct G)))
    (sizeC : ClientMsg ProtoMsg CtProto Empty → Nat) (sizeS : ServerMsg ProtoMsg CtProto → Nat) :
    Biz1 (St1 (Ct G × Ct G)) ProtoMsg CtProto Empty ProtoMsg CtProto where
  genII s m d := keep s (do
    let day ← atDay ds d
    genII (funcSum c) c hashOf S.pk S.sk1 s m day.ys day.coins)
  procSum s m := (s, do
    let sum ← deserializeCt c m
    serializeCt c (partialDecrypt S.sk1 sum))
  procSS _ x := nomatch x
  sizeC := sizeC
  sizeS := sizeS

/-- C50/C44: the same for the sum protocol, with its four messages per day. -/
theorem C50_refines_sum (S : Setup G) (c : Codec G) (limit : Nat) (hashOf : Nat → List Bool) (stash node : Nat)
    (ds : List (DayIn G (Nat × Int) (Ct G))) (sizeC sizeS) :
    (runLoop .sum (biz0Sum S c limit hashOf ds) (biz1Sum S c hashOf ds sizeC sizeS) ds.length
        (World.start (St0.init stash node, 0, 0) (St1.init stash node) ds.length) >>=
      fun r => Outcome.ok (r.map (fun w => (⟨w.cli.biz.1, w.srv.biz, w.cli.biz.2.1, w.cli.biz.2.2⟩ : StSum G)))) =
    (runSum S c limit hashOf stash node ds >>= fun s => Outcome.ok (some s)) := by
  have := runLoop_runDays .sum (biz0Sum S c limit hashOf ds) (biz1Sum S c hashOf ds sizeC sizeS)
    (fun t s => (⟨t.1, s, t.2.1, t.2.2⟩ : StSum G)) (fun s d => daySum c limit hashOf S.pk S.sk0 S.sk1 s d.xs d.ys d.coins) ds ?_ ds.length
    (World.start (St0.init stash node, 0, 0) (St1.init stash node) ds.length) rfl rfl rfl (by simp [World.start])
  · exact this
  · intro w d h1 h2 h3 h4
    have hlt : w.cli.day < ds.length := by
      by_contra hh
      rw [List.getElem?_eq_none (by omega)] at h4; cases h4
    rw [runBody_sum _ _ w (fun t s => (⟨t.1, s, t.2.1, t.2.2⟩ : StSum G)) (by omega) (by omega)]
    have h4' : ds[w.srv.day]? = some d := by rw [h3]; exact h4
    simp only [biz0Sum, biz1Sum, atDay_some h4, atDay_some h4', Outcome.bind_ok, daySum, exchange, bind_assoc', Outcome.pure_eq]
    congr 1; funext a
    cases genII (funcSum c) c hashOf S.pk S.sk1 w.srv.biz a.2 d.ys d.coins <;> simp

/-! ### Secret sharing -/

/-- Party zero of the secret-sharing protocol: `genI` on the loaded rows, `SendMessageIII`
(addition/party_zero.cc:365-405). -/
def biz0SS (S : Setup G) (c : Codec G) (mont : Int → Option Num.Mont) (a b : TPaillier) (hashOf : Nat → List Bool)
    (ds : List (DayIn G (Nat × Int) Int)) :
    Biz0 (St0 G (Nat × Int) × List Int) ProtoMsg Empty (List (List UInt8)) ProtoMsg Empty where
  genI t d := do
    let day ← atDay ds d
    let (p0, m) ← genI (funcSS c mont a b) hashOf S.pk t.1 (day.xs.map getPayloadSS) day.coins
    pure ((p0, t.2), m)
  procII _ _ := .err "no such message"
  sendSum _ _ _ := .err "no such message"
  sendSS t m d := do
    let day ← atDay ds d
    let (p0, cands) ← recvII (funcSS c mont a b) c t.1 m
    let (sh0, pays) ← ssLoop mont a S.sk0 day.coins.last 0 cands t.2 []
    pure ((p0, sh0), pays)
  procIV _ x := nomatch x

/-- Party one of the secret-sharing protocol: `genII`, `ProcessMessageIII` (addition/party_one.cc:414-428). -/
def biz1SS (S : Setup G) (c : Codec G) (mont : Int → Option Num.Mont) (a b : TPaillier) (hashOf : Nat → List Bool)
    (ds : List (DayIn G (Nat × Int) Int))
    (sizeC : ClientMsg ProtoMsg Empty (List (List UInt8)) → Nat) (sizeS : ServerMsg ProtoMsg Empty → Nat) :
    Biz1 (St1 (Ct G × Int) × List Int) ProtoMsg Empty (List (List UInt8)) ProtoMsg Empty where
  genII s m d := keep s (do
    let day ← atDay ds d
    let (p1, m2) ← genII (funcSS c mont a b) c hashOf S.pk S.sk1 s.1 m day.ys day.coins
    pure ((p1, s.2), m2))
  procSum _ x := nomatch x
  procSS s pays := keep s (do
    let sh ← ssRecv b pays s.2
    pure ((s.1, sh), ()))
  sizeC := sizeC
  sizeS := sizeS

/-- C50/C45: the same for the secret-sharing protocol, with its three messages per day. -/
theorem C50_refines_secret_share (S : Setup G) (c : Codec G) (mont : Int → Option Num.Mont) (a b : TPaillier) (hashOf : Nat → List Bool)
    (stash node : Nat) (ds : List (DayIn G (Nat × Int) Int)) (sizeC sizeS) :
    (runLoop .secretShare (biz0SS S c mont a b hashOf ds) (biz1SS S c mont a b hashOf ds sizeC sizeS) ds.length
        (World.start (St0.init stash node, []) (St1.init stash node, []) ds.length) >>=
      fun r => Outcome.ok (r.map (fun w => (⟨w.cli.biz.1, w.srv.biz.1, w.cli.biz.2, w.srv.biz.2⟩ : StSS G)))) =
    (runSS S c mont a b hashOf stash node ds >>= fun s => Outcome.ok (some s)) := by
  have := runLoop_runDays .secretShare (biz0SS S c mont a b hashOf ds) (biz1SS S c mont a b hashOf ds sizeC sizeS)
    (fun t s => (⟨t.1, s.1, t.2, s.2⟩ : StSS G)) (fun s d => daySS c mont a b hashOf S.pk S.sk0 S.sk1 s d.xs d.ys d.coins) ds ?_ ds.length
    (World.start (St0.init stash node, []) (St1.init stash node, []) ds.length) rfl rfl rfl (by simp [World.start])
  · exact this
  · intro w d h1 h2 h3 h4
    have hlt : w.cli.day < ds.length := by
      by_contra hh
      rw [List.getElem?_eq_none (by omega)] at h4; cases h4
    rw [runBody_SS _ _ w (fun t s => (⟨t.1, s.1, t.2, s.2⟩ : StSS G)) (by omega) (by omega)]
    have h4' : ds[w.srv.day]? = some d := by rw [h3]; exact h4
    simp only [biz0SS, biz1SS, atDay_some h4, atDay_some h4', Outcome.bind_ok, daySS, daySSBody, exchange, bind_assoc', Outcome.pure_eq]
    congr 1; funext x
    cases genII (funcSS c mont a b) c hashOf S.pk S.sk1 w.srv.biz.1 x.2 d.ys d.coins with
    | err e => simp
    | abort => simp
    | ub => simp
    | ok y =>
      simp only [Outcome.bind_ok, keep_ok]
      congr 1; funext z
      congr 1; funext u
      cases ssRecv b u.2 w.srv.biz.2 <;> simp

end Upsi.Role
