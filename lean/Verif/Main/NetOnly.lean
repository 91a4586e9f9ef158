import Verif.Main.NetProps
import Verif.Main.NetOtherProps
import Verif.Proto.Progress
/- The networked protocols fail only as the protocols themselves, or because a message is too large (helper lemmas for C73 and C85). -/
namespace Upsi.Main
open Upsi Upsi.Rec Upsi.ElGamal Upsi.Tree Upsi.Proto Upsi.Setup Upsi.Wire Upsi.Num

/-- The error of a message that gRPC refuses. -/
def SendErr (m : String) : Prop := m = "[ClientMessageSink] failed to send message"

/-- `a` fails because of a refused message, or ends like `b`, up to the projection `f`. -/
def Sim (f : α → β) (a : Outcome α) (b : Outcome β) : Prop :=
  a = .err "[ClientMessageSink] failed to send message" ∨ (match a with
    | .ok v => b = .ok (f v)
    | .err m => b = .err m
    | .abort => b = .abort
    | .ub => b = .ub)

theorem Sim.ok {f : α → β} (v : α) : Sim f (.ok v) (.ok (f v)) := Or.inr rfl

theorem Sim.refl (a : Outcome α) : Sim id a a := by right; cases a <;> rfl

theorem Sim.bind {f : α → β} {f' : α' → β'} {a : Outcome α} {b : Outcome β} {g : α → Outcome α'} {h : β → Outcome β'}
    (hab : Sim f a b) (hgh : ∀ v, a = .ok v → Sim f' (g v) (h (f v))) : Sim f' (a >>= g) (b >>= h) := by
  rcases hab with rfl | hab
  · exact Or.inl rfl
  · cases a with
    | ok v => simp only at hab; subst hab; simpa using hgh v rfl
    | err m => simp only at hab; subst hab; exact Or.inr rfl
    | abort => simp only at hab; subst hab; exact Or.inr rfl
    | ub => simp only at hab; subst hab; exact Or.inr rfl

/-- The same computation on both sides. -/
theorem Sim.same {f' : α' → β'} {a : Outcome α} {g : α → Outcome α'} {h : α → Outcome β'}
    (hgh : ∀ v, Sim f' (g v) (h v)) : Sim f' (a >>= g) (a >>= h) := (Sim.refl a).bind (fun v _ => hgh v)

theorem Sim.toServer {f : α → β} {m : CMsg} {g : CMsg → Outcome α} {b : Outcome β} (h : Sim f (g m) b) : Sim f (Main.toServer m >>= g) b := by
  by_cases hl : (serClient m).length ≤ maxMessage
  · rw [toServer_iff.2 ⟨rfl, hl⟩, Outcome.bind_ok]; exact h
  · rw [Main.toServer, if_neg hl]; exact Or.inl rfl

theorem Sim.toClient {f : α → β} {m : SMsg} {g : SMsg → Outcome α} {b : Outcome β} (h : Sim f (g m) b) : Sim f (Main.toClient m >>= g) b := by
  by_cases hl : (serServer m).length ≤ maxMessage
  · rw [toClient_iff.2 ⟨rfl, hl⟩, Outcome.bind_ok]; exact h
  · rw [Main.toClient, if_neg hl]; exact Or.inl rfl

theorem Sim.only {f : α → β} {a : Outcome α} {b : Outcome β} (h : Sim f a b) {E : String → Prop} {Q : β → Prop} (hb : b.Only E Q) :
    a.Only (fun m => E m ∨ SendErr m) (fun v => Q (f v)) := by
  rcases h with rfl | h
  · exact Or.inr rfl
  · cases a with
    | ok v => simp only at h; subst h; exact hb
    | err m => simp only at h; subst h; exact Or.inl hb
    | abort => simp only at h; subst h; exact hb
    | ub => simp only at h; subst h; exact hb

theorem runNet_sim {step : σ → δ → Outcome (σ × ν)} {step' : σ → δ → Outcome σ} (hs : ∀ s d, Sim Prod.fst (step s d) (step' s d)) :
    ∀ (ds : List δ) (s : σ), Sim Prod.fst (runNet step s ds) (runDays step' s ds)
  | [], s => Sim.ok (f := Prod.fst) (s, [])
  | d :: ds, s => by
    unfold runNet runDays
    refine (hs s d).bind (fun v _ => ?_)
    obtain ⟨s', n⟩ := v
    have := runNet_sim hs ds s'
    rw [← bind_pure_sim (runDays step' s' ds)]
    exact this.bind (fun v _ => Sim.ok (f := Prod.fst) _)
where
  bind_pure_sim (x : Outcome σ) : (x >>= fun v => pure v) = x := by cases x <;> rfl

variable {G : Type} [AddCommGroup G] [DecidableEq G]

theorem exchangeNet_sim (F : Func G P γ κ) (c : Codec G) (hashOf : Nat → List Bool) (pk : PK G) (sk1 : Int)
    (s0 : St0 G P) (s1 : St1 γ) (xs : List P) (ys : List Nat) (ρ : Coins G P κ) :
    Sim (fun r => (r.1, r.2.1, r.2.2.1)) (exchangeNet F c hashOf pk pk sk1 s0 s1 xs ys ρ) (exchange F c hashOf pk sk1 s0 s1 xs ys ρ) := by
  unfold exchangeNet exchange
  refine Sim.same (fun v => ?_)
  obtain ⟨s0', m1⟩ := v
  refine Sim.toServer ?_
  simp only [getI, reqI, ofPMsg_toPMsg, Outcome.bind_ok]
  refine Sim.same (fun v => ?_)
  obtain ⟨s1', m2⟩ := v
  refine Sim.toClient ?_
  simp only [getII, resII, ofPMsg_toPMsg, Outcome.bind_ok]
  refine Sim.same (fun v => ?_)
  exact Or.inr rfl

theorem dayCANet_sim (c : Codec G) (hashOf : Nat → List Bool) (pk : PK G) (sk0 sk1 : Int) (s : StCA G) (xs ys : List Nat) (ρ : Coins G Nat Unit) :
    Sim Prod.fst (dayCANet c hashOf pk pk sk0 sk1 s xs ys ρ) (dayCA c hashOf pk sk0 sk1 s xs ys ρ) := by
  unfold dayCANet dayCA
  exact (exchangeNet_sim _ _ _ _ _ _ _ _ _ _).bind (fun v _ => Or.inr rfl)

theorem dayPSINet_sim (c cu : Codec G) (hashOf : Nat → List Bool) (pk : PK G) (sk0 sk1 : Int) (s : StPSI G) (xs ys : List Nat)
    (ρ : Coins G Nat (Ct G)) :
    Sim Prod.fst (dayPSINet c cu hashOf pk pk sk0 sk1 s xs ys ρ) (dayPSI c cu hashOf pk sk0 sk1 s xs ys ρ) := by
  unfold dayPSINet dayPSI
  refine Sim.same (fun v => (exchangeNet_sim _ _ _ _ _ _ _ _ _ _).bind (fun w _ => ?_))
  exact Sim.same (fun _ => Or.inr rfl)

theorem daySumNet_sim (c : Codec G) (limit : Nat) (hashOf : Nat → List Bool) (pk : PK G) (sk0 sk1 : Int) (s : StSum G)
    (xs : List (Nat × Int)) (ys : List Nat) (ρ : Coins G (Nat × Int) (Ct G)) :
    Sim Prod.fst (daySumNet c limit hashOf pk pk sk0 sk1 s xs ys ρ) (daySum c limit hashOf pk sk0 sk1 s xs ys ρ) := by
  unfold daySumNet daySum
  refine (exchangeNet_sim _ _ _ _ _ _ _ _ _ _).bind (fun w _ => ?_)
  refine Sim.same (fun m3 => Sim.toServer ?_)
  simp only [getIII, Option.getD_some, Outcome.bind_ok]
  refine Sim.same (fun _ => Sim.same (fun m4 => Sim.toClient ?_))
  simp only [getIV, Option.getD_some, Outcome.bind_ok]
  exact Sim.same (fun _ => Sim.same (fun _ => Sim.same (fun _ => Or.inr rfl)))

theorem daySSNet_sim (c : Codec G) (mont : Int → Option Mont) (a b : TPaillier) (hashOf : Nat → List Bool) (pk : PK G) (sk0 sk1 : Int)
    (s : StSS G) (xs : List (Nat × Int)) (ys : List Nat) (ρ : Coins G (Nat × Int) Int) :
    Sim Prod.fst (daySSNet c mont a b hashOf pk pk sk0 sk1 s xs ys ρ) (daySS c mont a b hashOf pk sk0 sk1 s xs ys ρ) := by
  unfold daySSNet daySS daySSBody
  refine (exchangeNet_sim _ _ _ _ _ _ _ _ _ _).bind (fun w _ => Sim.same (fun v => Sim.toServer ?_))
  simp only [getShares, Outcome.bind_ok]
  exact Sim.same (fun _ => Or.inr rfl)

end Upsi.Main
