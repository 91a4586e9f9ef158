import Verif.Proto.GcModel
import Verif.Proto.DelProps
/-
What the parties of the protocols with deletions see in the clear (C70, C71): the circuit phase with its outputs kept.
The functions here repeat the lines of `gcItem`, `gcLoop`, `gcPhase`; `gcItem_eq` and `gcLoop_eq` say that they
are the same functions with more outputs.
-/
namespace Upsi.View
open Upsi Upsi.Tree Upsi.Num Upsi.Paillier Upsi.Proto

/-- What the circuit and the transfer give out for one comparison: `bob` is BOB's output bit (party zero), `block` the
number in the transferred block the receiver chose, `opened` its decryption. -/
structure GcView where
  bob : Bool
  block : Int
  opened : Int

/-- One comparison and transfer with its outputs: deletion/party.h:181-257 (the same lines as `gcItem`). -/
def gcItemV (ro : List UInt8 → Nat) (mont : Int → Option Mont) (pk : Public) (sk : Private)
    (aliceSends : Bool) (blocks : Nat) (ρ : GcCoins) (i : Nat) (x z y : Int) : Outcome GcView := do
  let bx ← bigNum2bool ro x 72
  let bY ← bigNum2bool ro y 72
  let eq := decide (bx = bY)
  let bitA := ρ.bit i
  let bitB := Bool.xor eq (Bool.xor bitA true)
  let bitS := if aliceSends then bitA else bitB
  let bitR := if aliceSends then bitB else bitA
  let enc ← pk.encrypt mont (pk.n - ρ.beta i) (ρ.coin i)
  let ifEq ← pk.add z enc
  let b0 ← bigNum2block (if bitS then enc else ifEq) blocks
  let b1 ← bigNum2block (if bitS then ifEq else enc) blocks
  let c := block2BigNum (if bitR then b1 else b0) blocks
  let d ← sk.decrypt c
  pure ⟨bitB, c, d⟩

/-- The loop over all items with the outputs: deletion/party.h:223-262 (the same lines as `gcLoop`). -/
def gcLoopV (ro : List UInt8 → Nat) (mont : Int → Option Mont) (pk : Public) (sk : Private)
    (aliceSends : Bool) (blocks : Nat) (ρ : GcCoins) : Nat → List Item → List Int → Outcome (List GcView)
  | _, [], [] => .ok []
  | i, it :: its, y :: ys => do
    let v ← gcItemV ro mont pk sk aliceSends blocks ρ i it.x it.z y
    let vs ← gcLoopV ro mont pk sk aliceSends blocks ρ (i + 1) its ys
    pure (v :: vs)
  | _, _, _ => .ub

theorem bind_assoc₂ {α β γ : Type} (x : Outcome α) (f : α → Outcome β) (g : β → Outcome γ) :
    (x >>= f >>= g) = (x >>= fun a => f a >>= g) := by
  cases x <;> rfl

theorem gcItem_eq (ro : List UInt8 → Nat) (mont : Int → Option Mont) (pk : Public) (sk : Private)
    (aliceSends : Bool) (blocks : Nat) (ρ : GcCoins) (i : Nat) (x z y : Int) :
    gcItem ro mont pk sk aliceSends blocks ρ i x z y =
      (gcItemV ro mont pk sk aliceSends blocks ρ i x z y >>= fun v => .ok (ρ.beta i, v.opened)) := by
  simp only [gcItem, gcItemV, bind_assoc₂, Outcome.pure_eq, Outcome.bind_ok]

/-- The sums of `gcLoop` are those of the outputs. -/
theorem gcLoop_eq (ro : List UInt8 → Nat) (mont : Int → Option Mont) (pk : Public) (sk : Private)
    (aliceSends : Bool) (blocks : Nat) (ρ : GcCoins) (its : List Item) : ∀ (i : Nat) (ys : List Int) (a b a' b' : Int),
    gcLoop ro mont pk sk aliceSends blocks ρ i its ys a b = .ok (a', b') ↔
      ∃ vs, gcLoopV ro mont pk sk aliceSends blocks ρ i its ys = .ok vs ∧
        a' = a + ((List.range its.length).map (fun m => ρ.beta (i + m))).sum ∧ b' = b + (vs.map GcView.opened).sum := by
  induction its with
  | nil =>
    intro i ys a b a' b'
    cases ys with
    | nil => simp [gcLoop, gcLoopV, eq_comm]
    | cons y ys => simp [gcLoop, gcLoopV]
  | cons it its ih =>
    intro i ys a b a' b'
    cases ys with
    | nil => simp [gcLoop, gcLoopV]
    | cons y ys =>
      have hsum : ((List.range (its.length + 1)).map (fun m => ρ.beta (i + m))).sum =
          ρ.beta i + ((List.range its.length).map (fun m => ρ.beta (i + 1 + m))).sum := by
        rw [List.range_succ_eq_map, List.map_cons, List.sum_cons, List.map_map]
        congr 3
        funext m
        simp only [Function.comp_apply, Nat.succ_eq_add_one]
        congr 1; omega
      simp only [gcLoop, gcLoopV, gcItem_eq, Outcome.bind_eq_ok, Outcome.pure_eq, Outcome.ok.injEq, List.length_cons, hsum]
      constructor
      · rintro ⟨⟨u, w⟩, ⟨v, hv, e⟩, h⟩
        simp only [Prod.mk.injEq] at e
        obtain ⟨rfl, rfl⟩ := e
        obtain ⟨vs, h1, h2, h3⟩ := (ih _ _ _ _ _ _).1 h
        exact ⟨v :: vs, ⟨v, hv, vs, h1, rfl⟩, by rw [h2]; ring, by rw [h3]; simp; ring⟩
      · rintro ⟨_, ⟨v, hv, vs, h1, rfl⟩, h2, h3⟩
        refine ⟨(ρ.beta i, v.opened), ⟨v, hv, rfl⟩, (ih _ _ _ _ _ _).2 ⟨vs, h1, by rw [h2]; ring, by rw [h3]; simp; ring⟩⟩

/-- Everything that passes between the parties, and what they open, on one day. -/
structure DelView where
  st0 : DSt
  st1 : DSt
  msg1 : DelMsg
  msg2 : DelMsg
  out : RoundOut
  f1 : List GcView
  f2 : List GcView

/-- The circuit phase of both parties with its outputs: deletion/party.h:171-278 (the same lines as `gcPhase`). -/
def gcPhaseV (ro : List UInt8 → Nat) (mont : Int → Option Mont) (pk : Public) (sk : Private)
    (aliceSends : Bool) (ρ : GcCoins) (its : List Item) (ys : List Int) : Outcome (List GcView) := do
  let bs ← cntBlock pk.n
  let br ← cntBlock sk.ns
  if bs ≠ br then .ub
  else gcLoopV ro mont pk sk aliceSends bs ρ 0 its ys

theorem gcPhaseV_of {ro : List UInt8 → Nat} {mont : Int → Option Mont} {pk : Public} {sk : Private}
    {aliceSends : Bool} {ρ : GcCoins} {its : List Item} {ys : List Int} {f : Phase}
    (h : gcPhase ro mont pk sk aliceSends ρ its ys = .ok f) :
    ∃ vs, gcPhaseV ro mont pk sk aliceSends ρ its ys = .ok vs ∧ f.sumR = (vs.map GcView.opened).sum := by
  simp only [gcPhase, Outcome.bind_eq_ok] at h
  obtain ⟨bs, h1, br, h2, h3⟩ := h
  split at h3
  · simp at h3
  · rename_i hne
    simp only [Outcome.bind_eq_ok, Outcome.pure_eq, Outcome.ok.injEq] at h3
    obtain ⟨⟨a, b⟩, h4, s, h5, r, h6, rfl⟩ := h3
    obtain ⟨vs, h7, _, h8⟩ := (gcLoop_eq _ _ _ _ _ _ _ _ _ _ _ _ _ _).1 h4
    refine ⟨vs, ?_, by rw [h8, zero_add]⟩
    simp only [gcPhaseV, h1, h2, Outcome.bind_ok]
    rw [if_neg hne, h7]

/-- One day of the cardinality/sum protocol with deletions and everything that passes between the parties:
deletion/party_zero.cc:44-113, party_one.cc:30-80, party.h:171-291 (the same lines as `dayDel`). -/
def viewDel (ro : List UInt8 → Nat) (mont : Int → Option Mont) (hashOf : Nat → List Bool) (k0 k1 : DKeys)
    (s : StDel) (xs ys : List EP) (ρ : DelCoins) : Outcome DelView := do
  let (s0, m1, g0) ← delGenI mont hashOf k0 s.p0 xs ρ.round
  let (s1, m2, r1, g1) ← delGenII mont hashOf k1 s.p1 m1 ys ρ.round
  let (s0, r0) ← delRecvII k0 s0 m2
  let f1 ← gcPhaseV ro mont k0.pk k1.sk false ρ.gc0 g0.flatten r1.flatten
  let f2 ← gcPhaseV ro mont k1.pk k0.sk true ρ.gc1 g1.flatten r0.flatten
  pure ⟨s0, s1, m1, m2, ⟨g0, r1, g1, r0⟩, f1, f2⟩

/-- A completed day has a view, which ends in the same trees. -/
theorem viewDel_of {ro : List UInt8 → Nat} {mont : Int → Option Mont} {hashOf : Nat → List Bool} {k0 k1 : DKeys}
    {s s' : StDel} {xs ys : List EP} {ρ : DelCoins} (h : dayDel ro mont hashOf k0 k1 s xs ys ρ = .ok s') :
    ∃ V, viewDel ro mont hashOf k0 k1 s xs ys ρ = .ok V ∧ V.st0 = s'.p0 ∧ V.st1 = s'.p1 := by
  simp only [dayDel, roundDel, Outcome.bind_eq_ok, Outcome.pure_eq, Outcome.ok.injEq, Prod.mk.injEq] at h
  obtain ⟨⟨p0, p1, o⟩, ⟨⟨a, m1, g0⟩, h1, ⟨b, m2, r1, g1⟩, h2, ⟨c, r0⟩, h3, rfl, rfl, rfl⟩, f1, h4, f2, h5, rfl⟩ := h
  obtain ⟨v1, e1, _⟩ := gcPhaseV_of h4
  obtain ⟨v2, e2, _⟩ := gcPhaseV_of h5
  refine ⟨⟨c, b, m1, m2, ⟨g0, r1, g1, r0⟩, v1, v2⟩, ?_, rfl, rfl⟩
  simp only [viewDel, h1, h2, h3, e1, e2, Outcome.bind_ok, Outcome.pure_eq]

end Upsi.View
