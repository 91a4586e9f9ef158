import Verif.Proto.OgProps
import Verif.Proto.AddExamples
/- Concrete histories of the original protocol in Z/65521, and what happens outside C48's hypotheses. -/
namespace Upsi.Proto.Examples
open Upsi Upsi.ElGamal Upsi.Tree Upsi.Num Upsi.Proto

/-- Coins with the given identifiers of party one's update; shuffles reverse; the two masks
are inverse to each other. -/
def ogCoins (h : List (List Bool)) : OgCoins (ZMod 65521) where
  hsh := h
  pads _ _ := 60
  enc i j := coin (i + 10 * j) 6 0
  hr := 777
  a0 := 11
  a1 := 13
  x i := coin i 1 0
  beta i j := coin (i + 10 * j) 2 0
  gamma i j := coin (i + 10 * j) 3 0
  re i j := coin (i + 10 * j) 4 0
  shuffle _ := List.reverse
  dummy i := 5000 + i
  mask i := if i % 2 = 0 then 181 else 362

/-- A toy hash to the curve. -/
def ogHash (x : Nat) : ZMod 65521 := (x * x + 7 : Nat)

/-- Day 1: `{3, 5}` and `{5}`; day 2: `{8, 7}` and `{3, 7}`; day 3: `{9}` and `{8}`: the common
elements are 5 (same day), 3 (party zero first), 7 (same day), 8 (party zero first). -/
def ogDays : List (OgDay (ZMod 65521)) :=
  [⟨[3, 5], [5], ogCoins [Props.toyHash 1]⟩,
   ⟨[8, 7], [3, 7], ogCoins [Props.toyHash 0, Props.toyHash 3]⟩,
   ⟨[9], [8], ogCoins [Props.toyHash 2]⟩]

theorem ogRun : ∃ s, runOg toySetup.og toyCodec65521 toyCodec65521 ogHash Props.toyHash 4 1 ogDays = .ok s ∧
    (s.p1.lost == [] && s.p0.intersection == [5, 3, 7, 8]) = true :=
  holds_ok (by decide +kernel)

theorem ogCoins_wf {ys : List Nat} {h : List (List Bool)} (hb : Batch.WF (ys, h)) :
    (ogCoins h).WF toySetup 50 ys where
  hsh := hb
  pads _ _ := by simp only [ogCoins, toySetup]; omega
  beta _ _ := coin_nz _ _ _
  gamma _ _ := coin_nz _ _ _
  shuffle _ l := List.reverse_perm l
  mask i := by simp only [NonZero, toySetup, ogCoins]; split <;> omega

theorem ogDays_adm : OgAdmissible toySetup 50 ogHash [] [] ogDays where
  bound := by decide
  key0 := by simp only [NonZero, toySetup]; omega
  key1 := by simp only [NonZero, toySetup]; omega
  coins := by
    intro d hd
    simp only [ogDays, List.mem_cons, List.not_mem_nil, or_false] at hd
    rcases hd with rfl | rfl | rfl
    · exact ogCoins_wf ⟨rfl, by intro y hy; simp only [List.mem_cons, List.not_mem_nil, or_false] at hy; subst hy; exact Props.toyHash_len _⟩
    · exact ogCoins_wf ⟨rfl, by
        intro y hy; simp only [List.mem_cons, List.not_mem_nil, or_false] at hy
        rcases hy with rfl | rfl <;> exact Props.toyHash_len _⟩
    · exact ogCoins_wf ⟨rfl, by intro y hy; simp only [List.mem_cons, List.not_mem_nil, or_false] at hy; subst hy; exact Props.toyHash_len _⟩
  x := by decide
  y := by decide
  nodupX := by decide
  nodupY := by decide
  sizeY := by decide
  inj := by decide

/-- The hypotheses of C48 are met by a history with common elements found in all three ways. -/
example : ∃ s, runOg toySetup.og toyCodec65521 toyCodec65521 ogHash Props.toyHash 4 1 ogDays = .ok s ∧
    s.p0.intersection.Perm [3, 5, 8, 7] := by
  obtain ⟨s, h, hp⟩ := ogRun
  simp only [Bool.and_eq_true, beq_iff_eq] at hp
  exact ⟨s, h, Props.C48_original toySetup _ _ ogHash _ (fun e => Props.toyHash_len e) 50 4 1 ogDays ogDays_adm s h hp.1⟩

/-- The outcome is undefined behaviour. -/
def isUb (o : Outcome σ) : Bool := match o with | .ub => true | _ => false

theorem isUb_eq {o : Outcome σ} (h : isUb o = true) : o = .ub := by
  cases o <;> simp [isUb] at h
  rfl

end Upsi.Proto.Examples

namespace Upsi.Proto.Props
open Upsi Upsi.ElGamal Upsi.Tree Upsi.Num Upsi.Proto.Examples

/-- C48, limits: the hash to the curve must be collision-free on the elements.  If party one's new
element 12 hashes to the same point as party zero's earlier element 3, party zero outputs 3 although
party one never added it. -/
theorem C48_collision_false_positive :
    ∃ s, runOg toySetup.og toyCodec65521 toyCodec65521 (fun x => ((x % 9 + 1 : Nat) : ZMod 65521))
      Props.toyHash 4 1 [⟨[3], [], ogCoins []⟩, ⟨[], [12], ogCoins [Props.toyHash 1]⟩] = .ok s ∧
      (s.p1.lost == [] && s.p0.intersection == [3]) = true :=
  holds_ok (by decide +kernel)

/-- C48, limits: an element party one adds twice is reported twice. -/
theorem C48_repeated_element :
    ∃ s, runOg toySetup.og toyCodec65521 toyCodec65521 ogHash
      Props.toyHash 4 1 [⟨[3], [], ogCoins []⟩, ⟨[], [3], ogCoins [Props.toyHash 1]⟩,
        ⟨[], [3], ogCoins [Props.toyHash 2]⟩] = .ok s ∧
      (s.p1.lost == [] && s.p0.intersection == [3, 3]) = true :=
  holds_ok (by decide +kernel)

variable {G : Type} [AddCommGroup G] [DecidableEq G]

/-- C48: party zero never accepts more candidate sets in message III than it has elements that day;
an index past the end of the data set is undefined behaviour, not an error. -/
theorem C48_message_iii_length (c : Codec G) (H : Nat → G) (a : Int) (s s' : Og0 G)
    (sets : List (List EncElem)) (xs : List Nat) (ρ : OgCoins G) (m : List (List UInt8))
    (h : ogSendIV c H a s sets xs ρ = .ok (s', m)) :
    sets.length ≤ xs.length ∧ m.length = sets.length ∧ s'.masks.length = sets.length := by
  simp only [ogSendIV, Outcome.bind_eq_ok, Outcome.pure_eq, Outcome.ok.injEq] at h
  obtain ⟨rs, hrs, e⟩ := h
  obtain ⟨rfl, rfl⟩ := Prod.mk.inj e
  obtain ⟨g1, g2⟩ := forIdx_get _ _ _ hrs
  refine ⟨?_, by simp [g1], by simp [g1]⟩
  by_contra hlt
  have hlt' : xs.length < sets.length := by omega
  obtain ⟨b, _, hb⟩ := g2 xs.length _ (List.getElem?_eq_getElem hlt')
  simp only [ogOpen, Outcome.bind_eq_ok] at hb
  obtain ⟨_, _, x, hx, _⟩ := hb
  rw [vget_eq_ok] at hx
  simp at hx

/-- C48: the same for message V and the remembered masks. -/
theorem C48_message_v_length (c cu : Codec G) (q : Nat) (s s' : Og0 G) (ws : List (List UInt8))
    (xs : List Nat) (h : ogProcV c cu q s ws xs = .ok s') : ws.length ≤ s.masks.length := by
  simp only [ogProcV, Outcome.bind_eq_ok, Outcome.pure_eq, Outcome.ok.injEq] at h
  obtain ⟨m, hm, _⟩ := h
  have key : ∀ (ws : List (List UInt8)) (i : Nat) (m m' : Mapping),
      ogRecord c cu q s.masks xs i ws m = .ok m' → ws = [] ∨ i + ws.length ≤ s.masks.length := by
    intro ws
    induction ws with
    | nil => intros; exact Or.inl rfl
    | cons w ws ih =>
      intro i m m' h
      right
      simp only [ogRecord, Outcome.bind_eq_ok] at h
      obtain ⟨k, hk, h⟩ := h
      rw [vget_eq_ok] at hk
      have hi := (List.getElem?_eq_some_iff.1 hk).1
      split at h
      · rcases ih _ _ _ h with rfl | h'
        · simp; omega
        · simp only [List.length_cons]; omega
      · simp only [Outcome.bind_eq_ok] at h
        obtain ⟨_, _, _, _, _, _, _, _, h⟩ := h
        rcases ih _ _ _ h with rfl | h'
        · simp; omega
        · simp only [List.length_cons]; omega
  rcases key ws 0 _ _ hm with rfl | h'
  · simp
  · omega

/-- The undefined behaviour is reachable: one element, two candidate sets. -/
theorem C48_too_many_sets_ub :
    ogSendIV toyCodec65521 ogHash 3 (Og0.init 4 1) [[], []] [3] (ogCoins []) = .ub :=
  isUb_eq (by decide +kernel)

/-- And with a message V longer than the list of masks. -/
theorem C48_message_v_ub : ogProcV toyCodec65521 toyCodec65521 65521
    ⟨Tree.empty 4 1, [], [], [0]⟩ [[1, 2], [1, 2]] [3] = .ub :=
  isUb_eq (by decide +kernel)

/-- A message V shorter than the list of masks is accepted silently: the elements without an answer
are not recorded, so a later addition by party one does not find them. -/
theorem C48_message_v_short (c cu : Codec G) (q : Nat) (s : Og0 G) (xs : List Nat) :
    ogProcV c cu q s [] xs = .ok s := by
  simp [ogProcV, ogRecord, bind, Outcome.bind, pure]

end Upsi.Proto.Props
