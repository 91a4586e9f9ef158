import Verif.Hide.OneProps
import Verif.View.SizeExamples
/- Non-vacuity of C80: two histories of party one with different elements and the same intersection sizes. -/
namespace Upsi.Hide.Examples
open Upsi Upsi.ElGamal Upsi.Tree Upsi.Tree.Props Upsi.Num Upsi.Proto Upsi.Proto.Examples Upsi.View Upsi.View.Examples

/-- Party zero adds 3 and 5, then 4; party one adds `a` and `b`, then `e`. -/
def sharedDays (a b e : Nat) : List (DayIn (ZMod 65521) Nat Unit) :=
  [⟨[3, 5], [a, b], toyCoins 50 [Props.toyHash 0, Props.toyHash 1] [Props.toyHash 0, Props.toyHash 1]⟩,
   ⟨[4], [e], toyCoins 50 [Props.toyHash 1] [Props.toyHash 0]⟩]

theorem sharedDays_fits (a b e : Nat) : FitsBoth (sharedDays a b e) where
  id0 := by
    intro d hd
    simp only [sharedDays, List.mem_cons, List.not_mem_nil, or_false] at hd
    rcases hd with rfl | rfl <;>
      exact ⟨rfl, by intro h hh; simp only [toyCoins, List.mem_cons, List.not_mem_nil, or_false] at hh; rcases hh with rfl | rfl <;> exact toyHash_len _⟩
  id1 := by
    intro d hd
    simp only [sharedDays, List.mem_cons, List.not_mem_nil, or_false] at hd
    rcases hd with rfl | rfl <;>
      exact ⟨rfl, by intro h hh; simp only [toyCoins, List.mem_cons, List.not_mem_nil, or_false] at hh; rcases hh with rfl | rfl <;> exact toyHash_len _⟩
  size0 := by simp [allX, sharedDays]
  size1 := by simp [allY, sharedDays]

theorem sharedDays_range {a b e : Nat} (ha : a < 50) (hb : b < 50) (he : e < 50) : InRange 50 65521 (sharedDays a b e) where
  x := by intro x hx; simp only [allX, sharedDays, List.flatMap_cons, List.flatMap_nil, List.append_nil, List.mem_append, List.mem_cons, List.not_mem_nil, or_false] at hx; omega
  y := by intro x hx; simp only [allY, sharedDays, List.flatMap_cons, List.flatMap_nil, List.append_nil, List.mem_append, List.mem_cons, List.not_mem_nil, or_false] at hx; omega
  pads0 := by
    intro d hd i j
    simp only [sharedDays, List.mem_cons, List.not_mem_nil, or_false] at hd
    rcases hd with rfl | rfl <;> exact ⟨show 50 ≤ 50 by decide, show 50 < 65521 by decide⟩
  pads1 := by
    intro d hd i j
    simp only [sharedDays, List.mem_cons, List.not_mem_nil, or_false] at hd
    rcases hd with rfl | rfl <;> exact ⟨show 50 ≤ 60 by decide, show 60 < 65521 by decide⟩

theorem sharedDays_same (a b e a' b' e' : Nat) : List.Forall₂ SameZero (sharedDays a b e) (sharedDays a' b' e') :=
  .cons ⟨rfl, rfl, rfl, rfl, rfl, rfl, rfl⟩ (.cons ⟨rfl, rfl, rfl, rfl, rfl, rfl, rfl⟩ .nil)

theorem keeps_of {o : Outcome (Run Nat)} (h : (match o with | .ok r => r.lost == [] | _ => false) = true) : ∃ r, o = .ok r ∧ r.lost = [] := by
  cases o with
  | ok r => exact ⟨r, rfl, by simpa using h⟩
  | err e => simp at h
  | abort => simp at h
  | ub => simp at h

theorem sharedDays_keeps1 : Keeps Props.toyHash 4 1 (sharedDays 3 7 4) := ⟨keeps_of (by decide +kernel), keeps_of (by decide +kernel)⟩
theorem sharedDays_keeps2 : Keeps Props.toyHash 4 1 (sharedDays 5 8 3) := ⟨keeps_of (by decide +kernel), keeps_of (by decide +kernel)⟩

/- Party one holds 3, 7 and then 4, or 5, 8 and then 3: one common element after the first day, two after the second. -/
example (D : ZMod 65521 → Transcript → Bool) :=
  C80_cardinality toyCodec65521 toyHash_len (g := 1) (q := 65521) toySetup.hq (by simp; exact ZMod.natCast_self 65521) 5 D (sharedDays_same 3 7 4 5 8 3)
    (sharedDays_fits _ _ _) (sharedDays_fits _ _ _) (B := 50) (by decide) (sharedDays_range (by decide) (by decide) (by decide))
    (sharedDays_range (by decide) (by decide) (by decide)) sharedDays_keeps1 sharedDays_keeps2
    (show ∀ m, m < 2 → candsOf 4 1 Props.toyHash (sharedDays 3 7 4) m = candsOf 4 1 Props.toyHash (sharedDays 5 8 3) m by decide +kernel)
    (show ∀ m, m ≤ 2 → commonAfter (sharedDays 3 7 4) m = commonAfter (sharedDays 5 8 3) m by decide +kernel)

/- There are twelve candidates each day, of which one is a match. -/
example : candsOf 4 1 Props.toyHash (sharedDays 3 7 4) 0 = 12 ∧ candsOf 4 1 Props.toyHash (sharedDays 3 7 4) 1 = 12 ∧
    commonAfter (sharedDays 3 7 4) 1 = 1 ∧ commonAfter (sharedDays 3 7 4) 2 = 2 := by decide +kernel

/- The run of these days completes, so party zero sees two messages. -/
example : ∃ got, got.length = 2 ∧ view0 toyCodec65521 Props.toyHash toySetup.pk toySetup.sk1 [] (St0.init 4 1) (St1.init 4 1) (sharedDays 3 7 4) = (got, .ok ()) := by
  obtain ⟨s, hs, -⟩ : ∃ s, runCA toySetup toyCodec65521 Props.toyHash 4 1 (sharedDays 3 7 4) = .ok s ∧ (s.cardinality == 2) = true := holds_ok (by decide +kernel)
  exact (C80_run toySetup toyCodec65521 Props.toyHash 4 1 (sharedDays 3 7 4)).1 ⟨s, hs⟩

end Upsi.Hide.Examples
