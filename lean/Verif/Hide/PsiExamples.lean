import Verif.Hide.PsiProps
import Verif.Hide.OneExamples
/- Non-vacuity of C82: two histories of party one with different elements and the same intersection. -/
namespace Upsi.Hide.Examples
open Upsi Upsi.ElGamal Upsi.Tree Upsi.Tree.Props Upsi.Num Upsi.Proto Upsi.Proto.Examples Upsi.View Upsi.View.Examples

/-- Party zero adds 3 and 5, then 4; party one adds `a` and `b`, then `e`. -/
def psiDays (a b e : Nat) : List (DayIn (ZMod 65521) Nat (Ct (ZMod 65521))) :=
  [⟨[3, 5], [a, b], toyCoins 50 [Props.toyHash 0, Props.toyHash 1] [Props.toyHash 0, Props.toyHash 1]⟩,
   ⟨[4], [e], toyCoins 50 [Props.toyHash 1] [Props.toyHash 0]⟩]

theorem psiDays_fits (a b e : Nat) : FitsBoth ((psiDays a b e).map cardDay) where
  id0 := by
    intro d hd
    simp only [psiDays, List.map_cons, List.map_nil, List.mem_cons, List.not_mem_nil, or_false] at hd
    rcases hd with rfl | rfl <;>
      exact ⟨rfl, by intro h hh; simp only [cardDay, toyCoins, List.mem_cons, List.not_mem_nil, or_false] at hh; rcases hh with rfl | rfl <;> exact toyHash_len _⟩
  id1 := by
    intro d hd
    simp only [psiDays, List.map_cons, List.map_nil, List.mem_cons, List.not_mem_nil, or_false] at hd
    rcases hd with rfl | rfl <;>
      exact ⟨rfl, by intro h hh; simp only [cardDay, toyCoins, List.mem_cons, List.not_mem_nil, or_false] at hh; rcases hh with rfl | rfl <;> exact toyHash_len _⟩
  size0 := by simp [allX, psiDays, cardDay]
  size1 := by simp [allY, psiDays, cardDay]

theorem psiDays_range {a b e : Nat} (ha : a < 50) (hb : b < 50) (he : e < 50) : InRange 50 65521 ((psiDays a b e).map cardDay) where
  x := (sharedDays_range ha hb he).x
  y := (sharedDays_range ha hb he).y
  pads0 := by
    intro d hd i j
    simp only [psiDays, List.map_cons, List.map_nil, List.mem_cons, List.not_mem_nil, or_false] at hd
    rcases hd with rfl | rfl <;> exact ⟨show 50 ≤ 50 by decide, show 50 < 65521 by decide⟩
  pads1 := by
    intro d hd i j
    simp only [psiDays, List.map_cons, List.map_nil, List.mem_cons, List.not_mem_nil, or_false] at hd
    rcases hd with rfl | rfl <;> exact ⟨show 50 ≤ 60 by decide, show 60 < 65521 by decide⟩

theorem psiDays_keeps1 : Keeps Props.toyHash 4 1 ((psiDays 3 7 4).map cardDay) := ⟨keeps_of (by decide +kernel), keeps_of (by decide +kernel)⟩
theorem psiDays_keeps2 : Keeps Props.toyHash 4 1 ((psiDays 3 9 4).map cardDay) := ⟨keeps_of (by decide +kernel), keeps_of (by decide +kernel)⟩

theorem psiDays_shared (v : Nat) : ∀ m, m ≤ 2 → sharedAfter v ((psiDays 3 7 4).map cardDay) m = sharedAfter v ((psiDays 3 9 4).map cardDay) m := by
  intro m hm
  have h : ∀ (X Y Y' : List Nat), (∀ x ∈ X, Y.count x = Y'.count x) → X.count v * Y.count v = X.count v * Y'.count v := by
    intro X Y Y' h
    by_cases hx : v ∈ X
    · rw [h v hx]
    · rw [List.count_eq_zero.2 hx, Nat.zero_mul, Nat.zero_mul]
  rcases m with _ | _ | _ | m
  · rfl
  · exact h [3, 5] [3, 7] [3, 9] (by decide)
  · exact h [3, 5, 4] [3, 7, 4] [3, 9, 4] (by decide)
  · omega

/- Party one holds 3, 7 and then 4, or 3, 9 and then 4: the intersection is 3 after the first day, 3 and 4 after the second. -/
example (D : ZMod 65521 → Transcript → Bool) :=
  C82_psi toyCodec65521 toyCodec65521 toyHash_len (g := 1) (q := 65521) toySetup.hq (by simp; exact ZMod.natCast_self 65521) 5 D
    (days := psiDays 3 7 4) (days' := psiDays 3 9 4)
    (.cons ⟨rfl, rfl, rfl, rfl, rfl, rfl, rfl⟩ (.cons ⟨rfl, rfl, rfl, rfl, rfl, rfl, rfl⟩ .nil))
    (psiDays_fits _ _ _) (psiDays_fits _ _ _) (B := 50) (by decide) (psiDays_range (by decide) (by decide) (by decide))
    (psiDays_range (by decide) (by decide) (by decide)) psiDays_keeps1 psiDays_keeps2
    (show ∀ m, m < 2 → candsOf 4 1 Props.toyHash ((psiDays 3 7 4).map cardDay) m = candsOf 4 1 Props.toyHash ((psiDays 3 9 4).map cardDay) m by decide +kernel)
    (fun m hm v => psiDays_shared v m hm)

/- The run of these days completes with the intersection, so party zero sees two messages. -/
example : ∃ got, got.length = 2 ∧ viewPsi toyCodec65521 toyCodec65521 Props.toyHash toySetup.pk toySetup.sk0 toySetup.sk1 [] (St0.init 4 1) [] [] (St1.init 4 1)
    (psiDays 3 7 4) = (got, .ok ()) := by
  obtain ⟨s, hs, -⟩ : ∃ s, runPSI toySetup toyCodec65521 toyCodec65521 Props.toyHash 4 1 (psiDays 3 7 4) = .ok s ∧ (s.intersection == [some 3, some 4]) = true :=
    holds_ok (by decide +kernel)
  exact (C82_run toySetup toyCodec65521 toyCodec65521 Props.toyHash 4 1 (psiDays 3 7 4)).1 ⟨s, hs⟩

end Upsi.Hide.Examples
