import Verif.Hide.Honest
import Verif.View.SizeExamples
/- Non-vacuity of C79: two histories with different elements that an honest party one cannot tell apart. -/
namespace Upsi.Hide.Examples
open Upsi Upsi.ElGamal Upsi.Tree Upsi.Tree.Props Upsi.Num Upsi.Proto Upsi.Proto.Examples Upsi.View Upsi.View.Examples

/-- Party zero adds `x` on the first day and `y` on the second; party one adds 5 and 7, then 9. -/
def twoDays (x y : Nat) : List (DayIn (ZMod 65521) Nat Unit) :=
  [⟨[x], [5, 7], toyCoins 50 [Props.toyHash 0] [Props.toyHash 0, Props.toyHash 0]⟩, leakDay2 y]

theorem twoDays_fits (x y : Nat) : Fits (twoDays x y) 0 := by
  refine ⟨?_, by simp [twoDays, leakDay2]⟩
  intro d hd
  simp only [twoDays, leakDay2, List.mem_cons, List.not_mem_nil, or_false] at hd
  rcases hd with rfl | rfl <;>
    exact ⟨rfl, by intro h hh; simp only [toyCoins, List.mem_cons, List.not_mem_nil, or_false] at hh; subst hh; exact toyHash_len _⟩

theorem twoDays_own (x y : Nat) : ∀ d ∈ twoDays x y, Batch.WF (d.ys, d.coins.hsh1) := by
  intro d hd
  simp only [twoDays, leakDay2, List.mem_cons, List.not_mem_nil, or_false] at hd
  rcases hd with rfl | rfl
  · exact ⟨rfl, by intro h hh; simp only [toyCoins, List.mem_cons, List.not_mem_nil, or_false] at hh; rcases hh with rfl | rfl <;> exact toyHash_len _⟩
  · exact ⟨rfl, by intro h hh; simp only [toyCoins, List.mem_cons, List.not_mem_nil, or_false] at hh; subst hh; exact toyHash_len _⟩

theorem init_alike : Alike (funcCA toyCodec65521) Props.toyHash (St0.init 4 1 : St0 (ZMod 65521) Nat) (St0.init 4 1) :=
  ⟨empty_wf _ _ _, empty_wf _ _ _, rfl, rfl, rfl, rfl, rfl, ⟨rfl, by decide⟩⟩

/- `{3}` then `{4}`, or `{8}` then `{6}`: whatever party one does with what it gets from party zero, its verdicts differ by
no more than the bound. -/
example (D : ZMod 65521 → Transcript → Bool) :=
  C79_honest toyCodec65521 toyHash_len (g := 1) (q := 65521) toySetup.hq (by simp) (by decide) 5 D init_alike
    (twoDays_fits 3 4) (twoDays_fits 8 6) rfl (shaped_empty 4 1 4 1) (St1.init 4 1) (sender_empty _ 4 1) (twoDays 3 4) (twoDays_own 3 4)
    (by decide) (by
      intro n d d' hd hd'
      match n with
      | 0 =>
        simp only [twoDays, List.getElem?_cons_zero, Option.some.injEq] at hd hd'
        subst hd; subst hd'
        show [_] = [_]
        congr 1
      | 1 =>
        simp only [twoDays, List.getElem?_cons_succ, List.getElem?_cons_zero, Option.some.injEq] at hd hd'
        subst hd; subst hd'
        have : slots 4 1 ([] ++ (ids1 (twoDays 3 4)).take 1) (Props.toyHash 4) = slots 4 1 ([] ++ (ids1 (twoDays 3 4)).take 1) (Props.toyHash 6) := by
          decide +kernel
        simp only [leakDay2, List.map_cons, List.map_nil, this]
      | n + 2 => simp [twoDays] at hd)

/- The conversation is the real one: the run of these days completes, and party one gets two messages. -/
example : ∃ s, runCA toySetup toyCodec65521 Props.toyHash 4 1 (twoDays 3 4) = .ok s ∧ (s.p0.lost == []) = true :=
  holds_ok (by decide +kernel)

/- With `{11}` on the second day instead the numbers of entries differ (C65): these histories can be told apart. -/
example : slots 4 1 ([] ++ (ids1 (twoDays 3 4)).take 1) (Props.toyHash 4) ≠ slots 4 1 ([] ++ (ids1 (twoDays 3 4)).take 1) (Props.toyHash 11) := by
  decide +kernel

end Upsi.Hide.Examples
