import Verif.View.Psi
import Verif.Proto.SSExamples
/- Non-vacuity of C64: the second day of the concrete histories of the examples of C42-C45. -/
namespace Upsi.View.Examples
open Upsi Upsi.ElGamal Upsi.Tree Upsi.Num Upsi.Proto Upsi.Proto.Examples

theorem two_days {σ δ : Type} {step : σ → δ → Outcome σ} {s s2 : σ} {d1 d2 : δ} (h : runDays step s [d1, d2] = .ok s2) :
    ∃ s1, runDays step s [d1] = .ok s1 ∧ step s1 d2 = .ok s2 := by
  simp only [runDays, Outcome.bind_eq_ok] at h
  obtain ⟨s1, h1, s2', h2, h3⟩ := h
  simp only [Outcome.ok.injEq] at h3
  subst h3
  exact ⟨s1, by simp only [runDays, h1, Outcome.bind_ok], h2⟩

/-- The history of the first day. -/
def day1 (κ : Type) : List (DayIn (ZMod 65521) Nat κ) :=
  [⟨[3, 5], [5], toyCoins 50 [Props.toyHash 0, Props.toyHash 1] [Props.toyHash 1]⟩]
/-- The second day: one element against two. -/
def day2 (κ : Type) : DayIn (ZMod 65521) Nat κ :=
  ⟨[8], [3, 9], toyCoins 50 [Props.toyHash 2] [Props.toyHash 0, Props.toyHash 3]⟩

theorem day1_run : ∃ s, runCA toySetup toyCodec65521 Props.toyHash 4 1 (day1 Unit) = .ok s ∧
    (s.cardinality == 1 && holds (viewCA toySetup toyCodec65521 Props.toyHash s (day2 Unit)) (fun v => decide (1 < v.length) && v.any (· ≠ 0))) = true :=
  holds_ok (by decide +kernel)

/- Cardinality: the second day of `toyDays` has one match among several candidates. -/
example : ∃ s s' v, dayCA toyCodec65521 Props.toyHash toySetup.pk toySetup.sk0 toySetup.sk1 s (day2 Unit).xs (day2 Unit).ys (day2 Unit).coins = .ok s' ∧
    viewCA toySetup toyCodec65521 Props.toyHash s (day2 Unit) = .ok v ∧ 1 < v.length ∧ s'.cardinality - s.cardinality = 1 ∧
    ∀ w, ways (fun x : (Fin v.length → Fin (toySetup.q - 1)) × Equiv.Perm (Fin v.length) =>
        viewCA toySetup toyCodec65521 Props.toyHash s (redraw tapeOf (day2 Unit) x)) (.ok w) =
      ways (idealView toySetup.g toySetup.q v.length 1) w := by
  obtain ⟨s2, h2, hp⟩ := toyCA_run
  obtain ⟨s1, h1, hd⟩ := two_days h2
  obtain ⟨t, ht, hq⟩ := day1_run
  have : s1 = t := Outcome.ok.inj (h1.symm.trans ht)
  subst this
  simp only [Bool.and_eq_true, beq_iff_eq] at hp hq
  obtain ⟨v, hv, hw⟩ := C64_cardinality_view toySetup toyCodec65521 Props.toyHash s1 s2 (day2 Unit)
    (fun l => List.reverse_perm l) (fun i => coin_nz _ _ _) hd
  have hM : s2.cardinality - s1.cardinality = 1 := by rw [hp.2, hq.1]
  obtain ⟨v', hv', hl⟩ := holds_ok hq.2
  rw [hv] at hv'
  obtain rfl := Outcome.ok.inj hv'
  simp only [Bool.and_eq_true, decide_eq_true_eq] at hl
  refine ⟨s1, s2, v, hd, hv, hl.1, hM, fun w => ?_⟩
  rw [hw w, hM]

/- Intersection, sum and sharing: the second day of the histories of C43-C45. -/
example : ∃ s s', dayPSI toyCodec65521 toyCodec65521 Props.toyHash toySetup.pk toySetup.sk0 toySetup.sk1 s (day2 (Ct (ZMod 65521))).xs (day2 (Ct (ZMod 65521))).ys
      (day2 (Ct (ZMod 65521))).coins = .ok s' ∧ s'.intersection = [some 5, some 3] ∧
    (∀ l, ((day2 (Ct (ZMod 65521))).coins.shuffle l).Perm l) ∧ ∀ i, NonZero toySetup ((day2 (Ct (ZMod 65521))).coins.masks i 0) := by
  obtain ⟨s2, h2, hp⟩ := toyPSI_run
  obtain ⟨s1, h1, hd⟩ := two_days h2
  simp only [Bool.and_eq_true, beq_iff_eq] at hp
  exact ⟨s1, s2, hd, hp.2, fun l => List.reverse_perm l, fun i => coin_nz _ _ _⟩

example : ∃ s s', ∃ d : DayIn (ZMod 65521) (Nat × Int) (Ct (ZMod 65521)), daySum toyCodec65521 50 Props.toyHash toySetup.pk toySetup.sk0 toySetup.sk1 s d.xs d.ys d.coins = .ok s' ∧ s'.cardinality = 2 ∧
    (∀ l, (d.coins.shuffle l).Perm l) ∧ ∀ i, NonZero toySetup (d.coins.masks i 0) := by
  obtain ⟨s2, h2, hp⟩ := toySum_run
  obtain ⟨s1, h1, hd⟩ := two_days h2
  simp only [Bool.and_eq_true, beq_iff_eq] at hp
  exact ⟨s1, s2, _, hd, hp.1.2, fun l => List.reverse_perm l, fun i => coin_nz _ _ _⟩

example : ∃ s s', ∃ d : DayIn (ZMod 65521) (Nat × Int) Int, daySS toyCodec65521 (fun _ => none) toyA toyB Props.toyHash toySetup.pk toySetup.sk0 toySetup.sk1 s d.xs d.ys d.coins = .ok s' ∧
    (∀ l, (d.coins.shuffle l).Perm l) ∧ ∀ i, NonZero toySetup (d.coins.masks i 0) := by
  obtain ⟨s2, h2, hp⟩ := toySS_run
  obtain ⟨s1, h1, hd⟩ := two_days h2
  exact ⟨s1, s2, _, hd, fun l => List.reverse_perm l, fun i => coin_nz _ _ _⟩

end Upsi.View.Examples
