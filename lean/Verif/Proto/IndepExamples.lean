import Verif.Proto.IndepProps
import Verif.Proto.AddExamples
import Verif.Proto.OgExamples
/- Non-vacuity of C53: the same inputs under other keys, in another order and on other days. -/
namespace Upsi.Proto.Examples
open Upsi Upsi.ElGamal Upsi.Tree Upsi.Num Upsi.Proto

/-- The group of `toySetup` with other key shares. -/
def otherSetup : Setup (ZMod 65521) := { toySetup with sk0 := 7, sk1 := 11 }

/-- The inputs of `toyDaysSum` on one day and in another order. -/
def oneDaySum : List (DayIn (ZMod 65521) (Nat × Int) (Ct (ZMod 65521))) :=
  [⟨[(8, 30), (3, 10), (5, 20)], [9, 3, 5], toyCoins (50, 0) ([4, 2, 0].map Props.toyHash) ([3, 5, 1].map Props.toyHash)⟩]

theorem oneDaySum_run : ∃ s, runSum otherSetup toyCodec65521 60 Props.toyHash 5 2 oneDaySum = .ok s ∧
    (s.p0.lost == [] && s.p1.lost == []) = true :=
  holds_ok (by decide +kernel)

theorem oneDaySum_adm : Admissible otherSetup Prod.fst 50 (fun t => NonZero otherSetup (t 0)) oneDaySum where
  bound := by simp [otherSetup, toySetup]
  coins := by
    intro d hd
    simp only [oneDaySum, List.mem_cons, List.not_mem_nil, or_false] at hd
    subst hd
    obtain ⟨h1, h2, h3, h4, h5, h6⟩ := toyCoins_wf (κ := Ct (ZMod 65521)) Prod.fst (50, 0) rfl [(8, 30), (3, 10), (5, (20 : Int))]
      [9, 3, 5] [4, 2, 0] [3, 5, 1] rfl rfl
    exact ⟨h1, h2, h3, h4, h5, h6⟩
  x := by simp [allX, oneDaySum]
  y := by simp [allY, oneDaySum]
  sizeX := by simp [allX, oneDaySum]
  sizeY := by simp [allY, oneDaySum]

/- Two histories with the same inputs meet the hypotheses of C53. -/
example : ∃ s s', runSum toySetup toyCodec65521 50 Props.toyHash 4 1 toyDaysSum = .ok s ∧
    runSum otherSetup toyCodec65521 60 Props.toyHash 5 2 oneDaySum = .ok s' ∧ s.cardinality = s'.cardinality ∧ s.sum = s'.sum := by
  obtain ⟨s, hs, hp⟩ := toySum_run
  obtain ⟨s', hs', hp'⟩ := oneDaySum_run
  simp only [Bool.and_eq_true, beq_iff_eq] at hp hp'
  exact ⟨s, s', hs, hs', Props.C53_sum_independent toySetup otherSetup _ _ 50 60 _ _ Props.toyHash_len Props.toyHash_len 50 4 1 5 2
    _ _ toyDaysSum_adm oneDaySum_adm (by decide) (by decide) (by decide) (by decide) (by decide) (by decide) (by decide) (by decide)
    (by decide) s s' hs hs' hp.1.1.1 hp.1.1.2 hp'.1 hp'.2⟩

/-- The inputs of `ogDays` on two days and in another order. -/
def ogDays2 : List (OgDay (ZMod 65521)) :=
  [⟨[8, 9, 5], [8, 7, 3], ogCoins [Props.toyHash 1, Props.toyHash 4, Props.toyHash 0]⟩,
   ⟨[7, 3], [5], ogCoins [Props.toyHash 6]⟩]

theorem ogRun2 : ∃ s, runOg otherSetup.og toyCodec65521 toyCodec65521 ogHash Props.toyHash 5 2 ogDays2 = .ok s ∧
    (s.p1.lost == []) = true :=
  holds_ok (by decide +kernel)

theorem ogDays2_adm : OgAdmissible otherSetup 50 ogHash [] [] ogDays2 where
  bound := by decide
  key0 := by simp only [NonZero, otherSetup, toySetup]; omega
  key1 := by simp only [NonZero, otherSetup, toySetup]; omega
  coins := by
    intro d hd
    have aux : ∀ ys h, Batch.WF (ys, h) → (ogCoins h).WF otherSetup 50 ys := fun ys h hb => by
      obtain ⟨h1, h2, h3, h4, h5, h6⟩ := ogCoins_wf hb
      exact ⟨h1, h2, h3, h4, h5, h6⟩
    simp only [ogDays2, List.mem_cons, List.not_mem_nil, or_false] at hd
    rcases hd with rfl | rfl
    · exact aux _ _ ⟨rfl, by
        intro y hy; simp only [List.mem_cons, List.not_mem_nil, or_false] at hy
        rcases hy with rfl | rfl | rfl <;> exact Props.toyHash_len _⟩
    · exact aux _ _ ⟨rfl, by intro y hy; simp only [List.mem_cons, List.not_mem_nil, or_false] at hy; subst hy; exact Props.toyHash_len _⟩
  x := by decide
  y := by decide
  nodupX := by decide
  nodupY := by decide
  sizeY := by decide
  inj := by decide

example : ∃ s s', runOg toySetup.og toyCodec65521 toyCodec65521 ogHash Props.toyHash 4 1 ogDays = .ok s ∧
    runOg otherSetup.og toyCodec65521 toyCodec65521 ogHash Props.toyHash 5 2 ogDays2 = .ok s' ∧
    s.p0.intersection.Perm s'.p0.intersection := by
  obtain ⟨s, h, hp⟩ := ogRun
  obtain ⟨s', h', hp'⟩ := ogRun2
  simp only [Bool.and_eq_true, beq_iff_eq] at hp hp'
  exact ⟨s, s', h, h', Props.C53_original_independent toySetup otherSetup _ _ _ _ ogHash ogHash _ _ (fun e => Props.toyHash_len e)
    (fun e => Props.toyHash_len e) 50 50 4 1 5 2 ogDays ogDays2 ogDays_adm ogDays2_adm (by decide) (by decide) s s' h h' hp.1 hp'⟩

end Upsi.Proto.Examples
