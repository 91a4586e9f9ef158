import Verif.Main.InputProps
import Verif.Main.DelEndExamples
import Verif.Main.OgEndExamples
/-
Concrete runs meeting the hypotheses of C87.
-/
namespace Upsi.Main
open Upsi Upsi.Rec Upsi.ElGamal Upsi.Tree Upsi.Tree.Props Upsi.Proto Upsi.Proto.Examples Upsi.Setup Upsi.Wire Upsi.Num Upsi.Data

theorem same_set {fs : FS} {name : String} {b : Rec.Bytes} {l : List String} (h : ∀ n ∈ l, canon n ≠ name) :
    Same (fs.set name b) fs l := by
  intro n hn
  simp only [FS.set, if_neg (h n hn)]

/-- A completed addition-only run with initial sets: all its files, fourteen of them, exist. A file that is not an input - here party
zero's result - may be written over without consequence; removing one of the inputs ends every run. -/
example : ∃ o s ns, exSetup 1 = .ok o ∧
    mainCA toyCodec65521 toyHash 4 1 (RunFlags.of (exFlags 1)) (exCoins 50) o.fs = .ok (s, ns) ∧
    Present o.fs (additionInputs (RunFlags.of (exFlags 1))) ∧
    (additionInputs (RunFlags.of (exFlags 1))).length = 10 + 2 * (exFlags 1).days ∧
    mainCA toyCodec65521 toyHash 4 1 (RunFlags.of (exFlags 1)) (exCoins 50) (o.fs.set "result.txt" [1]) = .ok (s, ns) ∧
    ∀ n ∈ additionInputs (RunFlags.of (exFlags 1)), ∀ r,
      mainCA toyCodec65521 toyHash 4 1 (RunFlags.of (exFlags 1)) (exCoins 50) (o.fs.remove (canon n)) ≠ .ok r := by
  obtain ⟨r, h, -⟩ := endCA_run
  obtain ⟨h1, h2⟩ := exBoth_ok h
  refine ⟨_, _, _, h1, h2, (C87_addition_files toyCodec65521 toyCodec65521 0 (fun _ => none) 2 2 toyHash 4 1 _ (exCoins 50) (exCoins 50)
    (exCoins (50, 0)) exCoinsSS _).1 _ h2, by decide +kernel, ?_, ?_⟩
  · rw [(C87_addition_no_other toyCodec65521 toyCodec65521 0 (fun _ => none) 2 2 toyHash 4 1 _ (exCoins 50) (exCoins 50)
      (exCoins (50, 0)) exCoinsSS _ r.1.fs (same_set (by decide +kernel))).1]
    exact h2
  · intro n hn x hx
    obtain ⟨b, hb⟩ := (C87_addition_files toyCodec65521 toyCodec65521 0 (fun _ => none) 2 2 toyHash 4 1 _ (exCoins 50) (exCoins 50)
      (exCoins (50, 0)) exCoinsSS _).1 _ hx n hn
    simp [FS.remove] at hb

/-- A completed run with deletions and initial sets. -/
example : ∃ o s ns, setupMainDel (fun _ => none) 20 toyHash 8 1 (delFlags 2 .CA) (delRand 2 7 11 11 13) delFS = .ok o ∧
    mainDel toyRo (fun _ => none) 20 2 2 toyHash 8 1 (.of (delFlags 2 .CA) .CA) delDay o.fs = .ok (s, ns) ∧
    Present o.fs (deletionInputs (.of (delFlags 2 .CA) .CA)) ∧
    (deletionInputs (.of (delFlags 2 .CA) .CA)).length = 8 + 2 * (delFlags 2 .CA).days ∧
    mainDel toyRo (fun _ => none) 20 2 2 toyHash 8 1 (.of (delFlags 2 .CA) .CA) delDay (o.fs.set "result.txt" [1]) = .ok (s, ns) := by
  obtain ⟨r, h, -⟩ := endDel_run 2 (Or.inr rfl)
  obtain ⟨h1, h2⟩ := delBoth_ok h
  refine ⟨_, _, _, h1, h2, (C87_deletion_files toyRo (fun _ => none) 20 2 2 toyHash 8 1 _ delDay psiDay _).1 _ h2, by decide +kernel, ?_⟩
  rw [(C87_deletion_no_other toyRo (fun _ => none) 20 2 2 toyHash 8 1 _ delDay psiDay _ r.1.fs (same_set (by decide +kernel))).1]
  exact h2

/-- A completed run of the original protocol with initial sets. -/
example : ∃ o s ns, exOgSetup 1 = .ok o ∧
    mainOg toyCodec65521 toyCodec65521 65521 ogHash toyHash 4 1 (RunFlags.of (exFlags 1)) exOgCoins o.fs = .ok (s, ns) ∧
    Present o.fs (originalInputs (RunFlags.of (exFlags 1))) ∧
    (originalInputs (RunFlags.of (exFlags 1))).length = 9 + 2 * (exFlags 1).days ∧
    mainOg toyCodec65521 toyCodec65521 65521 ogHash toyHash 4 1 (RunFlags.of (exFlags 1)) exOgCoins (o.fs.set "result.txt" [1]) =
      .ok (s, ns) := by
  obtain ⟨r, h, -⟩ := endOg_run
  simp only [exOgBoth, Outcome.bind_eq_ok, Outcome.pure_eq, Outcome.ok.injEq] at h
  obtain ⟨o, h1, ⟨s, ns⟩, h2, rfl⟩ := h
  refine ⟨o, s, ns, h1, h2, C87_original_files _ _ _ _ _ _ _ _ _ _ _ h2, by decide +kernel, ?_⟩
  rw [C87_original_no_other _ _ _ _ _ _ _ _ _ _ o.fs (same_set (by decide +kernel))]
  exact h2

end Upsi.Main
