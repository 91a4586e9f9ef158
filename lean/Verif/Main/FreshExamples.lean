import Verif.Main.FreshProps
import Verif.Main.OutputExamples
/-
Concrete setups on a used disk, meeting the hypotheses of C89.
-/
namespace Upsi.Main
open Upsi Upsi.Rec Upsi.ElGamal Upsi.Tree Upsi.Tree.Props Upsi.Proto Upsi.Proto.Examples Upsi.Setup Upsi.Wire Upsi.Num Upsi.Data

/-- A disk on which every file already holds some bytes. -/
def usedFS : FS := ⟨fun _ => some [1, 2, 3], fun _ => true⟩

/-- Setup on the used disk prints what it prints on the empty one, and the runs afterwards are the same. -/
example : ∃ o o' s ns, exSetup 1 = .ok o ∧
    setupMain toyCodec65521 1 65521 toyHash 4 1 (exFlags 1) (exRand 1) usedFS = .ok o' ∧ o'.printed = some (2, 14) ∧
    o'.fs.data "notes.txt" = some [1, 2, 3] ∧
    mainCA toyCodec65521 toyHash 4 1 (RunFlags.of (exFlags 1)) (exCoins 50) o'.fs = .ok (s, ns) := by
  obtain ⟨r, h, p⟩ := endCA_run
  obtain ⟨h1, h2⟩ := exBoth_ok h
  obtain ⟨o', h3, hp, -, -, hs⟩ := (C89_addition_fresh toyCodec65521 1 65521 toyHash 4 1 (exFlags 1) (exRand 1) exFS usedFS rfl).1 _ h1
  simp only [Bool.and_eq_true, beq_iff_eq] at p
  refine ⟨r.1, o', r.2.1, r.2.2, h1, h3, by rw [hp]; exact p.1.1.2, ?_, ?_⟩
  · exact (C88_addition_outputs _ _ _ _ _ _ _ _ _ _ h3).2 "notes.txt" (by decide +kernel)
  · have := ((C89_runs_agree toyCodec65521 toyCodec65521 0 (fun _ => none) 2 2 toyHash 4 1 (exFlags 1) (exFlags 1).days (le_refl _)
      (exCoins 50) (exCoins 50) (exCoins (50, 0)) exCoinsSS (delFlags 0 .CA) .CA _ (le_refl _) toyRo 20 delDay psiDay 65521 ogHash exOgCoins
      r.1.fs o'.fs).1 hs).1
    exact this.symm.trans h2

/-- The same with deletions. -/
example : ∃ o o', setupMainDel (fun _ => none) 20 toyHash 8 1 (delFlags 2 .CA) (delRand 2 7 11 11 13) delFS = .ok o ∧
    setupMainDel (fun _ => none) 20 toyHash 8 1 (delFlags 2 .CA) (delRand 2 7 11 11 13) usedFS = .ok o' ∧ o'.printed = o.printed ∧
    Same o.fs o'.fs (deletionOutputs (delFlags 2 .CA)) := by
  obtain ⟨r, h, -⟩ := endDel_run 2 (Or.inr rfl)
  obtain ⟨h1, -⟩ := delBoth_ok h
  obtain ⟨o', h3, hp, -, -, hs⟩ := (C89_deletion_fresh _ _ _ _ _ _ _ delFS usedFS rfl).1 _ h1
  exact ⟨_, o', h1, h3, hp, hs⟩

/-- The same in the original protocol. -/
example : ∃ o o', exOgSetup 1 = .ok o ∧
    setupMainOg toyCodec65521 toyCodec65521 1 65521 ogHash toyHash 4 1 (exFlags 1) (exOgRand 1) usedFS = .ok o' ∧
    o'.printed = o.printed ∧ Same o.fs o'.fs (originalOutputs (exFlags 1)) := by
  obtain ⟨r, h, -⟩ := endOg_run
  simp only [exOgBoth, Outcome.bind_eq_ok, Outcome.pure_eq, Outcome.ok.injEq] at h
  obtain ⟨o, h1, -⟩ := h
  obtain ⟨o', h3, hp, -, hs⟩ := (C89_original_fresh _ _ _ _ _ _ _ _ _ _ exFS usedFS rfl).1 _ h1
  exact ⟨o, o', h1, h3, hp, hs⟩

/-- The same for secret sharing. -/
example : ∃ o o', setupMainSS toyCodec65521 1 65521 (fun _ => none) 2 toyHash 4 1 (exFlags 1) exRandSS exFS = .ok o ∧
    setupMainSS toyCodec65521 1 65521 (fun _ => none) 2 toyHash 4 1 (exFlags 1) exRandSS usedFS = .ok o' ∧ o'.printed = o.printed ∧
    Same o.fs o'.fs (additionOutputs (exFlags 1)) := by
  obtain ⟨r, h, -⟩ := endSS_initial_run
  simp only [exBothSS, Outcome.bind_eq_ok, Outcome.pure_eq, Outcome.ok.injEq] at h
  obtain ⟨o, h1, -⟩ := h
  obtain ⟨o', h3, hp, -, -, hs⟩ := (C89_ss_fresh _ _ _ _ _ _ _ _ _ _ exFS usedFS rfl).1 _ h1
  exact ⟨o, o', h1, h3, hp, hs⟩

end Upsi.Main
