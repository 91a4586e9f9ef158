import Verif.Main.OutputProps
import Verif.Main.InputExamples
/-
Concrete setups meeting the hypotheses of C88.
-/
namespace Upsi.Main
open Upsi Upsi.Rec Upsi.ElGamal Upsi.Tree Upsi.Tree.Props Upsi.Proto Upsi.Proto.Examples Upsi.Setup Upsi.Wire Upsi.Num Upsi.Data

/-- Setup with initial sets, for two days: sixteen files are there, and a note on the disk is left alone; the parties can start, also
for one day only. -/
example : ∃ o, exSetup 1 = .ok o ∧ Wrote (additionOutputs (exFlags 1)) exFS o.fs ∧
    (additionOutputs (exFlags 1)).length = 16 ∧ ((additionOutputs (exFlags 1)).map canon).Nodup ∧
    o.fs.data "notes.txt" = exFS.data "notes.txt" ∧
    Present o.fs (additionInputs { RunFlags.of (exFlags 1) with days := 1 }) := by
  obtain ⟨r, h, -⟩ := endCA_run
  obtain ⟨h1, -⟩ := exBoth_ok h
  have w := C88_addition_outputs _ _ _ _ _ _ _ _ _ _ h1
  exact ⟨_, h1, w, by decide +kernel, by decide +kernel, w.2 _ (by decide +kernel),
    (C88_inputs_written (exFlags 1) (delFlags 0 .CA) .CA 1 _ _).1 (by decide) w⟩

/-- Setup for secret sharing. -/
example : ∃ o, setupMainSS toyCodec65521 1 65521 (fun _ => none) 2 toyHash 4 1 (exFlags 1) exRandSS exFS = .ok o ∧
    Wrote (additionOutputs (exFlags 1)) exFS o.fs := by
  obtain ⟨r, h, -⟩ := endSS_initial_run
  simp only [exBothSS, Outcome.bind_eq_ok, Outcome.pure_eq, Outcome.ok.injEq] at h
  obtain ⟨o, h1, -⟩ := h
  exact ⟨o, h1, C88_ss_outputs _ _ _ _ _ _ _ _ _ _ _ _ h1⟩

/-- Setup with deletions. -/
example : ∃ o, setupMainDel (fun _ => none) 20 toyHash 8 1 (delFlags 2 .CA) (delRand 2 7 11 11 13) delFS = .ok o ∧
    Wrote (deletionOutputs (delFlags 2 .CA)) delFS o.fs ∧ ((deletionOutputs (delFlags 2 .CA)).map canon).Nodup ∧
    Present o.fs (deletionInputs { DelRunFlags.of (delFlags 2 .CA) .CA with days := 1 }) := by
  obtain ⟨r, h, -⟩ := endDel_run 2 (Or.inr rfl)
  obtain ⟨h1, -⟩ := delBoth_ok h
  have w := C88_deletion_outputs _ _ _ _ _ _ _ _ _ h1
  exact ⟨_, h1, w, by decide +kernel, (C88_inputs_written (exFlags 0) (delFlags 2 .CA) .CA 1 _ _).2.1 (by decide) w⟩

/-- Setup of the original protocol. -/
example : ∃ o, exOgSetup 1 = .ok o ∧ Wrote (originalOutputs (exFlags 1)) exFS o.fs ∧
    ((originalOutputs (exFlags 1)).map canon).Nodup ∧
    Present o.fs (originalInputs { RunFlags.of (exFlags 1) with days := 1 }) := by
  obtain ⟨r, h, -⟩ := endOg_run
  simp only [exOgBoth, Outcome.bind_eq_ok, Outcome.pure_eq, Outcome.ok.injEq] at h
  obtain ⟨o, h1, -⟩ := h
  have w := C88_original_outputs _ _ _ _ _ _ _ _ _ _ _ _ h1
  exact ⟨o, h1, w, by decide +kernel, (C88_inputs_written (exFlags 1) (delFlags 0 .CA) .CA 1 _ _).2.2 (by decide) w⟩

end Upsi.Main
