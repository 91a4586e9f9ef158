import Verif.Main.OnlyOg
import Verif.Main.OgEndExamples
/- Non-vacuity of C85 for the original protocol. -/
namespace Upsi.Main
open Upsi Upsi.Rec Upsi.ElGamal Upsi.Tree Upsi.Proto Upsi.Setup Upsi.Wire Upsi.Data Upsi.Proto.Examples Upsi.Tree.Props

/-- The hypotheses of C85 are met: one initial element, a stash for four. -/
example : ∃ o, exOgSetup 1 = .ok o ∧
    mainOg toyCodec65521 toyCodec65521 65521 ogHash toyHash 4 1 (RunFlags.of (exFlags 1)) exOgCoins o.fs ≠ .abort ∧
    mainOg toyCodec65521 toyCodec65521 65521 ogHash toyHash 4 1 (RunFlags.of (exFlags 1)) exOgCoins o.fs ≠ .ub := by
  obtain ⟨r, hr, -⟩ := endOg_run
  simp only [exOgBoth, Outcome.bind_eq_ok, Outcome.pure_eq, Outcome.ok.injEq] at hr
  obtain ⟨o, h1, -⟩ := hr
  refine ⟨o, h1, ?_⟩
  rcases C85_original_small toyCodec65521 toyCodec65521 1 65521 (by norm_num) (by simp) (by decide) ogHash
    toyHash toyHash_len 1 10 4 1 _ (exSizes 1 (le_refl _)) (by simp [exFlags]) _ (exOgRand_ok 1 (le_refl _)) (by decide)
    _ (fun i _ => exOgCoins_ok i) _ _ h1 (by simp [exFlags]) with h | h | ⟨s, ns, gs, h, -⟩ <;> rw [h] <;> simp

/-- The third case occurs. -/
example : ∃ o s, exOgSetup 1 = .ok o ∧
    mainOg toyCodec65521 toyCodec65521 65521 ogHash toyHash 4 1 (RunFlags.of (exFlags 1)) exOgCoins o.fs = .ok s := by
  obtain ⟨r, hr, -⟩ := endOg_run
  simp only [exOgBoth, Outcome.bind_eq_ok, Outcome.pure_eq, Outcome.ok.injEq] at hr
  obtain ⟨o, h1, s, h2, -⟩ := hr
  exact ⟨o, s, h1, h2⟩

end Upsi.Main
