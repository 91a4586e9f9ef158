import Verif.Main.OnlyProps
import Verif.Main.AddEndExamples
import Verif.Proto.ProgressExamples
/- Non-vacuity of C85. -/
namespace Upsi.Main
open Upsi Upsi.Rec Upsi.ElGamal Upsi.Tree Upsi.Proto Upsi.Setup Upsi.Wire Upsi.Data Upsi.Proto.Examples Upsi.Tree.Props

/-- The hypotheses of C85 are met: one initial element, two days, a stash for four. -/
example : ∃ o, exSetup 1 = .ok o ∧ (mainCA toyCodec65521 toyHash 4 1 (RunFlags.of (exFlags 1)) (exCoins 50) o.fs =
      .err "EC_POINT_point2oct failed" ∨
    mainCA toyCodec65521 toyHash 4 1 (RunFlags.of (exFlags 1)) (exCoins 50) o.fs = .err "[ClientMessageSink] failed to send message" ∨
    ∃ s ns, mainCA toyCodec65521 toyHash 4 1 (RunFlags.of (exFlags 1)) (exCoins 50) o.fs = .ok (s, ns) ∧ (s.cardinality : Int) = 2 ∧
      ns.length = 2) := by
  obtain ⟨r, hr, hp⟩ := endCA_run
  simp only [Bool.and_eq_true, beq_iff_eq] at hp
  obtain ⟨⟨⟨⟨a, b⟩, p⟩, u⟩, v⟩ := hp
  obtain ⟨h1, -⟩ := exBoth_ok hr
  exact ⟨_, h1, C85_cardinality_small toyCodec65521 1 65521 (by norm_num) (by simp) (by decide) toyHash toyHash_len 1 10 4 1 _
    (exSizes 1 (le_refl _)) _ (exRand_ok 1 (le_refl _)) _ (fun i _ => exCoins_ok id 50 rfl i) _ _ h1 (by simp [exFlags]) _ _ p⟩

/-- The third case occurs. -/
example : ∃ o s ns, exSetup 1 = .ok o ∧ mainCA toyCodec65521 toyHash 4 1 (RunFlags.of (exFlags 1)) (exCoins 50) o.fs = .ok (s, ns) := by
  obtain ⟨r, hr, -⟩ := endCA_run
  obtain ⟨h1, h2⟩ := exBoth_ok hr
  exact ⟨_, _, _, h1, h2⟩

example : ∃ o, exSetup 1 = .ok o ∧
    mainPSI toyCodec65521 toyCodec65521 toyHash 4 1 (RunFlags.of (exFlags 1)) (exCoins 50) o.fs ≠ .abort ∧
    mainPSI toyCodec65521 toyCodec65521 toyHash 4 1 (RunFlags.of (exFlags 1)) (exCoins 50) o.fs ≠ .ub := by
  obtain ⟨r, hr, hp⟩ := endPSI_run
  simp only [Bool.and_eq_true, beq_iff_eq] at hp
  obtain ⟨⟨⟨⟨a, b⟩, p⟩, u⟩, v⟩ := hp
  obtain ⟨h1, -⟩ := exBoth_ok hr
  refine ⟨_, h1, ?_⟩
  rcases C85_psi_small toyCodec65521 toyCodec65521 1 65521 (by norm_num) (by simp) (by decide) toyHash toyHash_len 1 10 4 1 _
    (exSizes 1 (le_refl _)) _ (exRand_ok 1 (le_refl _)) _ (fun i _ => exCoins_ok id 50 rfl i) _ _ h1 (by simp [exFlags]) _ _ p
    with h | h | ⟨s, ns, h, -⟩ <;> rw [h] <;> simp

example : ∃ o, exSetup 1 = .ok o ∧ (mainSum toyCodec65521 100 toyHash 4 1 (RunFlags.of (exFlags 1)) (exCoins (50, 0)) o.fs =
      .err "EC_POINT_point2oct failed" ∨
    mainSum toyCodec65521 100 toyHash 4 1 (RunFlags.of (exFlags 1)) (exCoins (50, 0)) o.fs = .err "[ClientMessageSink] failed to send message" ∨
    ∃ s ns, mainSum toyCodec65521 100 toyHash 4 1 (RunFlags.of (exFlags 1)) (exCoins (50, 0)) o.fs = .ok (s, ns) ∧ (s.cardinality : Int) = 2 ∧
      (s.sum.toNat : Int) = 14 ∧ ns.length = 2) := by
  obtain ⟨r, hr, hp⟩ := endSum_run
  simp only [Bool.and_eq_true, beq_iff_eq] at hp
  obtain ⟨⟨⟨⟨a, b⟩, p⟩, u⟩, v⟩ := hp
  obtain ⟨h1, -⟩ := exBoth_ok hr
  exact ⟨_, h1, C85_sum_small toyCodec65521 1 65521 (by norm_num) (by simp) (by decide) 100 (by norm_num) (by norm_num) toyHash toyHash_len 1 10 4 1 _
    (exSizes 1 (le_refl _)) (by simp [exFlags, sharedSize]) (by simp [exFlags]) _ (exRand_ok 1 (le_refl _)) _
    (fun i _ => exCoins_ok Prod.fst (50, 0) rfl i) _ _ h1 (by simp [exFlags]) _ _ p⟩

example : ∃ o, setupMainSS toyCodec65521 1 65521 (fun _ => none) 2 toyHash 4 1 (exFlags 1) exRandSS exFS = .ok o ∧
    mainSS toyCodec65521 (fun _ => none) 2 2 toyHash 4 1 (RunFlags.of (exFlags 1)) exCoinsSS o.fs ≠ .abort ∧
    mainSS toyCodec65521 (fun _ => none) 2 2 toyHash 4 1 (RunFlags.of (exFlags 1)) exCoinsSS o.fs ≠ .ub := by
  obtain ⟨r, hr, hp⟩ := endSS_initial_run
  simp only [Bool.and_eq_true, beq_iff_eq] at hp
  obtain ⟨⟨⟨⟨a, b⟩, p⟩, u⟩, v⟩ := hp
  simp only [exBothSS, Outcome.bind_eq_ok, Outcome.pure_eq, Outcome.ok.injEq] at hr
  obtain ⟨o, h1, r', h2, rfl⟩ := hr
  refine ⟨_, h1, ?_⟩
  rcases C85_shares_small toyCodec65521 1 65521 (by norm_num) (by simp) (by decide) (fun _ => none)
    Paillier.simple_mont 7 11 Paillier.primes_7_11 2 2 2 (by norm_num) (by norm_num) (by norm_num) toyHash toyHash_len 1 10 4 1 _
    (exSizes 1 (le_refl _)) _ exRandSS_ok rfl rfl (by norm_num) (by simp [exFlags]) _ (fun i _ => exCoinsSS_ok i)
    (fun i _ => toySSCoins _ _) _ _ h1 (by simp [exFlags]) _ _ p with h | h | ⟨s, ns, gs, h, -⟩ <;> rw [h] <;> simp

end Upsi.Main
