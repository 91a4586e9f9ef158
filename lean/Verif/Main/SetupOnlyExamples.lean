import Verif.Main.SetupOnly
import Verif.Main.AddEndExamples
import Verif.Main.SetupOnlyOg
import Verif.Main.OgEndExamples
import Verif.Setup.KeySuccess
/- Non-vacuity of C86: the flags and coins of the examples of C74 are feasible. -/
namespace Upsi.Main
open Upsi Upsi.Rec Upsi.ElGamal Upsi.Tree Upsi.Proto Upsi.Setup Upsi.Wire Upsi.Data Upsi.Proto.Examples Upsi.Tree.Props

theorem exFeasible (start : Nat) (h : start ≤ 1) : ∃ x0 x1 k0 k1, x0 + x1 ≠ 65521 ∧
    SetupFeasible toyCodec65521 65521 16 4 1 (exFlags start) (exRand start) x0 x1 k0 k1 exFS := by
  obtain ⟨k0, k1, hk, h0, h1⟩ := toy_threshold
  refine ⟨3, 5, k0, k1, by norm_num, ?_⟩
  refine ⟨?_, ?_, fun _ => rfl, by norm_num, fun x => ?_, by norm_num, by rfl, by rfl, hk, by norm_num [exRand], h0, h1, fun _ => ?_⟩
  · have hs : start = 0 ∨ start = 1 := by omega
    rcases hs with rfl | rfl <;> decide
  · have hs : start = 0 ∨ start = 1 := by omega
    rcases hs with rfl | rfl <;> decide
  · simp [toyCodec65521]
  · simp only [exFlags]; omega

/-- Setup with and without initial trees. -/
example : ∃ o, setupMain toyCodec65521 1 65521 toyHash 4 1 (exFlags 0) (exRand 0) exFS = .ok o := by
  obtain ⟨x0, x1, k0, k1, hx, hs⟩ := exFeasible 0 (by norm_num)
  exact (C86_addition_setup toyCodec65521 1 65521 (by norm_num) (by simp) (by decide) toyHash_len (exSizes 0 (by norm_num))
    (exRand_ok 0 (by norm_num)) hs).2 rfl hx

example : (∃ o, setupMain toyCodec65521 1 65521 toyHash 4 1 (exFlags 1) (exRand 1) exFS = .ok o) ∨
    setupMain toyCodec65521 1 65521 toyHash 4 1 (exFlags 1) (exRand 1) exFS = .err "EC_POINT_point2oct failed" := by
  obtain ⟨x0, x1, k0, k1, hx, hs⟩ := exFeasible 1 (by norm_num)
  exact (C86_addition_setup toyCodec65521 1 65521 (by norm_num) (by simp) (by decide) toyHash_len (exSizes 1 (by norm_num))
    (exRand_ok 1 (by norm_num)) hs).1

theorem exOgFeasible (start : Nat) (h : start ≤ 1) :
    OgSetupFeasible toyCodec65521 toyCodec65521 65521 16 4 1 (exFlags start) (exOgRand start) 3 5 exFS := by
  refine ⟨?_, ?_, fun _ => rfl, by norm_num, fun x => ?_, by norm_num, by rfl, by rfl, fun _ => ?_, ?_⟩
  · have hs : start = 0 ∨ start = 1 := by omega
    rcases hs with rfl | rfl <;> decide
  · have hs : start = 0 ∨ start = 1 := by omega
    rcases hs with rfl | rfl <;> decide
  · simp [toyCodec65521]
  · simp only [exFlags]; omega
  · simp only [exFlags]; omega

/-- The original protocol, with and without initial sets. -/
example : ∃ o, setupMainOg toyCodec65521 toyCodec65521 1 65521 (fun x => (x : ZMod 65521)) toyHash 4 1 (exFlags 0) (exOgRand 0) exFS = .ok o :=
  (C86_original_setup toyCodec65521 toyCodec65521 1 65521 (by norm_num) (by simp) (by decide) _ toyHash_len (exSizes 0 (by norm_num))
    (exOgRand_ok 0 (by norm_num)) (exOgFeasible 0 (by norm_num))).2 rfl

example : (∃ o, setupMainOg toyCodec65521 toyCodec65521 1 65521 (fun x => (x : ZMod 65521)) toyHash 4 1 (exFlags 1) (exOgRand 1) exFS = .ok o) ∨
    setupMainOg toyCodec65521 toyCodec65521 1 65521 (fun x => (x : ZMod 65521)) toyHash 4 1 (exFlags 1) (exOgRand 1) exFS =
      .err "EC_POINT_point2oct failed" :=
  (C86_original_setup toyCodec65521 toyCodec65521 1 65521 (by norm_num) (by simp) (by decide) _ toyHash_len (exSizes 1 (by norm_num))
    (exOgRand_ok 1 (by norm_num)) (exOgFeasible 1 (by norm_num))).1

end Upsi.Main
