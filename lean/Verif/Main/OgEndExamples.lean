import Verif.Main.OgEndProps
import Verif.Main.AddEndExamples
/- Non-vacuity of C76: setup and both parties of the original protocol, run in the kernel over a file system. -/
namespace Upsi.Main
open Upsi Upsi.Rec Upsi.ElGamal Upsi.Tree Upsi.Proto Upsi.Setup Upsi.Wire Upsi.Data Upsi.Proto.Examples Upsi.Tree.Props

/-- The choices of `exRand`. -/
def exOgRand (start : Nat) : OgSetupRand := ⟨2, 4, (exRand start).data, (exRand start).tree1⟩

def exOgCoins (i : Nat) : OgCoins (ZMod 65521) := ogCoins [toyHash (i + 3)]

def exOgSetup (start : Nat) : Outcome OgSetupOut :=
  setupMainOg toyCodec65521 toyCodec65521 1 65521 ogHash toyHash 4 1 (exFlags start) (exOgRand start) exFS

/-- Setup, then both parties. -/
def exOgBoth (start : Nat) : Outcome (OgSetupOut × OgSt (ZMod 65521) × List Int) := do
  let o ← exOgSetup start
  let r ← mainOg toyCodec65521 toyCodec65521 65521 ogHash toyHash 4 1 (RunFlags.of (exFlags start)) exOgCoins o.fs
  pure (o, r)

theorem exOgRand_ok (start : Nat) (h : start ≤ 1) : (exOgRand start).OK 1 10 65521 (exFlags start) :=
  ⟨(exRand_ok start h).draws, (exRand_ok start h).hsh1, (exRand_ok start h).pads1⟩

theorem exOgCoins_ok (i : Nat) : OgCoinsOK 10 65521 1 (exOgCoins i) := by
  have w : (ogCoins [toyHash (i + 3)]).WF toySetup 50 [0] := ogCoins_wf ⟨rfl, by
    intro h hh; simp only [List.mem_cons, List.not_mem_nil, or_false] at hh; rw [hh]; exact toyHash_len _⟩
  exact ⟨w.hsh, fun i j => ⟨le_trans (by norm_num) (w.pads i j).1, (w.pads i j).2⟩, w.beta, w.gamma, w.shuffle, w.mask⟩

theorem endOg_run : ∃ r, exOgBoth 1 = .ok r ∧
    (r.1.lost1 == [] && r.1.printed == some 2 && r.2.1.p1.lost == [] && r.2.1.p0.intersection == [2, 3]) = true :=
  holds_ok (by decide +kernel)

/-- The hypotheses of C76 are met: with the common initial element 1, party zero then finds 2 and 3. -/
example : ∃ o s ns, exOgSetup 1 = .ok o ∧ o.printed = some 2 ∧
    mainOg toyCodec65521 toyCodec65521 65521 ogHash toyHash 4 1 (RunFlags.of (exFlags 1)) exOgCoins o.fs = .ok (s, ns) ∧
    (shownOg s).1 = 2 ∧ ns.length = 2 := by
  obtain ⟨r, hr, hp⟩ := endOg_run
  simp only [Bool.and_eq_true, beq_iff_eq] at hp
  obtain ⟨⟨⟨a, p⟩, u⟩, v⟩ := hp
  simp only [exOgBoth, Outcome.bind_eq_ok, Outcome.pure_eq, Outcome.ok.injEq] at hr
  obtain ⟨o, h1, ⟨s, ns⟩, h2, rfl⟩ := hr
  refine ⟨o, s, ns, h1, p, h2, ?_⟩
  obtain ⟨gs, -, -, c1, -, c2⟩ := C76_original toyCodec65521 toyCodec65521 1 65521 (by norm_num) (by simp) (by decide) ogHash
    toyHash toyHash_len 1 10 4 1 _ (exSizes 1 (le_refl _)) (by simp [exFlags]) _ (exOgRand_ok 1 (le_refl _)) (by decide)
    _ (fun i _ => exOgCoins_ok i) _ _ h1 a _ _ h2 u
  have := c1 _ p
  exact ⟨by exact_mod_cast this, c2⟩

/-- With default flags and no initial sets, the run ends with an uncaught exception. -/
example : ∃ o, exOgSetup 0 = .ok o ∧ mainOg toyCodec65521 toyCodec65521 65521 ogHash toyHash 4 1
    { RunFlags.of (exFlags 0) with trees := true } exOgCoins o.fs = .abort := by
  obtain ⟨o, h, -⟩ : ∃ o, exOgSetup 0 = .ok o ∧ (o.lost1 == []) = true := holds_ok (by decide +kernel)
  exact ⟨o, h, C76_default_trees toyCodec65521 toyCodec65521 1 65521 (by norm_num) (by simp) (by decide) ogHash
    toyHash toyHash_len 1 10 4 1 _ (exSizes 0 (by norm_num)) (by simp [exFlags]) _ (exOgRand_ok 0 (by norm_num)) _ _ h rfl rfl _⟩

end Upsi.Main
