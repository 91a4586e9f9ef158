import Verif.Hide.UpdProps
import Verif.Proto.DelExamples
/- Non-vacuity of C81: two histories with different entries, modulus `7 * 11`. -/
namespace Upsi.Hide.Examples
open Upsi Upsi.Tree Upsi.Tree.Props Upsi.Num Upsi.Paillier Upsi.Proto Upsi.Proto.Examples Upsi.View

/-- A party adds `x` with payload 2, then deletes it and adds `y` with payload `v`. -/
def upDaysOK (x y : Nat) (v : Int) : List UpDay :=
  [⟨[(x, 2)], [Props.toyHash 0], fun i j => (50 + (i + j) % 20, 1)⟩,
   ⟨[(x, -2), (y, v)], [Props.toyHash 1, Props.toyHash 0], fun i j => (50 + (i + j) % 20, 1)⟩]

theorem upDays_fits (x y : Nat) (v : Int) (hx : x < 50) (hy : y < 50) (hv : v.natAbs < 70) :
    FitsU (7 * 11) (Tree.empty 4 1 : Upsi.Tree.Tree EP) (upDaysOK x y v) := by
  have hmem : ∀ d ∈ upDaysOK x y v, d = ⟨[(x, 2)], [Props.toyHash 0], fun i j => (50 + (i + j) % 20, 1)⟩ ∨
      d = ⟨[(x, -2), (y, v)], [Props.toyHash 1, Props.toyHash 0], fun i j => (50 + (i + j) % 20, 1)⟩ := by
    intro d hd
    simpa [upDaysOK] using hd
  refine ⟨?_, ?_, ?_, ?_, ?_, ?_⟩
  · intro d hd
    rcases hmem d hd with rfl | rfl
    · exact ⟨rfl, by intro h hh; simp only [List.mem_cons, List.not_mem_nil, or_false] at hh; subst hh; exact toyHash_len _⟩
    · exact ⟨rfl, by intro h hh; simp only [List.mem_cons, List.not_mem_nil, or_false] at hh; rcases hh with rfl | rfl <;> exact toyHash_len _⟩
  · show 1 + (2 + 0) + 0 < 2 ^ 30
    norm_num
  · intro d hd e he
    rcases hmem d hd with rfl | rfl
    · simp only [List.mem_cons, List.not_mem_nil, or_false] at he
      subst he; show x < _; omega
    · simp only [List.mem_cons, List.not_mem_nil, or_false] at he
      rcases he with rfl | rfl
      · show x < _; omega
      · show y < _; omega
  · intro e he
    simp [Tree.contents, Tree.empty] at he
  · show 0 + ((2 + 0) + ((2 + (v.natAbs + 0)) + 0)) < 7 * 11
    omega
  · intro d hd i j
    have : (50 + (i + j) % 20) < 7 * 11 := by omega
    rcases hmem d hd with rfl | rfl <;> exact ⟨this, by show (1 : Int).natAbs < 7 * 11; decide⟩

theorem toy_alike : AlikeU Props.toyHash (Tree.empty 4 1) (Tree.empty 4 1) :=
  ⟨empty_wf _ _ _, empty_wf _ _ _, rfl, rfl, rfl, rfl⟩

/- `{3}`, then 3 is deleted and 8 added; or `{40}`, then 40 is deleted and 9 added with another payload: no test of the tree
updates tells them apart better than the bound. -/
example [NeZero (7 * 11)] (D : Outcome (List (Msg EncElem)) → Bool) :=
  C81_tree_updates safe_7_11 simple_mont (sk := sk0) (tries := 20) getOk_eq toyHash_len D toy_alike
    (upDays_fits 3 8 1 (by decide) (by decide) (by decide)) (upDays_fits 40 9 (-5) (by decide) (by decide) (by decide)) rfl

/- The updates are real: two messages, of nodes full of ciphertexts. -/
example : (match treeUpdates (fun _ => none) Props.toyHash sk0 (fun s => ((s.j % 5 : Nat) + 1, (s.i % 5 : Nat) + 2)) (Tree.empty 4 1) (upDaysOK 3 8 1) with
    | .ok ms => ms.map (fun m : Msg EncElem => m.nodes.map List.length)
    | _ => []) = [[1, 4], [1, 1, 1, 4]] := by decide +kernel

/- The number of pairs of coins drawn: two for each entry of a node. -/
example : (placesOf (Tree.empty 4 1 : Upsi.Tree.Tree EP) (upIds (upDaysOK 3 8 1))).length = 24 := by decide +kernel

/-- Two rounds of party zero against a party one that sends no entries. -/
def quietRounds : List (List EP × RoundCoins × DelMsg) :=
  [([(3, 2)], toyRound [Props.toyHash 0] [], ⟨⟨[], []⟩, []⟩), ([(3, -2), (8, 1)], toyRound [Props.toyHash 1, Props.toyHash 0] [], ⟨⟨[], []⟩, []⟩)]

/- Party zero sends both messages, and its tree updates are those of `treeUpdates`. -/
example : (zeroSends (fun _ => none) Props.toyHash ⟨sk0, pk1⟩ (DSt.init 4 1) quietRounds).length = 2 := by decide +kernel

example : ∃ ms, treeUpdates (fun _ => none) Props.toyHash sk0 (coinsFrom (quietRounds.map (fun x => x.2.1.enc0))) (DSt.init 4 1).my
    (upDays0 quietRounds) = .ok ms ∧ (ms.length == 2) = true := holds_ok (by decide +kernel)

/- Two encryptions. -/
example [NeZero (7 * 11)] (D : (Fin 2 → Outcome Int) → Bool) :=
  C81_private_encrypt safe_7_11 simple_mont (sk := sk0) (tries := 20) getOk_eq D ![3, 8] ![40, 76] (by decide) (by decide)

/- A test that does not look at the updates has bound zero. -/
example [NeZero (7 * 11)] (U : List Place) : residueBound (7 * 11) Props.toyHash (fun _ => true) (Tree.empty 4 1) (upDaysOK 3 8 1) U = 0 := by
  refine Finset.sum_eq_zero fun k _ => ?_
  rw [dcrAdv]
  have h : ∀ {Ω : Type} [Fintype Ω] [Nonempty Ω], prob (fun _ : Ω => true) = 1 := by
    intro Ω _ _
    have : (Fintype.card Ω : ℚ) ≠ 0 := by exact_mod_cast Fintype.card_ne_zero
    simp [prob, this]
  simp only [dcrReal, dcrRand, dcrReduction, experimentU, h, sub_self, abs_zero]

end Upsi.Hide.Examples
