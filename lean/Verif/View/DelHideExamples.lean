import Verif.View.DelHide
import Verif.Proto.ProgressDelExamples
/- Non-vacuity of C70: two worlds in which party one holds different elements. -/
namespace Upsi.View.Examples
open Upsi Upsi.Tree Upsi.Tree.Props Upsi.Num Upsi.Paillier Upsi.Proto Upsi.Proto.Examples Upsi.View

def hideDay (x : List EP) (y : List EP) : DayDelIn :=
  ⟨x, y, toyRound [toyHash 0, toyHash 1] [toyHash 1], toyGc 0, toyGc 1⟩
def hideNext (x : List EP) (y : List EP) : DayDelIn :=
  ⟨x, y, toyRound [toyHash 2, toyHash 5] [toyHash 0, toyHash 3], toyGc 2, toyGc 3⟩

theorem hide_adm {x y x' y' : List EP} (l1 : x.length = 2) (l2 : y.length = 1) (l3 : x'.length = 2) (l4 : y'.length = 2)
    (hX : ∀ e ∈ x ++ x', e.1 < 41) (hY : ∀ e ∈ y ++ y', e.1 < 41) :
    DelAdmissible 41 (7 * 11) (11 * 13) ([hideDay x y] ++ [hideNext x' y']) where
  bound0 := by norm_num
  bound1 := by norm_num
  coins := by
    intro d hd
    simp only [List.cons_append, List.nil_append, List.mem_cons, List.not_mem_nil, or_false] at hd
    rcases hd with rfl | rfl
    · exact toyRound_wf41 _ _ [0, 1] [1] (by simp [hideDay, l1]) (by simp [hideDay, l2]) (by norm_num) (by norm_num)
    · exact toyRound_wf41 _ _ [2, 5] [0, 3] (by simp [hideNext, l3]) (by simp [hideNext, l4]) (by norm_num) (by norm_num)
  x := by simpa [delX, hideDay, hideNext] using hX
  y := by simpa [delY, hideDay, hideNext] using hY
  sizeX := by simp [delX, hideDay, hideNext, l1, l3]
  sizeY := by simp [delY, hideDay, hideNext, l2, l4]

/-- Party one's elements: 5, then 3 and 8; or 4, then 7 and minus 8. -/
def hideY (b : Bool) : List EP × List EP := if b then ([(5, 1)], [(3, 1), (8, 1)]) else ([(4, 1)], [(7, 1), (8, -1)])

theorem hide_run (b : Bool) : ∃ s, runDelDays toyRo (fun _ => none) toyHash ⟨sk0, pk1⟩ ⟨sk1, pk0⟩ 4 1 [hideDay [(3, 1), (5, 1)] (hideY b).1] = .ok s ∧
    true = true := by
  cases b <;> exact holds_ok (by decide +kernel)

def hideWorld (b : Bool) (s : StDel) : World := ⟨[hideDay [(3, 1), (5, 1)] (hideY b).1], hideNext [(3, -1), (8, 1)] (hideY b).2, s⟩

theorem hideY_len (b : Bool) : (hideY b).1.length = 1 ∧ (hideY b).2.length = 2 := by cases b <;> decide

theorem hide_reached (b : Bool) {s : StDel}
    (hs : runDelDays toyRo (fun _ => none) toyHash ⟨sk0, pk1⟩ ⟨sk1, pk0⟩ 4 1 [hideDay [(3, 1), (5, 1)] (hideY b).1] = .ok s) :
    (hideWorld b s).Reached 7 11 11 13 toyRo (fun _ => none) toyHash ⟨sk0, pk1⟩ ⟨sk1, pk0⟩ 4 1 41 :=
  ⟨hide_adm rfl (hideY_len b).1 rfl (hideY_len b).2 (by decide) (by cases b <;> decide), hs⟩

theorem hide_usable (b : Bool) (s : StDel) : (hideWorld b s).Usable 7 11 11 13 41 where
  usable := by
    intro d hd
    simp only [hideWorld, List.cons_append, List.nil_append, List.mem_cons, List.not_mem_nil, or_false] at hd
    rcases hd with rfl | rfl <;>
      exact ⟨toyRound_usable _ _ (by norm_num) (by norm_num), toyGc_usable _ (by norm_num), toyGc_usable _ (by norm_num)⟩
  massX := by
    show mass (delX ([hideDay [(3, 1), (5, 1)] (hideY b).1] ++ [hideNext [(3, -1), (8, 1)] (hideY b).2])) < _
    cases b <;> decide +kernel
  massY := by
    show mass (delY ([hideDay [(3, 1), (5, 1)] (hideY b).1] ++ [hideNext [(3, -1), (8, 1)] (hideY b).2])) < _
    cases b <;> decide +kernel

theorem hide_sizes (b : Bool) (s : StDel) : ((hideWorld b s).sizes 4 1 toyHash).cands1 = [6, 6] ∧
    ((hideWorld b s).sizes 4 1 toyHash).cands0 = [5, 5] := by
  have : ∀ b, ((hideWorld b (StDel.init 4 1)).sizes 4 1 toyHash).cands1 = [6, 6] ∧
    ((hideWorld b (StDel.init 4 1)).sizes 4 1 toyHash).cands0 = [5, 5] := by decide +kernel
  exact this b

/-- Draws of party one with masks of 41 and more and shares of 1. -/
def hideX : DrawsOne [6, 6] 10 (7 * 11) := (fun i j => ⟨41 + (i.1 + j.1) % 36, by omega⟩, fun i => i.1 % 2 == 0, fun _ => true, fun _ => ⟨1, by norm_num⟩)

def hideX0 : DrawsZero [5, 5] (11 * 13) := (fun i j => ⟨50 + (i.1 + j.1) % 90, by omega⟩, fun _ => ⟨1, by norm_num⟩)

/-- Party one's elements differ in the two worlds (their histories too), party zero holds the same ones; in both, runs
complete; the views party zero can get in the one only are no more than the failing draws of the other. -/
example : ∃ w w' : World, w.d.xs = w'.d.xs ∧ delX w.ds = delX w'.ds ∧ delY w.ds ≠ delY w'.ds ∧ w.d.ys ≠ w'.d.ys ∧
    (∃ v, w.SeesZero toyRo (fun _ => none) toyHash ⟨sk0, pk1⟩ ⟨sk1, pk0⟩ hideX v) ∧
    (∃ v, w'.SeesZero toyRo (fun _ => none) toyHash ⟨sk0, pk1⟩ ⟨sk1, pk0⟩ hideX v) ∧
    {v | (∃ X : DrawsOne [6, 6] 10 (7 * 11), w.SeesZero toyRo (fun _ => none) toyHash ⟨sk0, pk1⟩ ⟨sk1, pk0⟩ X v) ∧
        ¬ ∃ X : DrawsOne [6, 6] 10 (7 * 11), w'.SeesZero toyRo (fun _ => none) toyHash ⟨sk0, pk1⟩ ⟨sk1, pk0⟩ X v}.ncard ≤
      {X : DrawsOne [6, 6] 10 (7 * 11) | ¬ ∃ v, w'.SeesZero toyRo (fun _ => none) toyHash ⟨sk0, pk1⟩ ⟨sk1, pk0⟩ X v}.ncard := by
  obtain ⟨s, hs, _⟩ := hide_run true
  obtain ⟨s', hs', _⟩ := hide_run false
  have hc : ∀ b s, runDelDays toyRo (fun _ => none) toyHash ⟨sk0, pk1⟩ ⟨sk1, pk0⟩ 4 1 [hideDay [(3, 1), (5, 1)] (hideY b).1] = .ok s →
      ∃ v, (hideWorld b s).SeesZero toyRo (fun _ => none) toyHash ⟨sk0, pk1⟩ ⟨sk1, pk0⟩ hideX v := by
    intro b s hs
    rcases C70_zero_completes toyKeys toyRo toyHash toyHash_len 41 4 1 _ (hide_reached b hs) (hide_usable b s) [6, 6] 10 hideX
      (fun i j => by simp only [hideX]; omega) (fun i => by simp [hideX]) with h | ⟨x, _, hx⟩
    · exact h
    · have := toyRo_long x; omega
  refine ⟨hideWorld true s, hideWorld false s', rfl, rfl, show delY [hideDay [(3, 1), (5, 1)] (hideY true).1] ≠ delY [hideDay [(3, 1), (5, 1)] (hideY false).1] by decide,
    show (hideY true).2 ≠ (hideY false).2 by decide, hc true s hs, hc false s' hs', ?_⟩
  exact C70_zero_hides toyKeys toyRo toyHash toyHash_len 41 4 1 _ _ (hide_reached true hs) (hide_reached false hs') [6, 6] 10
    (hide_sizes true s).1 (by rw [(hide_sizes true s).2]; rfl) (hide_sizes false s').1 (by rw [(hide_sizes false s').2]; rfl)

/-- The same for party one's view. -/
example : ∃ w w' : World, w.d.ys ≠ w'.d.ys ∧
    {v | (∃ X : DrawsZero [5, 5] (11 * 13), w.SeesOne toyRo (fun _ => none) toyHash ⟨sk0, pk1⟩ ⟨sk1, pk0⟩ X v) ∧
        ¬ ∃ X : DrawsZero [5, 5] (11 * 13), w'.SeesOne toyRo (fun _ => none) toyHash ⟨sk0, pk1⟩ ⟨sk1, pk0⟩ X v}.ncard ≤
      {X : DrawsZero [5, 5] (11 * 13) | ¬ ∃ v, w'.SeesOne toyRo (fun _ => none) toyHash ⟨sk0, pk1⟩ ⟨sk1, pk0⟩ X v}.ncard ∧
    ∃ X : DrawsZero [5, 5] (11 * 13), ∃ v, w'.SeesOne toyRo (fun _ => none) toyHash ⟨sk0, pk1⟩ ⟨sk1, pk0⟩ X v := by
  obtain ⟨s, hs, _⟩ := hide_run true
  obtain ⟨s', hs', _⟩ := hide_run false
  refine ⟨hideWorld true s, hideWorld false s', show (hideY true).2 ≠ (hideY false).2 by decide, ?_, hideX0, ?_⟩
  · exact C70_one_hides toyKeys toyRo toyHash toyHash_len 41 4 1 _ _ (hide_reached true hs) (hide_reached false hs') [5, 5]
      (hide_sizes true s).2 (hide_sizes false s').2
  · rcases C70_one_completes toyKeys toyRo toyHash toyHash_len 41 4 1 _ (hide_reached false hs') (hide_usable false s') [5, 5] hideX0
      (fun i j => by simp only [hideX0]; omega) (fun i => by simp [hideX0]) with h | ⟨x, _, hx⟩
    · exact h
    · have := toyRo_long x; omega

end Upsi.View.Examples
