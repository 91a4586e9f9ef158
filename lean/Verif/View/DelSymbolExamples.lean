import Verif.View.DelSymbol
import Verif.Proto.DelExamples
import Mathlib.Tactic.NormNum.LegendreSymbol
/- Non-vacuity of C71: a day with `n = 77` in which the symbols give away both the path and the match. -/
namespace Upsi.View.Examples
open Upsi Upsi.Tree Upsi.Tree.Props Upsi.Num Upsi.Paillier Upsi.Proto Upsi.Proto.Examples Upsi.View

theorem symbolKey_toy : SymbolKey 7 11 (fun _ => none) pk0 :=
  symbolKey_new primes_7_11 (by norm_num) (by norm_num) simple_mont
    (getOk_eq (x := Public.new 2 ((7 * 11 : Nat) : Int) 1) (h := by decide +kernel)) (by norm_num)

def symCoins : DelCoins :=
  ⟨{ toyRound [toyHash 0, toyHash 1] [toyHash 1] with enc0 := fun i j k => if i = 1 ∧ k = 0 then 2 else tiny i j k }, toyGc 0, toyGc 1⟩

/-- Executable facts about the day: the residues of the first ciphertexts on the paths of 4 and of 5, and that of the first
block party zero receives. -/
def symCheck (V : DelView) : Bool :=
  (match getPath V.st1.other (toyHash 4) with | .ok ((c, _) :: _) => c % 77 == 67 | _ => false) &&
  (match getPath V.st1.other (toyHash 5) with | .ok ((c, _) :: _) => c % 77 == 3 | _ => false) &&
  (match V.f2 with | v :: _ => v.block % 77 == 48 | _ => false)

theorem symDay : ∃ V, viewDel toyRo (fun _ => none) toyHash ⟨sk0, pk1⟩ ⟨sk1, pk0⟩ (StDel.init 4 1) [(3, 1), (5, 1)] [(5, 1)] symCoins = .ok V ∧
    symCheck V = true := holds_ok (by decide +kernel)

theorem symbol_of {c r : Int} (h : c % 77 = r) {x : Int} (hx : jacobiSym r 77 = x) : symbol (7 * 11) c = x := by
  rw [← hx, ← h]
  exact jacobiSym.mod_left c 77

/-- Elements 4 and 5 of party one lie on paths with different symbols, and the block party zero receives for the matching
element 5 has symbol minus one, which no non-matching comparison ever has. -/
example : ∃ V v vs, viewDel toyRo (fun _ => none) toyHash ⟨sk0, pk1⟩ ⟨sk1, pk0⟩ (StDel.init 4 1) [(3, 1), (5, 1)] [(5, 1)] symCoins = .ok V ∧
    pathSymbols (7 * 11) toyHash V.st1.other (4, 1) ≠ pathSymbols (7 * 11) toyHash V.st1.other (5, 1) ∧
    V.f2 = v :: vs ∧ symbol (7 * 11) v.block = -1 := by
  obtain ⟨V, hV, hc⟩ := symDay
  simp only [symCheck, Bool.and_eq_true] at hc
  obtain ⟨⟨c1, c2⟩, c3⟩ := hc
  split at c1
  · rename_i a x1 l1 e1
    split at c2
    · rename_i b x2 l2 e2
      split at c3
      · rename_i v vs e3
        refine ⟨V, v, vs, hV, ?_, e3, ?_⟩
        · rw [pathSymbols, pathSymbols, e1, e2]
          simp only [Outcome.bind_ok, Outcome.pure_eq, List.map_cons, ne_eq, Outcome.ok.injEq, List.cons.injEq, not_and]
          intro h
          rw [symbol_of (by simpa using c1) (x := 1) (by norm_num), symbol_of (by simpa using c2) (x := -1) (by norm_num)] at h
          norm_num at h
        · exact symbol_of (by simpa using c3) (by norm_num)
      · simp at c3
    · simp at c2
  · simp at c1

end Upsi.View.Examples
