import Verif.Main.MockDelProps
import Verif.Main.AddEndExamples
import Verif.Main.DelEndExamples
import Verif.Mock.Examples
/- Non-vacuity of C84: setup, then both parties with mock trees of three elements, run in the kernel over a file system. -/
namespace Upsi.Main
open Upsi Upsi.Rec Upsi.ElGamal Upsi.Tree Upsi.Proto Upsi.Setup Upsi.Wire Upsi.Data Upsi.Num Upsi.Paillier Upsi.Mock Upsi.Proto.Examples
  Upsi.Tree.Props

/-- Party zero's mock elements: 7, 7 and 4. -/
def low0 : MockCoins := toyMock [(0, 7), (0, 7), (0, 4)]
/-- Party one's: 4, 6 and 0; 4 is common to both. -/
def low1 : MockCoins := toyMock [(0, 4), (0, 6), (0, 0)]

theorem endSSMock_run :
    ∃ r, exBoth 0 (fun f fs => mainSSMock toyCodec65521 (fun _ => none) 2 2 toyHash 4 1 f 3 3 low0 low1 exCoinsSS fs) = .ok r ∧
    (r.1.printed == some (2, 12) && r.2.1.p0.lost == [] && r.2.1.p1.lost == []) = true :=
  holds_ok (by decide +kernel)

theorem low_apart : Apart 10 3 low0 low1 [1, 2] [1, 2] where
  mock0 M h := by
    have e : M = [7, 7, 4] := Outcome.ok.inj (h.symm.trans rfl)
    subst e; decide
  mock1 M h := by
    have e : M = [4, 6, 0] := Outcome.ok.inj (h.symm.trans rfl)
    subst e; decide
  pos0 := by decide
  pos1 := by decide

/-- The hypotheses of `C84_shares` are met: the shares are those of 1 and 2, although both mock trees hold 4. -/
example : ∃ o s ns, exSetup 0 = .ok o ∧
    mainSSMock toyCodec65521 (fun _ => none) 2 2 toyHash 4 1 (RunFlags.of (exFlags 0)) 3 3 low0 low1 exCoinsSS o.fs = .ok (s, ns) ∧
    (List.zipWith (fun x y => (x + y) % 77) s.shares0 s.shares1).Perm [1, 2] := by
  obtain ⟨r, hr, hp⟩ := endSSMock_run
  simp only [Bool.and_eq_true, beq_iff_eq] at hp
  obtain ⟨⟨p, u⟩, v⟩ := hp
  obtain ⟨h1, h2⟩ := exBoth_ok hr
  obtain ⟨-, -, c, -⟩ := C84_shares toyCodec65521 1 65521 (by norm_num) (by simp) (by decide) (fun _ => none) Paillier.simple_mont 7 11
    Paillier.primes_7_11 2 2 (by norm_num) (by norm_num) toyHash toyHash_len 1 10 4 1 _ (exSizes 0 (by norm_num)) (by norm_num) rfl _
    (exRand_ok 0 (by norm_num)) rfl rfl _ (fun i _ => exCoinsSS_ok i) _ _ h1 _ _ p 3 (by norm_num) (by decide) low0 low1
    (toyMock_wf [(0, 7), (0, 7), (0, 4)] _ _ (by norm_num)) (toyMock_wf [(0, 4), (0, 6), (0, 0)] _ _ (by norm_num))
    (fun gs hg => by
      have e : genAddOnly 2 1 0 2 10 (exRand 0).data = .ok ⟨⟨[], []⟩, [⟨[[49]], [7]⟩, ⟨[[50]], [5]⟩], ⟨[], []⟩,
        [⟨[[49]], []⟩, ⟨[[50]], []⟩], 12⟩ := rfl
      obtain rfl := Outcome.ok.inj (hg.symm.trans e)
      exact low_apart) _ _ h2 u v
  exact ⟨_, _, _, h1, h2, c⟩

theorem rowElements_ofRows (ds : List (List (Data.Bytes × Int))) :
    rowElements ds = ((ds.map Dataset.ofRows).flatMap (·.elements)).map digitsValue := by
  simp [rowElements, Dataset.ofRows, List.flatMap_def, List.map_flatten, Function.comp_def]

theorem del_apart (func : Functionality) (h : func = .CA ∨ func = .PSI) (p0 q0 p1 q1 : Nat) (t0 t1 : List (Data.Bytes × Int))
    (ds0 ds1 : List (List (Data.Bytes × Int))) (hg : GeneratedDel (delFlags 0 func) (delRand 0 p0 q0 p1 q1) t0 t1 ds0 ds1) :
    Apart 50 3 mock0 mock1 (rowElements ds0) (rowElements ds1) := by
  obtain ⟨s, hg⟩ := hg.gen
  rw [rowElements_ofRows, rowElements_ofRows]
  have key : ∃ g, genDeletionSets 1 4 0 10 func (delData 0) = .ok g ∧
      (g.days0.flatMap (·.elements)).map digitsValue = [1, 3, 4, 5] ∧ (g.days1.flatMap (·.elements)).map digitsValue = [3, 8, 4, 1] := by
    rcases h with rfl | rfl
    · exact ⟨_, rfl, rfl, rfl⟩
    · exact ⟨_, rfl, rfl, rfl⟩
  obtain ⟨g, h1, h2, h3⟩ := key
  obtain rfl := Outcome.ok.inj (hg.symm.trans h1)
  simp only at h2 h3
  rw [h2, h3]
  refine ⟨fun M hM => ?_, fun M hM => ?_, by decide, by decide⟩
  · obtain rfl := Outcome.ok.inj (hM.symm.trans mock0_elems); decide
  · obtain rfl := Outcome.ok.inj (hM.symm.trans mock1_elems); decide

theorem endDelMock_run :
    ∃ r, delBoth 0 7 11 11 13 .CA (fun f fs => mainDelMock toyRo (fun _ => none) 20 2 2 toyHash 8 1 f 3 3 mock0 mock1 delDay fs) = .ok r ∧
    (r.1.printed == 3 && r.2.1.p0.lost == [] && r.2.1.p1.lost == [] && r.2.1.trace.all (cleanB toyRo)) = true :=
  holds_ok (by decide +kernel)

/-- The hypotheses of `C84_cardinality_sum` are met: three common elements, although both mock trees hold 12. -/
example : ∃ o s ns, setupMainDel (fun _ => none) 20 toyHash 8 1 (delFlags 0 .CA) (delRand 0 7 11 11 13) delFS = .ok o ∧ o.printed = 3 ∧
    mainDelMock toyRo (fun _ => none) 20 2 2 toyHash 8 1 (.of (delFlags 0 .CA) .CA) 3 3 mock0 mock1 delDay o.fs = .ok (s, ns) ∧
    (shownDel s : Int) = 3 := by
  obtain ⟨r, hr, hp⟩ := endDelMock_run
  simp only [Bool.and_eq_true, beq_iff_eq, List.all_eq_true] at hp
  obtain ⟨⟨⟨p, u⟩, v⟩, w⟩ := hp
  obtain ⟨h1, h2⟩ := delBoth_ok hr
  refine ⟨_, r.2.1, r.2.2, h1, p, h2, ?_⟩
  have hb : 2 * (((delFlags 0 .CA).total : Int) * (delFlags 0 .CA).valueBound * (delFlags 0 .CA).total) < 77 := by decide
  have := (C84_cardinality_sum toyRo (fun _ => none) simple_mont 20 toyHash toyHash_len 1 50 8 1 (delFlags 0 .CA)
    (delSizes 0 (by omega) .CA (Or.inl rfl)) rfl (by simp [delFlags]) (delRand 0 7 11 11 13)
    (delRand_ok 0 (Or.inl rfl) .CA primes_7_11 primes_11_13 (by norm_num) (by norm_num)) (by simp [delRand]) (by simp [delRand])
    (by simp only [delRand]; omega) (by simp only [delRand]; omega) 2 2 (by simp only [delRand]; decide) (by simp only [delRand]; decide) delDay
    (fun i _ => toyRound_day (by norm_num [delRand]) (by norm_num [delRand]) i (i + 1)) delFS r.1 h1 3 (by norm_num) (by decide)
    mock0 mock1 (toyMock_wf [(0, 7), (0, 7), (1, 2)] _ _ (by norm_num [delRand])) (toyMock_wf [(1, 2), (0, 6), (0, 0)] _ _ (by norm_num [delRand]))
    (del_apart .CA (Or.inl rfl) _ _ _ _) .CA r.2.1 r.2.2 h2 u v (fun f hf => clean_of (w f hf))).1
  rw [this, p]; rfl

theorem endDelPsiMock_run :
    ∃ r, delBoth 0 17 mers 19 mers .PSI (fun f fs => mainDelPsiMock toyRo (fun _ => none) 20 2 2 toyHash 8 1 f 3 3 mock0 mock1 psiDay fs) = .ok r ∧
    (r.1.printed == 3 && r.2.1.p0.lost == [] && r.2.1.p1.lost == [] && r.2.1.trace.all (cleanB toyRo)) = true :=
  holds_ok (by decide +kernel)

/-- The hypotheses of `C84_intersection` are met: three elements are reported. -/
example : ∃ o s ns, setupMainDel (fun _ => none) 20 toyHash 8 1 (delFlags 0 .PSI) (delRand 0 17 mers 19 mers) delFS = .ok o ∧ o.printed = 3 ∧
    mainDelPsiMock toyRo (fun _ => none) 20 2 2 toyHash 8 1 (.of (delFlags 0 .PSI) .PSI) 3 3 mock0 mock1 psiDay o.fs = .ok (s, ns) ∧
    (shownPsi s).1 = 3 := by
  obtain ⟨r, hr, hp⟩ := endDelPsiMock_run
  simp only [Bool.and_eq_true, beq_iff_eq, List.all_eq_true] at hp
  obtain ⟨⟨⟨p, u⟩, v⟩, w⟩ := hp
  obtain ⟨h1, h2⟩ := delBoth_ok hr
  refine ⟨_, r.2.1, r.2.2, h1, p, h2, ?_⟩
  obtain ⟨c1, -⟩ := C84_intersection toyRo (fun _ => none) simple_mont 20 toyHash toyHash_len 1 50 8 1 (delFlags 0 .PSI)
    (delSizes 0 (by omega) .PSI (Or.inr (Or.inr rfl))) rfl rfl (delRand 0 17 mers 19 mers)
    (delRand_ok 0 (Or.inl rfl) .PSI primes_17 primes_19 (by norm_num) (by norm_num)) (by norm_num [delRand, mers]) (by norm_num [delRand, mers])
    (by norm_num [delRand, mers]) 2 2 (by simp only [delRand]; decide +kernel) (by simp only [delRand]; decide +kernel) psiDay
    (fun i _ => ⟨toyRound_day (by norm_num [delRand]) (by norm_num [delRand]) i (i + 1),
      toyRound_day (by norm_num [delRand]) (by norm_num [delRand]) (i + 2) (i + 3), fun l => List.reverse_perm l⟩)
    delFS r.1 h1 3 (by norm_num) (by decide)
    mock0 mock1 (toyMock_wf [(0, 7), (0, 7), (1, 2)] _ _ (by norm_num [delRand])) (toyMock_wf [(1, 2), (0, 6), (0, 0)] _ _ (by norm_num [delRand]))
    (del_apart .PSI (Or.inr rfl) _ _ _ _) .PSI r.2.1 r.2.2 h2 u v (fun f hf => clean_of (w f hf))
  exact c1.trans p

/-- `C84_refused` is about flags that occur: `--import` with a setup that wrote trees. -/
example : (DelRunFlags.of (delFlags 2 .CA) .CA).trees = true := rfl

end Upsi.Main
