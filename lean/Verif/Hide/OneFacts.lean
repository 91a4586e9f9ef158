import Verif.Hide.OneView
/- What a history on labels consists of (C80). -/
namespace Upsi.Hide
open Upsi Upsi.ElGamal Upsi.Tree Upsi.Num Upsi.Proto Upsi.View Upsi.Tree.Props

variable {G : Type} [AddCommGroup G] [DecidableEq G]

theorem symRuns_facts {hashOf : Nat → List Bool} (hh : ∀ e, (hashOf e).length = 256) {stash node : Nat} {Q : Slot → Prop}
    {n : Nat} {H0 H1 : List (List (List Bool))} {s : SymSt} {days : List (DayIn G Nat Unit)} {outs : List SymOut}
    (hR : SymRuns hashOf stash node Q n H0 H1 s days outs) : outs.length = days.length ∧
    ∀ (m : Nat) d o, days[m]? = some d → outs[m]? = some o →
      o.nodes.map List.length = updateSizes stash node (H1 ++ (ids1 days).take m) d.coins.hsh1 ∧
      o.cands.length = (sizesSpec stash node (H0 ++ (ids0 days).take m) (H1 ++ (ids1 days).take m) d.coins.hsh0 d.coins.hsh1
        (d.xs.map hashOf) (d.ys.map hashOf)).cands1 ∧
      ((∀ i, i < d.ys.length → Q (.elem (n + m) i 0)) → ∀ y ∈ o.cands, Q y.base ∧ (y.eps = 1 ∨ y.eps = -1)) := by
  induction hR with
  | nil => exact ⟨rfl, fun m d o h => by simp at h⟩
  | @cons n H0 H1 s s' d r0 r1 ds outs hI hD hI' hsz hR ih =>
    refine ⟨by simp [ih.1], fun m e o he ho => ?_⟩
    cases m with
    | zero =>
      simp only [List.getElem?_cons_zero, Option.some.injEq] at he ho
      subst he ho
      simp only [List.take_zero, List.append_nil, Nat.add_zero]
      refine ⟨?_, ?_, sym_base hh hI d s'.copy0⟩
      · rw [← hsz]
        refine List.ext_getElem (by simp [labelNodes]) fun i hi hi' => ?_
        simp only [List.length_map] at hi'
        simp only [List.getElem_map, labelNodes, List.getElem_mapIdx, List.length_mapIdx]
        exact padNode_length (hD.cap1 _ (List.getElem_mem hi'))
      · rw [List.length_append, symI_length hh hI.sh1, symII_length hh hI'.sh0]
        rfl
    | succ m =>
      simp only [List.getElem?_cons_succ] at he ho
      have := ih.2 m e o he ho
      rw [show n + 1 + m = n + (m + 1) by omega] at this
      simpa [ids0, ids1] using this

theorem mem_placesOne_tree {stash node : Nat} {ids : List (List (List Bool))} {d i j : Nat} (hd : d < ids.length)
    (hj : j < (sizesOf stash node ids d).getD i 0) : Slot.tree d i j 0 ∈ placesOne stash node ids := by
  have hi : i < (sizesOf stash node ids d).length := by
    by_contra h
    rw [List.getD_eq_getElem?_getD, List.getElem?_eq_none (by omega)] at hj
    simp at hj
  simp only [placesOne, List.mem_cons, List.mem_flatMap, List.mem_append, List.mem_map, List.mem_range]
  exact Or.inr ⟨d, hd, Or.inl ⟨i, hi, j, hj, rfl⟩⟩

theorem mem_placesOne_elem {stash node : Nat} {ids : List (List (List Bool))} {d i : Nat} (hd : d < ids.length)
    (hi : i < (ids.getD d []).length) : Slot.elem d i 0 ∈ placesOne stash node ids := by
  simp only [placesOne, List.mem_cons, List.mem_flatMap, List.mem_append, List.mem_map, List.mem_range]
  exact Or.inr ⟨d, hd, Or.inr ⟨i, hi, rfl⟩⟩

theorem mem_placesMask {N : Nat → Nat} {D d k : Nat} (hd : d < D) (hk : k < N d) : Slot.cand d k 0 ∈ placesMask N D := by
  simp only [placesMask, List.mem_flatMap, List.mem_map, List.mem_range]
  exact ⟨d, hd, k, hk, rfl⟩

theorem placesOne_pos (stash node : Nat) (ids : List (List (List Bool))) : 0 < (placesOne stash node ids).length := by
  simp [placesOne]

/-- The history on labels from empty trees. -/
structure OneFacts (hashOf : Nat → List Bool) (stash node : Nat) (days : List (DayIn G Nat Unit)) (outs : List SymOut) : Prop where
  runs : SymRuns hashOf stash node (· ∈ placesOne stash node (ids1 days)) 0 [] [] (SymSt.init stash node) days outs
  len : outs.length = days.length
  nodes : ∀ (m : Nat) o, outs[m]? = some o → o.nodes.map List.length = sizesOf stash node (ids1 days) m
  cands : ∀ (m : Nat) o, outs[m]? = some o → o.cands.length = candsOf stash node hashOf days m
  base : ∀ (m : Nat) o, outs[m]? = some o → ∀ y ∈ o.cands, y.base ∈ placesOne stash node (ids1 days) ∧ (y.eps = 1 ∨ y.eps = -1)

theorem oneFacts {hashOf : Nat → List Bool} (hh : ∀ e, (hashOf e).length = 256) (stash node : Nat) {days : List (DayIn G Nat Unit)}
    (hf : FitsBoth days) : OneFacts hashOf stash node days (symRun hashOf 0 (SymSt.init stash node) days) := by
  have hid : ∀ (m : Nat) (d : DayIn G Nat Unit), days[m]? = some d → m < (ids1 days).length ∧ (ids1 days).getD m [] = d.coins.hsh1 := by
    intro m d hd
    have := (List.getElem?_eq_some_iff.1 hd).1
    refine ⟨by simpa [ids1] using this, ?_⟩
    rw [List.getD_eq_getElem?_getD, ids1, List.getElem?_map, hd]; rfl
  have hR := symRuns_exists hh (Q := (· ∈ placesOne stash node (ids1 days))) days 0 [] [] (SymSt.init stash node) (SymInv.init _ _ _ _) hf.id0 hf.id1
    (by rw [idCount_ids0 _ hf.id0]; have := hf.size0; simp only [idCount, List.map_nil, List.sum_nil]; omega)
    (by rw [idCount_ids1 _ hf.id1]; have := hf.size1; simp only [idCount, List.map_nil, List.sum_nil]; omega)
    (fun m d hd i j hj => by
      obtain ⟨h1, h2⟩ := hid m d hd
      rw [Nat.zero_add]
      exact mem_placesOne_tree h1 (by rw [sizesOf, h2]; simpa using hj))
  obtain ⟨hl, hfa⟩ := symRuns_facts hh hR
  have hday : ∀ (m : Nat) o, (symRun hashOf 0 (SymSt.init stash node) days)[m]? = some o → ∃ d, days[m]? = some d := by
    intro m o ho
    have := (List.getElem?_eq_some_iff.1 ho).1
    exact ⟨_, List.getElem?_eq_getElem (by omega)⟩
  refine ⟨hR, hl, fun m o ho => ?_, fun m o ho => ?_, fun m o ho => ?_⟩
  · obtain ⟨d, hd⟩ := hday m o ho
    have := (hfa m d o hd ho).1
    rw [this, sizesOf, (hid m d hd).2, List.nil_append]
  · obtain ⟨d, hd⟩ := hday m o ho
    have := (hfa m d o hd ho).2.1
    rw [this, candsOf, hd]
    simp
  · obtain ⟨d, hd⟩ := hday m o ho
    refine (hfa m d o hd ho).2.2 fun i hi => ?_
    rw [Nat.zero_add]
    refine mem_placesOne_elem (hid m d hd).1 ?_
    rw [(hid m d hd).2, (hf.id1 d (List.mem_of_getElem? hd)).1]
    exact hi

end Upsi.Hide
