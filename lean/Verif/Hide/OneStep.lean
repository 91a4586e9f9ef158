import Verif.Hide.OneTree
/- A day on labels (C80). -/
namespace Upsi.Hide
open Upsi Upsi.ElGamal Upsi.Tree Upsi.Num Upsi.Proto Upsi.View Upsi.Tree.Props

theorem Whole.pathOf {α : Type} {o : Upsi.Tree.Tree α} (h : Whole o) {b : List Bool} (hb : b.length = 256) : getPath o b = .ok (pathOf o b) := by
  obtain ⟨p, hp, -⟩ := h.path hb
  rw [Hide.pathOf, hp]

theorem shaped_whole {γ : Type} {stash node : Nat} {H : List (List (List Bool))} {r : Upsi.Tree.Tree γ} (h : Shaped stash node H r) : Whole r :=
  ⟨h.count, by rw [h.depth]; exact log2_le h.le⟩

/-- A sender's update with labels. -/
theorem send_label {hashOf : Nat → List Bool} (hh : ∀ e, (hashOf e).length = 256) {β : Type} {stash node : Nat} {H : List (List (List Bool))}
    {s : Upsi.Tree.Tree Nat} (hs : Sender hashOf stash node H s) {es : List Nat} {hsh : List (List Bool)} (hb : Batch.WF (es, hsh))
    (htot : idCount H + hsh.length < 2 ^ 30) (lab : Nat → Nat → Nat → β) (pads : Nat → Nat → Nat) :
    ∃ r, insertWith hashOf id s es hsh = .ok r ∧ (∀ n ∈ r.update, n.elems.length ≤ n.cap) ∧
      sendUpdate hashOf id (fun i j a => .ok (lab i j a)) pads s es hsh = .ok ⟨r.tree, ⟨hsh, labelNodes lab pads r.update⟩, r.lost⟩ ∧
      r.update.map Node.cap = updateSizes stash node H hsh ∧ Sender hashOf stash node (H ++ [hsh]) r.tree := by
  have hb1 : hsh.length = es.length := hb.1
  have htot' : es.length + s.actualSize < 2 ^ 30 := by rw [hs.size]; omega
  obtain ⟨r, k1, k2, -, -, -, -, -, -, -, k10, -⟩ := insertWith_spec (M := Nat) (PostOK.id hashOf)
    (fun e => by rw [hh]) (fun _ => 0) (fun b => by simp [wsum]) hs.wf hb htot'
  have hcap : ∀ n ∈ r.update, n.elems.length ≤ n.cap := by
    intro n hn
    obtain ⟨i, hi⟩ := List.getElem?_of_mem hn
    have := k10 i
    rw [hi] at this
    cases hu : (updateAddrs r.tree.depth hsh)[i]? with
    | none => rw [hu] at this; simp at this
    | some u => rw [hu] at this; exact k2.nodes.room u n this.symm
  have hsend : sendUpdate hashOf id (fun i j a => .ok (lab i j a)) pads s es hsh = .ok ⟨r.tree, ⟨hsh, labelNodes lab pads r.update⟩, r.lost⟩ := by
    rw [sendUpdate, k1, Outcome.bind_ok, encNodes_label hcap, Outcome.bind_ok]; rfl
  obtain ⟨c1, c2⟩ := sender_step hh (PostOK.id _) hs hb htot hsend
  refine ⟨r, k1, hcap, hsend, ?_, c1⟩
  have c3 := (shape_lengths c2).2
  rw [updateAddrs_sizes _ _ _ _ hb.2 (by rw [idCount_snoc]; exact htot)] at c3
  rw [← c3]
  refine List.ext_getElem (by simp [labelNodes]) fun i hi hi' => ?_
  simp only [List.length_map] at hi
  simp only [List.getElem_map, labelNodes, List.getElem_mapIdx, List.length_mapIdx]
  exact (padNode_length (hcap _ (List.getElem_mem hi))).symm

/-- A copy receives an update with labels. -/
theorem recv_label {hashOf : Nat → List Bool} (hh : ∀ e, (hashOf e).length = 256) {β : Type} {stash node : Nat} {H : List (List (List Bool))}
    {s : Upsi.Tree.Tree Nat} (hs : Sender hashOf stash node H s) {t : Upsi.Tree.Tree β} (ht : Shaped stash node H t) {es : List Nat} {hsh : List (List Bool)}
    (hb : Batch.WF (es, hsh)) (htot : idCount H + hsh.length < 2 ^ 30) {lab : Nat → Nat → Nat → β} {pads : Nat → Nat → Nat} {x : SendResult Nat β}
    (hx : sendUpdate hashOf id (fun i j a => .ok (lab i j a)) pads s es hsh = .ok x) :
    ∃ t', recvUpdate .ok t x.msg = .ok t' ∧ Shaped stash node (H ++ [hsh]) t' := by
  have hb1 : hsh.length = es.length := hb.1
  obtain ⟨-, -, -, -, t', h1, -⟩ := recv_total (deser := Outcome.ok) hh (PostOK.id _) hs.wf (r := t)
    ⟨ht.depth.trans hs.depth.symm, ht.size.trans hs.size.symm, by rw [ht.count, hs.wf.nodes.len, ht.depth, hs.depth]⟩ hb
    (by rw [hs.size]; omega) hx ⟨_, deserNodes_id _⟩
  exact ⟨t', h1, shaped_step ht hb.2 htot (sender_step hh (PostOK.id _) hs hb htot hx).2 h1⟩

variable {G : Type} [AddCommGroup G] [DecidableEq G]

/-- The candidates of party zero. -/
def symI (hashOf : Nat → List Bool) (copy1 : Upsi.Tree.Tree (Slot × Int)) (d : DayIn G Nat Unit) : List (List Sym) :=
  d.xs.mapIdx fun i x => (pathOf copy1 (hashOf x)).mapIdx fun j l => Sym.mk l.1 1 (d.coins.rr i j - d.coins.x0 i 0) (l.2 - x)

/-- The candidates of party one. -/
def symII (hashOf : Nat → List Bool) (n : Nat) (copy0 : Upsi.Tree.Tree (Int × Int)) (d : DayIn G Nat Unit) : List (List Sym) :=
  d.ys.mapIdx fun i y => (pathOf copy0 (hashOf y)).map fun l => Sym.mk (.elem n i 0) (-1) l.1 (l.2 - y)

/-- The trees and copies after updates with identifiers `H0`, `H1`, with labels in `Q`. -/
structure SymInv (hashOf : Nat → List Bool) (stash node : Nat) (H0 H1 : List (List (List Bool))) (Q : Slot → Prop) (s : SymSt) : Prop where
  my0 : Sender hashOf stash node H0 s.my0
  my1 : Sender hashOf stash node H1 s.my1
  sh0 : Shaped stash node H0 s.copy0
  sh1 : Shaped stash node H1 s.copy1
  lab : ∀ n ∈ s.copy1.nodes, ∀ l ∈ n.elems, Q l.1

theorem SymInv.init (hashOf : Nat → List Bool) (stash node : Nat) (Q : Slot → Prop) : SymInv hashOf stash node [] [] Q (SymSt.init stash node) where
  my0 := sender_empty _ _ _
  my1 := sender_empty _ _ _
  sh0 := shaped_empty _ _ _ _
  sh1 := shaped_empty _ _ _ _
  lab := by
    intro n hn l hl
    simp only [SymSt.init, Tree.empty, List.mem_cons, List.not_mem_nil, or_false] at hn
    rcases hn with rfl | rfl <;> simp at hl

/-- What a day on labels does. -/
structure SymDay (hashOf : Nat → List Bool) (n : Nat) (s : SymSt) (d : DayIn G Nat Unit) (s' : SymSt) (r0 r1 : InsertResult Nat) : Prop where
  ins0 : insertWith hashOf id s.my0 d.xs d.coins.hsh0 = .ok r0
  cap0 : ∀ m ∈ r0.update, m.elems.length ≤ m.cap
  ins1 : insertWith hashOf id s.my1 d.ys d.coins.hsh1 = .ok r1
  cap1 : ∀ m ∈ r1.update, m.elems.length ≤ m.cap
  tree0 : s'.my0 = r0.tree
  tree1 : s'.my1 = r1.tree
  copy0 : recvUpdate .ok s.copy0 ⟨d.coins.hsh0, labelNodes (fun i j (x : Nat) => (d.coins.enc0 i j 0, (x : Int))) d.coins.pads0 r0.update⟩ = .ok s'.copy0
  copy1 : recvUpdate .ok s.copy1 ⟨d.coins.hsh1, labelNodes (fun i j (y : Nat) => (Slot.tree n i j 0, (y : Int))) d.coins.pads1 r1.update⟩ = .ok s'.copy1
  step : symStep hashOf n s d = .ok (s', ⟨(symI hashOf s.copy1 d).flatten ++ (symII hashOf n s'.copy0 d).flatten,
    labelNodes (fun i j (y : Nat) => (Slot.tree n i j 0, (y : Int))) d.coins.pads1 r1.update⟩)

theorem symStep_ok {hashOf : Nat → List Bool} (hh : ∀ e, (hashOf e).length = 256) {stash node n : Nat} {H0 H1 : List (List (List Bool))}
    {Q : Slot → Prop} {s : SymSt} (hI : SymInv hashOf stash node H0 H1 Q s) {d : DayIn G Nat Unit} (hb0 : Batch.WF (d.xs, d.coins.hsh0))
    (hb1 : Batch.WF (d.ys, d.coins.hsh1)) (t0 : idCount H0 + d.coins.hsh0.length < 2 ^ 30) (t1 : idCount H1 + d.coins.hsh1.length < 2 ^ 30)
    (hQ : ∀ i j : Nat, j < (updateSizes stash node H1 d.coins.hsh1).getD i 0 → Q (.tree n i j 0)) :
    ∃ s' r0 r1, SymDay hashOf n s d s' r0 r1 ∧ SymInv hashOf stash node (H0 ++ [d.coins.hsh0]) (H1 ++ [d.coins.hsh1]) Q s' ∧
      r1.update.map Node.cap = updateSizes stash node H1 d.coins.hsh1 := by
  obtain ⟨r0, a1, a2, a3, a4, a5⟩ := send_label hh hI.my0 hb0 t0 (fun i j (x : Nat) => (d.coins.enc0 i j 0, (x : Int))) d.coins.pads0
  obtain ⟨c0, a6, a7⟩ := recv_label hh hI.my0 hI.sh0 hb0 t0 a3
  obtain ⟨r1, b1, b2, b3, b4, b5⟩ := send_label hh hI.my1 hb1 t1 (fun i j (y : Nat) => (Slot.tree n i j 0, (y : Int))) d.coins.pads1
  obtain ⟨c1, b6, b7⟩ := recv_label hh hI.my1 hI.sh1 hb1 t1 b3
  refine ⟨⟨r0.tree, r1.tree, c1, c0⟩, r0, r1, ⟨a1, a2, b1, b2, rfl, rfl, a6, b6, ?_⟩, ⟨a5, b5, a7, b7, ?_⟩, b4⟩
  · have e1 : forIdx (fun i x => do
        let path ← getPath s.copy1 (hashOf x)
        pure (path.mapIdx fun j l => Sym.mk l.1 1 (d.coins.rr i j - d.coins.x0 i 0) (l.2 - x))) 0 d.xs = .ok (symI hashOf s.copy1 d) := by
      simp only [(shaped_whole hI.sh1).pathOf (hh _), Outcome.bind_ok, Outcome.pure_eq]
      rw [forIdx_pure]
      simp only [Nat.zero_add]
      rfl
    have e2 : forIdx (fun i y => do
        let path ← getPath c0 (hashOf y)
        pure (path.map fun l => Sym.mk (.elem n i 0) (-1) l.1 (l.2 - y))) 0 d.ys = .ok (symII hashOf n c0 d) := by
      simp only [(shaped_whole a7).pathOf (hh _), Outcome.bind_ok, Outcome.pure_eq]
      rw [forIdx_pure]
      simp only [Nat.zero_add]
      rfl
    rw [symStep, a3, Outcome.bind_ok, a6, Outcome.bind_ok, e1, Outcome.bind_ok, e2, Outcome.bind_ok, b3, Outcome.bind_ok, b6, Outcome.bind_ok]
    rfl
  · refine recvUpdate_mem (Q := fun l => Q l.1) b6 hI.lab ?_
    intro l hl a ha
    obtain ⟨i, hi, rfl⟩ := List.mem_iff_getElem.1 hl
    simp only [labelNodes, List.length_mapIdx] at hi
    simp only [labelNodes, List.getElem_mapIdx] at ha
    obtain ⟨j, hj, rfl⟩ := List.mem_iff_getElem.1 ha
    rw [List.length_mapIdx, padNode_length (b2 _ (List.getElem_mem hi))] at hj
    rw [List.getElem_mapIdx]
    refine hQ i j ?_
    rw [← b4, List.getD_eq_getElem?_getD, List.getElem?_map, List.getElem?_eq_getElem hi]
    exact hj

theorem symI_length {hashOf : Nat → List Bool} (hh : ∀ e, (hashOf e).length = 256) {stash node : Nat} {H : List (List (List Bool))}
    {t : Upsi.Tree.Tree (Slot × Int)} (ht : Shaped stash node H t) (d : DayIn G Nat Unit) :
    (symI hashOf t d).flatten.length = ((d.xs.map hashOf).map (slots stash node H)).sum := by
  rw [List.length_flatten]
  congr 1
  refine List.ext_getElem (by simp [symI]) fun i hi hi' => ?_
  simp only [symI, List.getElem_map, List.getElem_mapIdx, List.length_mapIdx]
  exact shaped_path ht (hh _) ((shaped_whole ht).pathOf (hh _))

theorem symII_length {hashOf : Nat → List Bool} (hh : ∀ e, (hashOf e).length = 256) {stash node : Nat} {H : List (List (List Bool))} {n : Nat}
    {t : Upsi.Tree.Tree (Int × Int)} (ht : Shaped stash node H t) (d : DayIn G Nat Unit) :
    (symII hashOf n t d).flatten.length = ((d.ys.map hashOf).map (slots stash node H)).sum := by
  rw [List.length_flatten]
  congr 1
  refine List.ext_getElem (by simp [symII]) fun i hi hi' => ?_
  simp only [symII, List.getElem_map, List.getElem_mapIdx, List.length_map]
  exact shaped_path ht (hh _) ((shaped_whole ht).pathOf (hh _))

/-- The bases of the candidates, and their signs. -/
theorem sym_base {hashOf : Nat → List Bool} (hh : ∀ e, (hashOf e).length = 256) {stash node n : Nat} {H0 H1 : List (List (List Bool))}
    {Q : Slot → Prop} {s : SymSt} (hI : SymInv hashOf stash node H0 H1 Q s) (d : DayIn G Nat Unit) (copy0 : Upsi.Tree.Tree (Int × Int))
    (hQ : ∀ i, i < d.ys.length → Q (.elem n i 0)) :
    ∀ y ∈ (symI hashOf s.copy1 d).flatten ++ (symII hashOf n copy0 d).flatten, Q y.base ∧ (y.eps = 1 ∨ y.eps = -1) := by
  intro y hy
  rcases List.mem_append.1 hy with hy | hy
  · obtain ⟨l, hl, hy⟩ := List.mem_flatten.1 hy
    obtain ⟨i, hi, rfl⟩ := List.mem_mapIdx.1 hl
    obtain ⟨j, hj, rfl⟩ := List.mem_mapIdx.1 hy
    exact ⟨getPath_mem (Q := fun l => Q l.1) hI.lab ((shaped_whole hI.sh1).pathOf (hh _)) _ (List.getElem_mem hj), Or.inl rfl⟩
  · obtain ⟨l, hl, hy⟩ := List.mem_flatten.1 hy
    obtain ⟨i, hi, rfl⟩ := List.mem_mapIdx.1 hl
    obtain ⟨a, ha, rfl⟩ := List.mem_map.1 hy
    exact ⟨hQ i hi, Or.inr rfl⟩

end Upsi.Hide
