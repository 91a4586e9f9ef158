import Verif.Tree.Loss
import Verif.Tree.DeletionProps
/- Property theorems C08: when exactly an insertion loses elements. -/
namespace Upsi.Tree.Props
open Upsi Upsi.Tree

/-- The nodes on the path addressed by hash `h` in a tree of depth `d`: leaf, ancestors, root, stash. -/
def pathNodes (d : Nat) (h : List Bool) : List Nat := (List.range (d + 2)).map (fun k => leafAddr d h / 2 ^ k)

theorem pathUp_pathNodes {d : Nat} {h : List Bool} (hd : d ≤ h.length) : pathUp (leafAddr d h) = pathNodes d h :=
  pathUp_eq (leafAddr_bounds hd).1 (leafAddr_bounds hd).2

theorem at_eq_nodeAt (t : Upsi.Tree.Tree α) (u : Nat) : t.at u = nodeAt t.nodes u := rfl

theorem addNewLayer_at (t : Upsi.Tree.Tree α) (u : Nat) : t.addNewLayer.at u = t.at u := by
  simp only [Tree.at, Tree.addNewLayer]
  rw [List.getElem?_append]
  split
  · rfl
  · rename_i h
    rw [List.getElem?_eq_none (l := t.nodes) (by omega), List.getElem?_replicate]
    split <;> rfl

theorem growGo_at {tot f : Nat} : ∀ {t t' : Upsi.Tree.Tree α}, growGo tot f t = .ok t' → ∀ u, t'.at u = t.at u := by
  induction f with
  | zero => intro t t' h; simp [growGo] at h
  | succ f ih =>
    intro t t' h u
    unfold growGo at h
    split at h
    · simp at h
    · split at h
      · split at h
        · simp at h
        · rw [ih h u, addNewLayer_at]
      · simp only [Outcome.ok.injEq] at h; rw [h]

/-- What one single-element insertion does, in terms of the grown tree. -/
theorem insert_one {hashOf : α → List Bool} {post : List α → List α} {t : Upsi.Tree.Tree α} {e : α} {h : List Bool} {x : InsertResult α}
    (hh : ∀ e, 256 ≤ (hashOf e).length) (ht : TWF hashOf t) (hl : h.length = 256) (hs : 1 + t.actualSize < 2 ^ 30)
    (hx : insertWith hashOf post t [e] [h] = .ok x) : ∃ t1, grow 1 t = .ok t1 ∧ (∀ u, t1.at u = t.at u) ∧
      NodesWF hashOf t1.depth t.nodeSize t.stashSize t1.nodes ∧ t1.depth ≤ 29 ∧ x.tree.depth = t1.depth ∧
      insertOne hashOf post t1.depth (leafAddr t1.depth h) e t1.nodes = .ok (x.tree.nodes, x.lost) := by
  obtain ⟨t1, g1, g2, g3, g4, g5, g6, _⟩ := grow_spec (k := 1) hh ht hs
  simp only [insertWith, List.length_singleton, g1, Outcome.bind_ok,
    leafIndices_ok (d := t1.depth) (hs := [h]) (by simp [hl]; omega), List.map_cons, List.map_nil, insertAll,
    Outcome.bind_eq_ok, Outcome.pure_eq, Outcome.ok.injEq] at hx
  obtain ⟨⟨ns, lost⟩, ⟨⟨ns1, lost1⟩, h1, _, rfl, rfl⟩, rs, h4, rfl⟩ := hx
  exact ⟨t1, g1, growGo_at g1, by rw [← g3, ← g4]; exact g2, g6, rfl, by simpa using h1⟩

/-- The trees that can arise from an empty tree by insertions (plain ones for `post = id`, insertions with
deletions for `post = mergeBucket`), with empty layers added at any time (an
insertion adds the layers needed for the whole batch before the first element goes in). -/
inductive Reachable (hashOf : α → List Bool) (post : List α → List α) (stash node : Nat) : Upsi.Tree.Tree α → Prop
  | empty : Reachable hashOf post stash node (Tree.empty stash node)
  | layer {t} : Reachable hashOf post stash node t → t.depth < 29 → Reachable hashOf post stash node t.addNewLayer
  | insert {t b x} : Reachable hashOf post stash node t → Batch.WF b → b.1.length + t.actualSize < 2 ^ 30 →
      insertWith hashOf post t b.1 b.2 = .ok x → Reachable hashOf post stash node x.tree

theorem Reachable.wf {hashOf : α → List Bool} {post : List α → List α} (hpost : PostOK hashOf post) (hh : ∀ e, (hashOf e).length = 256) {stash node : Nat}
    {t : Upsi.Tree.Tree α} (h : Reachable hashOf post stash node t) :
    TWF hashOf t ∧ t.stashSize = stash ∧ t.nodeSize = node := by
  induction h with
  | empty => exact ⟨empty_wf _ _ _, rfl, rfl⟩
  | @layer t _ hd ih =>
    obtain ⟨w, h1, h2⟩ := ih
    refine ⟨⟨addNewLayer_nodes w.nodes (fun e => by rw [hh e]; omega), ?_, ?_⟩, h1, h2⟩
    · have := w.size
      simp only [Tree.addNewLayer, Nat.pow_succ] at this ⊢
      omega
    · simp only [Tree.addNewLayer]; omega
  | @insert t b x _ hb hs hx ih =>
    obtain ⟨w, h1, h2⟩ := ih
    obtain ⟨x', k1, k2, k3, k4, _⟩ := insertWith_spec (M := Nat) hpost
      (fun e => by rw [hh e]) (fun _ => 0) (fun _ => by simp [wsum]) w (es := b.1) (hsh := b.2) hb hs
    rw [k1] at hx
    simp only [Outcome.ok.injEq] at hx
    subst hx
    exact ⟨k2, by rw [k4, h1], by rw [k3, h2]⟩

/-- Every tree produced by a history of batches is reachable. -/
theorem Reachable.of_run {hashOf : α → List Bool} {post : List α → List α} (hpost : PostOK hashOf post) (hh : ∀ e, (hashOf e).length = 256) {stash node : Nat} :
    ∀ (bs : List (Batch α)) (t : Upsi.Tree.Tree α) (r : Run α), Reachable hashOf post stash node t →
      (∀ b ∈ bs, Batch.WF b) → total bs + t.actualSize < 2 ^ 30 → runBatches hashOf post t bs = .ok r →
      Reachable hashOf post stash node r.tree
  | [], t, r, ht, _, _, hr => by
    simp only [runBatches, Outcome.ok.injEq] at hr
    subst hr; exact ht
  | b :: bs, t, r, ht, hb, hs, hr => by
    simp only [total, List.map_cons, List.sum_cons] at hs
    simp only [runBatches, Outcome.bind_eq_ok, Outcome.pure_eq, Outcome.ok.injEq] at hr
    obtain ⟨x, hx, r', hr', rfl⟩ := hr
    have hw := (ht.wf hpost hh).1
    obtain ⟨x', k1, _, _, _, k5, _⟩ := insertWith_spec (M := Nat) hpost
      (fun e => by rw [hh e]) (fun _ => 0) (fun _ => by simp [wsum]) hw (es := b.1) (hsh := b.2) (hb b (by simp)) (by omega)
    rw [k1] at hx
    simp only [Outcome.ok.injEq] at hx
    subst hx
    exact Reachable.of_run hpost hh bs _ r' (.insert ht (hb b (by simp)) (by omega) k1) (fun c hc => hb c (by simp [hc]))
      (by simp only [total]; omega) hr'

/-- Everything one insertion does to the path, for either kind of insertion. -/
theorem insert_one_path {hashOf : α → List Bool} {post : List α → List α} (hpost : PostOK hashOf post)
    {t : Upsi.Tree.Tree α} {e : α} {h : List Bool}
    {x : InsertResult α} (hh : ∀ e, 256 ≤ (hashOf e).length) (ht : TWF hashOf t) (hl : h.length = 256)
    (hs : 1 + t.actualSize < 2 ^ 30) (hx : insertWith hashOf post t [e] [h] = .ok x) :
    x.tree.depth ≤ 29 ∧
    (∀ u, (x.tree.at u).length ≤ if u = 0 then t.stashSize else t.nodeSize) ∧
    (∀ u, ∀ y ∈ x.tree.at u, Anc u (leafAddr x.tree.depth (hashOf y))) ∧
    (∀ u, u ∉ pathNodes x.tree.depth h → x.tree.at u = t.at u) ∧
    (∀ place : Nat → List α, (∀ u, (place u).length ≤ if u = 0 then t.stashSize else t.nodeSize) →
      (∀ u, ∀ y ∈ place u, Anc u (leafAddr x.tree.depth (hashOf y))) →
      List.Subperm ((pathNodes x.tree.depth h).flatMap place)
        ((pathNodes x.tree.depth h).flatMap x.tree.at ++ x.lost) →
      ((pathNodes x.tree.depth h).flatMap place).length ≤ ((pathNodes x.tree.depth h).flatMap x.tree.at).length) ∧
    (x.lost = [] ↔ ∀ j ≤ x.tree.depth + 1, (((pathNodes x.tree.depth h).flatMap x.tree.at ++ x.lost).filter
      (fun y => j ≤ stepsOf (leafAddr x.tree.depth (hashOf y)) (leafAddr x.tree.depth h))).length ≤
        t.stashSize + (x.tree.depth + 1 - j) * t.nodeSize) ∧
    (∃ bs : List (List α), BOK hashOf x.tree.depth (leafAddr x.tree.depth h) bs ∧
      bs.flatten.Perm ((pathNodes x.tree.depth h).flatMap t.at ++ [e]) ∧
      ((pathNodes x.tree.depth h).flatMap x.tree.at ++ x.lost).Perm (bs.map post).flatten) := by
  obtain ⟨t1, _, g2, g3, g4, g5, g6⟩ := insert_one hh ht hl hs hx
  rw [g5]
  have hd : t1.depth ≤ h.length := by omega
  have hh' : ∀ e, t1.depth ≤ (hashOf e).length := fun e => by have := hh e; omega
  obtain ⟨b1, b2⟩ := leafAddr_bounds hd
  have hat : ∀ us : List Nat, us.flatMap t.at = us.flatMap (nodeAt t1.nodes) :=
    fun us => flatMap_congr' (fun u _ => (g2 u).symm)
  obtain ⟨ns', lost, bs, rest, k1, k2, k3, k4, k5, k6, k7, k8, k9, k10⟩ := insertOne_spec hpost hh' b1 b2 e g3
  rw [g6] at k1
  simp only [Outcome.ok.injEq, Prod.mk.injEq] at k1
  obtain ⟨rfl, rfl⟩ := k1
  refine ⟨g4, nodeAt_cap k2, fun u y hy => nodeAt_pos k2 hy, ?_, ?_, ?_, ?_⟩
  · intro u hu
    rw [← pathUp_pathNodes hd] at hu
    rw [← g2 u, at_eq_nodeAt, at_eq_nodeAt, nodeAt, nodeAt, k9 u hu]
  · intro place c1 c2 c3
    rw [← pathUp_pathNodes hd] at c3 ⊢
    exact insertOne_best hpost hh' b1 b2 e g3 g6 c1 c2 c3
  · rw [← pathUp_pathNodes hd]
    exact insertOne_hall hpost hh' b1 b2 e g3 g6
  · rw [hat, ← pathUp_pathNodes hd]
    exact ⟨bs, k4, k5, k8⟩

/-- A plain insertion only moves elements. -/
theorem insert_one_perm {hashOf : α → List Bool} {t : Upsi.Tree.Tree α} {e : α} {h : List Bool}
    {x : InsertResult α} (hh : ∀ e, 256 ≤ (hashOf e).length) (ht : TWF hashOf t) (hl : h.length = 256)
    (hs : 1 + t.actualSize < 2 ^ 30) (hx : insertWith hashOf id t [e] [h] = .ok x) :
    ((pathNodes x.tree.depth h).flatMap x.tree.at ++ x.lost).Perm
      ((pathNodes x.tree.depth h).flatMap t.at ++ [e]) := by
  obtain ⟨_, _, _, _, _, _, bs, _, k5, k8⟩ := insert_one_path (PostOK.id hashOf) hh ht hl hs hx
  rw [List.map_id] at k8
  exact k8.trans k5

/-- An arrangement of elements over the nodes of a tree of depth `d`: no node holds more than its capacity and
every element sits on its own path. -/
structure Arrangement (hashOf : α → List Bool) (stash node d : Nat) (place : Nat → List α) : Prop where
  cap : ∀ u, (place u).length ≤ if u = 0 then stash else node
  own : ∀ u, ∀ y ∈ place u, Anc u (leafAddr d (hashOf y))

/-- **C08** (minimal loss) Inserting one more element into any reachable tree: the elements of the path and the new
one are the ones kept on the path and the lost ones; all other nodes are unchanged; the result is a valid
arrangement; and no valid arrangement whatsoever of these elements on that path keeps more of them. -/
theorem C08_minimal_loss (hashOf : α → List Bool) (hh : ∀ e, (hashOf e).length = 256)
    (stash node : Nat) (t : Upsi.Tree.Tree α) (ht : Reachable hashOf id stash node t) (hs : 1 + t.actualSize < 2 ^ 30)
    (e : α) (h : List Bool) (hl : h.length = 256) (x : InsertResult α) (hx : insert hashOf t [e] [h] = .ok x) :
    ((pathNodes x.tree.depth h).flatMap x.tree.at ++ x.lost).Perm
      ((pathNodes x.tree.depth h).flatMap t.at ++ [e]) ∧
    (∀ u, u ∉ pathNodes x.tree.depth h → x.tree.at u = t.at u) ∧
    Arrangement hashOf stash node x.tree.depth x.tree.at ∧
    ∀ place : Nat → List α, Arrangement hashOf stash node x.tree.depth place →
      List.Subperm ((pathNodes x.tree.depth h).flatMap place) ((pathNodes x.tree.depth h).flatMap t.at ++ [e]) →
      ((pathNodes x.tree.depth h).flatMap place).length ≤ ((pathNodes x.tree.depth h).flatMap x.tree.at).length := by
  obtain ⟨w1, w2, w3⟩ := ht.wf (PostOK.id hashOf) hh
  have k7 := insert_one_perm (fun e => by rw [hh e]) w1 hl hs hx
  obtain ⟨_, k2, k3, k4, k5, _, _⟩ := insert_one_path (PostOK.id hashOf) (fun e => by rw [hh e]) w1 hl hs hx
  rw [w2, w3] at k2 k5
  exact ⟨k7, k4, ⟨k2, k3⟩, fun place hp hq => k5 place hp.cap hp.own (hq.trans k7.symm.subperm)⟩

/-- **C08** (loss iff unavoidable) An insertion loses nothing exactly when the elements of the path together
with the new one can be arranged on the path at all. -/
theorem C08_lossless_iff_arrangeable (hashOf : α → List Bool) (hh : ∀ e, (hashOf e).length = 256)
    (stash node : Nat) (t : Upsi.Tree.Tree α) (ht : Reachable hashOf id stash node t) (hs : 1 + t.actualSize < 2 ^ 30)
    (e : α) (h : List Bool) (hl : h.length = 256) (x : InsertResult α) (hx : insert hashOf t [e] [h] = .ok x) :
    x.lost = [] ↔ ∃ place : Nat → List α, Arrangement hashOf stash node x.tree.depth place ∧
      ((pathNodes x.tree.depth h).flatMap place).Perm ((pathNodes x.tree.depth h).flatMap t.at ++ [e]) := by
  obtain ⟨k1, _, k3, k4⟩ := C08_minimal_loss hashOf hh stash node t ht hs e h hl x hx
  constructor
  · intro h0
    rw [h0, List.append_nil] at k1
    exact ⟨x.tree.at, k3, k1⟩
  · rintro ⟨place, hp, hperm⟩
    have := k4 place hp hperm.subperm
    have a := k1.length_eq
    have b := hperm.length_eq
    rw [List.length_append] at a
    exact List.eq_nil_of_length_eq_zero (by omega)

/-- **C08** (loss iff some level is overfull) An insertion along the path of `h` loses nothing exactly when, for
every level `j`, the elements on the path (and the new one) that share none of the nodes below level `j` with
that path are no more than the levels `≥ j` – the stash and `d + 1 - j` nodes – can hold. -/
theorem C08_loss_iff_overfull (hashOf : α → List Bool) (hh : ∀ e, (hashOf e).length = 256)
    (stash node : Nat) (t : Upsi.Tree.Tree α) (ht : Reachable hashOf id stash node t) (hs : 1 + t.actualSize < 2 ^ 30)
    (e : α) (h : List Bool) (hl : h.length = 256) (x : InsertResult α) (hx : insert hashOf t [e] [h] = .ok x) :
    x.lost = [] ↔ ∀ j ≤ x.tree.depth + 1,
      (((pathNodes x.tree.depth h).flatMap t.at ++ [e]).filter (fun y =>
        ∀ i < j, leafAddr x.tree.depth (hashOf y) / 2 ^ i ≠ leafAddr x.tree.depth h / 2 ^ i)).length ≤
      stash + (x.tree.depth + 1 - j) * node := by
  obtain ⟨w1, w2, w3⟩ := ht.wf (PostOK.id hashOf) hh
  have k7 := insert_one_perm (fun e => by rw [hh e]) w1 hl hs hx
  obtain ⟨_, _, _, _, _, k6, _⟩ := insert_one_path (PostOK.id hashOf) (fun e => by rw [hh e]) w1 hl hs hx
  rw [k6, w2, w3]
  refine forall_congr' fun j => imp_congr_right fun _ => ?_
  rw [(k7.filter _).length_eq]
  have hf : (fun y : α => decide (j ≤ stepsOf (leafAddr x.tree.depth (hashOf y)) (leafAddr x.tree.depth h))) =
      fun y => decide (∀ i < j, leafAddr x.tree.depth (hashOf y) / 2 ^ i ≠ leafAddr x.tree.depth h / 2 ^ i) := by
    funext y
    refine decide_eq_decide.2 ⟨fun hj i hi he => ?_, fun hj => ?_⟩
    · have := stepsOf_le_iff.2 he
      omega
    · by_contra hlt
      exact hj _ (by omega) (stepsOf_le_iff.1 (Nat.le_refl _))
  rw [hf]

theorem grow_reachable {hashOf : α → List Bool} {post : List α → List α} {stash node tot f : Nat} : ∀ {t t1 : Upsi.Tree.Tree α},
    Reachable hashOf post stash node t → growGo tot f t = .ok t1 → Reachable hashOf post stash node t1 := by
  induction f with
  | zero => intro t t1 _ h; simp [growGo] at h
  | succ f ih =>
    intro t t1 ht h
    unfold growGo at h
    split at h
    · simp at h
    · split at h
      · split at h
        · simp at h
        · exact ih (.layer ht (by omega)) h
      · simp only [Outcome.ok.injEq] at h; rw [← h]; exact ht

theorem grow_stays {t : Upsi.Tree.Tree α} {k : Nat} (h1 : t.depth ≤ 29) (h2 : k + t.actualSize < 2 ^ (t.depth + 1)) :
    grow k t = .ok t := by
  unfold grow growGo
  rw [if_neg (by omega), if_neg (by omega)]

/-- The insertions of a batch, one by one. -/
def singles (b : Batch α) : List (Batch α) := List.zipWith (fun e h => ([e], [h])) b.1 b.2

theorem singles_run {hashOf : α → List Bool} {post : List α → List α} (hpost : PostOK hashOf post)
    (hh : ∀ e, 256 ≤ (hashOf e).length) : ∀ (es : List α) (hsh : List (List Bool)) (t : Upsi.Tree.Tree α)
    (ns : List (Node α)) (lost : List α), TWF hashOf t → hsh.length = es.length → (∀ h ∈ hsh, h.length = 256) →
    es.length + t.actualSize < 2 ^ (t.depth + 1) →
    insertAll hashOf post t.depth es (hsh.map (leafAddr t.depth)) t.nodes = .ok (ns, lost) →
    ∃ r, runBatches hashOf post t (singles (es, hsh)) = .ok r ∧
      r.tree = { t with nodes := ns, actualSize := t.actualSize + es.length } ∧ r.lost = lost
  | [], hsh, t, ns, lost, _, hl, _, _, h => by
    cases hsh with
    | nil =>
      simp only [insertAll, Outcome.ok.injEq, Prod.mk.injEq] at h
      obtain ⟨rfl, rfl⟩ := h
      exact ⟨⟨t, [], []⟩, rfl, rfl, rfl⟩
    | cons a l => simp at hl
  | e :: es, [], _, _, _, _, hl, _, _, _ => by simp at hl
  | e :: es, g :: hsh, t, ns, lost, hw, hl, hlen, hs, h => by
    simp only [List.map_cons, insertAll, Outcome.bind_eq_ok, Outcome.pure_eq, Outcome.ok.injEq, Prod.mk.injEq] at h
    obtain ⟨⟨ns1, lost1⟩, h1, ⟨ns2, lost2⟩, h2, rfl, rfl⟩ := h
    simp only [List.length_cons] at hl hs
    have hd := hw.depth
    have hg : g.length = 256 := hlen g (by simp)
    obtain ⟨b1, b2⟩ := leafAddr_bounds (d := t.depth) (h := g) (by omega)
    have hh' : ∀ e, t.depth ≤ (hashOf e).length := fun e => by have := hh e; omega
    obtain ⟨ns', lost', bs, rest, k1, k2, _⟩ := insertOne_spec hpost hh' b1 b2 e hw.nodes
    rw [h1] at k1
    simp only [Outcome.ok.injEq, Prod.mk.injEq] at k1
    obtain ⟨rfl, rfl⟩ := k1
    obtain ⟨rs, c1, _⟩ := copyNodes_ok (ns := ns1) (us := extractPathIndices [leafAddr t.depth g]) (by
      intro u hu
      rw [k2.len]
      have := (extractPathIndices_spec (d := t.depth) (leaves := [leafAddr t.depth g])
        (by simp; exact ⟨b1, b2⟩)).2 u |>.1 hu
      obtain ⟨y, hy, ha⟩ := this
      simp only [List.mem_singleton] at hy
      subst hy
      exact lt_of_le_of_lt ha.le b2)
    have hone : insertWith hashOf post t [e] [g] =
        .ok ⟨{ t with nodes := ns1, actualSize := t.actualSize + 1 }, rs, lost1⟩ := by
      simp [insertWith, grow_stays (k := 1) hd (by omega),
        leafIndices_ok (d := t.depth) (hs := [g]) (by simp [hg]; omega), insertAll, h1, c1]
    obtain ⟨r, r1, r2, r3⟩ := singles_run hpost hh es hsh { t with nodes := ns1, actualSize := t.actualSize + 1 } ns2 lost2
      ⟨k2, by simp only; omega, hd⟩ (by omega) (fun x hx => hlen x (by simp [hx])) (by simp only; omega) h2
    refine ⟨⟨r.tree, rs :: r.updates, lost1 ++ r.lost⟩, ?_, ?_, by rw [r3]⟩
    · simp only [singles] at r1
      simp [singles, runBatches, hone, r1]
    · rw [r2]
      simp only [List.length_cons, Upsi.Tree.Tree.mk.injEq, true_and, and_true]
      omega

/-- **C08** (batches) Inserting a batch into a reachable tree is the same as first adding the empty layers it
needs and then inserting its elements one by one: same final tree, same lost elements.  So the three theorems
above, applied to these single insertions, say exactly when and what a batch loses. -/
theorem C08_batch_is_singles (hashOf : α → List Bool) (hh : ∀ e, (hashOf e).length = 256)
    (stash node : Nat) (t : Upsi.Tree.Tree α) (ht : Reachable hashOf id stash node t) (b : Batch α) (hb : b.WF)
    (hs : b.1.length + t.actualSize < 2 ^ 30) (x : InsertResult α) (hx : insert hashOf t b.1 b.2 = .ok x) :
    ∃ t1 r, Reachable hashOf id stash node t1 ∧ (∀ u, t1.at u = t.at u) ∧ t1.depth = x.tree.depth ∧
      runBatches hashOf id t1 (singles b) = .ok r ∧ r.tree = x.tree ∧ r.lost = x.lost := by
  obtain ⟨w1, _⟩ := ht.wf (PostOK.id hashOf) hh
  obtain ⟨t1, g1, g2, g3, g4, g5, g6, g7, g8, _⟩ := grow_spec (k := b.1.length) (fun e => by rw [hh e]) w1 hs
  simp only [Upsi.Tree.insert, insertWith, g1, Outcome.bind_ok,
    leafIndices_ok (d := t1.depth) (hs := b.2) (fun y hy => by rw [hb.2 y hy]; omega),
    Outcome.bind_eq_ok, Outcome.pure_eq, Outcome.ok.injEq] at hx
  obtain ⟨⟨ns, lost⟩, h1, rs, h2, rfl⟩ := hx
  obtain ⟨r, r1, r2, r3⟩ := singles_run (PostOK.id hashOf) (fun e => by rw [hh e]) b.1 b.2 t1 ns lost
    ⟨g2, by omega, g6⟩ hb.1 hb.2 (by omega) h1
  exact ⟨t1, r, grow_reachable ht g1, growGo_at g1, rfl, r1, r2, r3⟩

theorem net_map_mergeBucket (k : Nat) : ∀ bs : List (List EP), net k (bs.map mergeBucket).flatten = net k bs.flatten
  | [] => rfl
  | b :: bs => by
    have ih := net_map_mergeBucket k bs
    rw [net_eq_payloadSum, net_eq_payloadSum] at ih ⊢
    have hb := net_mergeBucket k b
    rw [net_eq_payloadSum, net_eq_payloadSum] at hb
    simp only [payloadSum, List.map_cons, List.flatten_cons, List.filter_append, List.map_append, List.sum_append] at ih hb ⊢
    omega

/-- **C08** (with deletions) Inserting one signed entry into any tree reachable by insertions with deletions:
the entries kept on the path together with the lost ones are the path's entries merged with the new one – one
entry per element, none zero, each carrying the element's net payload –; all other nodes are unchanged; the
result is a valid arrangement; and no valid arrangement of these merged entries keeps more of them.  In
particular nothing is lost exactly when the merged entries can be arranged on the path at all. -/
theorem C08_deletion_minimal_loss (h : Nat → List Bool) (hh : ∀ k, (h k).length = 256) (stash node : Nat)
    (t : Upsi.Tree.Tree EP) (ht : Reachable (fun e : EP => h e.1) mergeBucket stash node t)
    (hs : 1 + t.actualSize < 2 ^ 30) (e : EP) (y : List Bool) (hl : y.length = 256) (x : InsertResult EP)
    (hx : insertDel h t [e] [y] = .ok x) (merged : List EP)
    (hm : merged = (pathNodes x.tree.depth y).flatMap x.tree.at ++ x.lost) :
    (merged.map Prod.fst).Nodup ∧ (∀ a ∈ merged, a.2 ≠ 0) ∧
    (∀ k, payloadSum k merged = payloadSum k ((pathNodes x.tree.depth y).flatMap t.at ++ [e])) ∧
    (∀ u, u ∉ pathNodes x.tree.depth y → x.tree.at u = t.at u) ∧
    Arrangement (fun e : EP => h e.1) stash node x.tree.depth x.tree.at ∧
    (∀ place : Nat → List EP, Arrangement (fun e : EP => h e.1) stash node x.tree.depth place →
      List.Subperm ((pathNodes x.tree.depth y).flatMap place) merged →
      ((pathNodes x.tree.depth y).flatMap place).length ≤ ((pathNodes x.tree.depth y).flatMap x.tree.at).length) ∧
    (x.lost = [] ↔ ∃ place : Nat → List EP, Arrangement (fun e : EP => h e.1) stash node x.tree.depth place ∧
      ((pathNodes x.tree.depth y).flatMap place).Perm merged) := by
  subst hm
  have hh' : ∀ e : EP, ((fun e : EP => h e.1) e).length = 256 := fun e => hh e.1
  obtain ⟨w1, w2, w3⟩ := ht.wf (mergeBucket_post h) hh'
  obtain ⟨_, k2, k3, k4, k5, _, bs, q1, q2, q3⟩ :=
    insert_one_path (mergeBucket_post h) (fun e => by rw [hh' e]) w1 hl hs hx
  rw [w2, w3] at k2 k5
  refine ⟨?_, ?_, ?_, k4, ⟨k2, k3⟩, fun place hp hq => k5 place hp.cap hp.own hq, ?_, ?_⟩
  · exact (q3.map Prod.fst).nodup_iff.2 (merged_flatten_nodup q1)
  · intro a ha
    obtain ⟨b, hb, hab⟩ := List.mem_flatten.1 (q3.subset ha)
    obtain ⟨b0, _, rfl⟩ := List.mem_map.1 hb
    exact mergeBucket_nonzero b0 a hab
  · intro k
    rw [← net_eq_payloadSum, ← net_eq_payloadSum, net_perm k q3, ← net_perm k q2]
    exact net_map_mergeBucket k bs
  · intro h0
    exact ⟨x.tree.at, ⟨k2, k3⟩, by rw [h0, List.append_nil]⟩
  · rintro ⟨place, hp, hperm⟩
    have a := k5 place hp.cap hp.own hperm.subperm
    have b := hperm.length_eq
    rw [List.length_append] at b
    exact List.eq_nil_of_length_eq_zero (by omega)

/-! ### non-vacuity -/

def okB (o : Outcome σ) (p : σ → Bool) : Bool := match o with | .ok s => p s | _ => false

theorem okB_iff {o : Outcome σ} {p : σ → Bool} (h : okB o p = true) : ∃ s, o = .ok s ∧ p s = true := by
  cases o <;> simp [okB] at h
  exact ⟨_, rfl, h⟩

/-- Deletions: merging makes room.  An entry and its deletion cancel and leave an empty tree. -/
example : ∃ (r : Run EP) (x : InsertResult EP),
    runDel toyHash (Tree.empty 0 1) [([(1, 5)], [toyHash 1])] = .ok r ∧
    insertDel toyHash r.tree [(1, -5)] [toyHash 1] = .ok x ∧ x.lost = [] ∧ x.tree.contents = [] := by
  obtain ⟨r, hr, h1⟩ := okB_iff (o := runDel toyHash (Tree.empty 0 1) [([(1, 5)], [toyHash 1])])
    (p := fun r => okB (insertDel toyHash r.tree [(1, -5)] [toyHash 1]) (fun x => x.lost == [] && x.tree.contents == []))
    (by decide +kernel)
  obtain ⟨x, hx, h2⟩ := okB_iff h1
  simp only [Bool.and_eq_true, beq_iff_eq] at h2
  exact ⟨r, x, hr, hx, h2⟩

/-- All elements on one leaf. -/
def oneLeaf : Nat → List Bool := fun _ => toyHash 0

theorem oneLeaf_len (e : Nat) : (oneLeaf e).length = 256 := toyHash_len 0

/-- Two elements fill the two nodes of the path of a tree without stash; a third one is dropped, and indeed
no arrangement could hold all three. -/
example : ∃ (r : Run Nat) (x : InsertResult Nat),
    runBatches oneLeaf id (Tree.empty 0 1) [([1, 2], [toyHash 0, toyHash 0])] = .ok r ∧ r.lost = [] ∧
    insert oneLeaf r.tree [3] [toyHash 0] = .ok x ∧ x.lost = [2] ∧
    ¬ ∃ place : Nat → List Nat, Arrangement oneLeaf 0 1 x.tree.depth place ∧
      ((pathNodes x.tree.depth (toyHash 0)).flatMap place).Perm
        ((pathNodes x.tree.depth (toyHash 0)).flatMap r.tree.at ++ [3]) := by
  obtain ⟨r, hr, h1⟩ := okB_iff (o := runBatches oneLeaf id (Tree.empty 0 1) [([1, 2], [toyHash 0, toyHash 0])])
    (p := fun r => r.lost == [] && r.tree.actualSize == 2 &&
      okB (insert oneLeaf r.tree [3] [toyHash 0]) (fun x => x.lost == [2])) (by decide +kernel)
  simp only [Bool.and_eq_true, beq_iff_eq] at h1
  obtain ⟨x, hx, h2⟩ := okB_iff h1.2
  simp only [beq_iff_eq] at h2
  have ht := Reachable.of_run (PostOK.id oneLeaf) oneLeaf_len [([1, 2], [toyHash 0, toyHash 0])] _ r (.empty (stash := 0) (node := 1))
    (by intro b hb
        simp only [List.mem_singleton] at hb
        subst hb
        exact ⟨rfl, by
          intro y hy
          simp only [List.mem_cons, List.not_mem_nil, or_false] at hy
          rcases hy with rfl | rfl <;> exact toyHash_len 0⟩) (by simp [total, Tree.empty]) hr
  refine ⟨r, x, hr, h1.1.1, hx, h2, ?_⟩
  rw [← C08_lossless_iff_arrangeable oneLeaf oneLeaf_len 0 1 r.tree ht (by omega) 3 (toyHash 0) (toyHash_len 0) x hx, h2]
  simp

/-- With a stash of one the third element is kept. -/
example : ∃ (r : Run Nat) (x : InsertResult Nat),
    runBatches oneLeaf id (Tree.empty 1 1) [([1, 2], [toyHash 0, toyHash 0])] = .ok r ∧
    insert oneLeaf r.tree [3] [toyHash 0] = .ok x ∧ x.lost = [] := by
  obtain ⟨r, hr, h1⟩ := okB_iff (o := runBatches oneLeaf id (Tree.empty 1 1) [([1, 2], [toyHash 0, toyHash 0])])
    (p := fun r => okB (insert oneLeaf r.tree [3] [toyHash 0]) (fun x => x.lost == [])) (by decide +kernel)
  obtain ⟨x, hx, h2⟩ := okB_iff h1
  exact ⟨r, x, hr, hx, by simpa using h2⟩

end Upsi.Tree.Props
