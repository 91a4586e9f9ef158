import Verif.Tree.SyncLemmas
import Mathlib.Algebra.Order.Group.Multiset
/- Lifting of the one-batch facts to histories. -/
namespace Upsi.Tree
open Upsi

variable {α γ ω : Type}

theorem runBatches_spec {hashOf : α → List Bool} {post : List α → List α}
    (hpost : PostOK hashOf post) (hh : ∀ e, 256 ≤ (hashOf e).length)
    {M : Type} [AddCommMonoid M] (w : α → M) (hw : ∀ b, wsum w (post b) = wsum w b)
    (bs : List (Batch α)) : ∀ (t : Tree α), TWF hashOf t → (∀ b ∈ bs, Batch.WF b) →
    total bs + t.actualSize < 2 ^ 30 →
    ∃ r, runBatches hashOf post t bs = .ok r ∧ TWF hashOf r.tree ∧
      r.tree.nodeSize = t.nodeSize ∧ r.tree.stashSize = t.stashSize ∧
      r.tree.actualSize = t.actualSize + total bs ∧ t.depth ≤ r.tree.depth ∧
      wsum w r.tree.contents + wsum w r.lost = wsum w t.contents + wsum w (bs.flatMap (·.1)) := by
  induction bs with
  | nil =>
    intro t ht _ _
    exact ⟨⟨t, [], []⟩, rfl, ht, rfl, rfl, by simp [total], Nat.le_refl _, by simp⟩
  | cons b bs ih =>
    intro t ht hb htot
    simp only [total, List.map_cons, List.sum_cons] at htot
    obtain ⟨r1, k1, k2, k3, k4, k5, k6, k7, k8, _⟩ := insertWith_spec hpost hh w hw ht
      (es := b.1) (hsh := b.2) (hb b (by simp)) (by omega)
    obtain ⟨r2, l1, l2, l3, l4, l5, l6, l7⟩ := ih r1.tree k2 (fun b hb' => hb b (by simp [hb'])) (by
      simp only [total]; omega)
    refine ⟨⟨r2.tree, r1.update :: r2.updates, r1.lost ++ r2.lost⟩, ?_, l2, by simp [l3, k3],
      by simp [l4, k4], ?_, by simp; omega, ?_⟩
    · simp only [runBatches, k1, Outcome.bind_ok, l1, Outcome.pure_eq]
    · simp only [l5, k5, total, List.map_cons, List.sum_cons]; omega
    · simp only [wsum_append, List.flatMap_cons]
      rw [add_comm (wsum w r1.lost), ← add_assoc, l7, add_right_comm, k8, add_assoc]

theorem wsum_singleton (l : List α) : wsum (fun a => ({a} : Multiset α)) l = (l : Multiset α) := by
  induction l with
  | nil => rfl
  | cons a l ih => rw [wsum_cons, ih]; simp

/-! ### reading a path -/

theorem readPath_ok {ns : List (Node α)} {us : List Nat} (h : ∀ u ∈ us, u < ns.length) :
    readPath ns us = .ok (us.flatMap (nodeAt ns)) := by
  induction us with
  | nil => rfl
  | cons u us ih =>
    have hu := h u (by simp)
    have hget : ns[u]? = some ns[u] := List.getElem?_eq_getElem hu
    simp only [readPath, getNode, hget, Outcome.bind_ok, ih (fun v hv => h v (by simp [hv])),
      Outcome.pure_eq, List.flatMap_cons, nodeAt_of hget]

theorem getPath_ok {t : Tree α} (hl : t.nodes.length = 2 ^ (t.depth + 1)) {h : List Bool}
    (hd : t.depth ≤ h.length) :
    getPath t h = .ok ((pathUp (leafAddr t.depth h)).flatMap (nodeAt t.nodes)) := by
  simp only [getPath, computeIndex_ok hd, Outcome.bind_ok]
  apply readPath_ok
  intro u hu
  have := (mem_pathUp.1 hu).le
  have := (leafAddr_bounds hd).2
  omega

theorem flatMap_eq_range (ns : List (Node α)) :
    ns.flatMap Node.elems = (List.range ns.length).flatMap (nodeAt ns) := by
  have : ns.map Node.elems = (List.range ns.length).map (nodeAt ns) := by
    apply List.ext_getElem
    · simp
    · intro i h1 h2
      simp only [List.length_map] at h1
      simp only [List.getElem_map, List.getElem_range]
      rw [nodeAt_of (List.getElem?_eq_getElem h1)]
  rw [List.flatMap_def, List.flatMap_def, this]

/-- If a family of lists vanishes outside a duplicate-free `us`, summing over `us` or over all
indices is the same. -/
theorem flatMap_support {n : Nat} {us : List Nat} {f : Nat → List α} (hnd : us.Nodup)
    (hlt : ∀ u ∈ us, u < n) (hz : ∀ u, u < n → u ∉ us → f u = []) :
    (us.flatMap f).Perm ((List.range n).flatMap f) := by
  have hp : (us ++ (List.range n).filter (fun u => decide (u ∉ us))).Perm (List.range n) := by
    rw [List.perm_ext_iff_of_nodup]
    · intro a
      simp only [List.mem_append, List.mem_filter, List.mem_range, decide_eq_true_eq]
      constructor
      · rintro (h | h)
        · exact hlt a h
        · exact h.1
      · intro h
        by_cases ha : a ∈ us
        · exact Or.inl ha
        · exact Or.inr ⟨h, ha⟩
    · rw [List.nodup_append]
      refine ⟨hnd, List.Nodup.filter _ List.nodup_range, ?_⟩
      intro a ha b hb hab
      subst hab
      simp only [List.mem_filter, decide_eq_true_eq] at hb
      exact hb.2 ha
    · exact List.nodup_range
  have h2 := hp.flatMap_right f
  rw [List.flatMap_append] at h2
  have hnil : ((List.range n).filter (fun u => decide (u ∉ us))).flatMap f = [] := by
    rw [List.flatMap_eq_nil_iff]
    intro u hu
    simp only [List.mem_filter, List.mem_range, decide_eq_true_eq] at hu
    exact hz u hu.1 hu.2
  rw [hnil, List.append_nil] at h2
  exact h2

/-- All stored elements satisfying `p` lie on the path of `h`, hence the lookup finds each copy. -/
theorem filter_path {hashOf : α → List Bool} {t : Tree α} (ht : TWF hashOf t) {h : List Bool}
    (hd : t.depth ≤ h.length) (p : α → Bool)
    (hp : ∀ e, p e = true → leafAddr t.depth (hashOf e) = leafAddr t.depth h) :
    (((pathUp (leafAddr t.depth h)).flatMap (nodeAt t.nodes)).filter p).Perm
      (t.contents.filter p) := by
  rw [Tree.contents, flatMap_eq_range, List.filter_flatMap, List.filter_flatMap]
  apply flatMap_support (pathUp_nodup _)
  · intro u hu
    have := (mem_pathUp.1 hu).le
    have := (leafAddr_bounds hd).2
    rw [ht.nodes.len]; omega
  · intro u hu hnot
    rw [List.filter_eq_nil_iff]
    intro e he hpe
    apply hnot
    rw [mem_pathUp, ← hp e hpe]
    have hget : t.nodes[u]? = some t.nodes[u] := List.getElem?_eq_getElem hu
    rw [nodeAt_of hget] at he
    exact ht.nodes.pos u _ hget e he

/-- Capacity of one path: one stash plus `depth + 1` nodes. -/
theorem path_capacity {hashOf : α → List Bool} {t : Tree α} (ht : TWF hashOf t) {h : List Bool}
    (hd : t.depth ≤ h.length) :
    ((pathUp (leafAddr t.depth h)).flatMap (nodeAt t.nodes)).length ≤
      t.stashSize + (t.depth + 1) * t.nodeSize := by
  obtain ⟨b1, b2⟩ := leafAddr_bounds hd
  rw [pathUp_eq b1 b2, List.range_succ, List.map_append, List.flatMap_append, List.length_append]
  have hcap : ∀ u, u ≠ 0 → (nodeAt t.nodes u).length ≤ t.nodeSize := by
    intro u hu
    by_cases hlt : u < t.nodes.length
    · have hget : t.nodes[u]? = some t.nodes[u] := List.getElem?_eq_getElem hlt
      rw [nodeAt_of hget]
      have h1 := ht.nodes.room u _ hget
      have h2 := ht.nodes.caps u _ hget
      rw [if_neg hu] at h2; omega
    · simp [nodeAt, List.getElem?_eq_none (Nat.le_of_not_lt hlt)]
  have hst : (nodeAt t.nodes 0).length ≤ t.stashSize := by
    by_cases hlt : 0 < t.nodes.length
    · have hget : t.nodes[0]? = some t.nodes[0] := List.getElem?_eq_getElem hlt
      rw [nodeAt_of hget]
      have h1 := ht.nodes.room 0 _ hget
      have h2 := ht.nodes.caps 0 _ hget
      rw [if_pos rfl] at h2; omega
    · simp [nodeAt, List.getElem?_eq_none (Nat.le_of_not_lt hlt)]
  have hlast : ((List.map (fun k => leafAddr t.depth h / 2 ^ k) [t.depth + 1]).flatMap
      (nodeAt t.nodes)).length ≤ t.stashSize := by
    simp only [List.map_cons, List.map_nil, List.flatMap_cons, List.flatMap_nil, List.append_nil]
    rw [Nat.div_eq_of_lt b2]; exact hst
  have hmain : ∀ (m : Nat), m ≤ t.depth + 1 →
      ((List.map (fun k => leafAddr t.depth h / 2 ^ k) (List.range m)).flatMap
        (nodeAt t.nodes)).length ≤ m * t.nodeSize := by
    intro m
    induction m with
    | zero => simp
    | succ m ih =>
      intro hm
      rw [List.range_succ, List.map_append, List.flatMap_append, List.length_append, Nat.succ_mul]
      have h1 := ih (by omega)
      have h2 : (nodeAt t.nodes (leafAddr t.depth h / 2 ^ m)).length ≤ t.nodeSize := by
        apply hcap
        have : 2 ^ m ≤ 2 ^ t.depth := Nat.pow_le_pow_right (by omega) (by omega)
        have : 0 < leafAddr t.depth h / 2 ^ m := Nat.div_pos (by omega) (Nat.pow_pos (by omega))
        omega
      simp only [List.map_cons, List.map_nil, List.flatMap_cons, List.flatMap_nil, List.append_nil]
      omega
  have := hmain (t.depth + 1) (Nat.le_refl _)
  omega

/-! ### no loss with a large stash -/

theorem length_le_flatMap {ns : List (Node α)} {n : Node α} (h : n ∈ ns) :
    n.elems.length ≤ (ns.flatMap Node.elems).length := by
  induction ns with
  | nil => simp at h
  | cons m ns ih =>
    simp only [List.flatMap_cons, List.length_append]
    rcases List.mem_cons.1 h with rfl | h
    · omega
    · have := ih h; omega

theorem insertAll_noloss {hashOf : α → List Bool} {d c s : Nat} (hh : ∀ e, d ≤ (hashOf e).length)
    (es : List α) : ∀ (ls : List Nat) (ns ns' : List (Node α)) (lost : List α),
    (∀ l ∈ ls, 2 ^ d ≤ l ∧ l < 2 ^ (d + 1)) → NodesWF hashOf d c s ns →
    (ns.flatMap Node.elems).length + es.length ≤ s →
    insertAll hashOf id d es ls ns = .ok (ns', lost) → lost = [] := by
  induction es with
  | nil => intro ls ns ns' lost _ _ _ h; simp [insertAll] at h; exact h.2
  | cons e es ih =>
    intro ls ns ns' lost h2 h3 h4 h
    match ls with
    | [] => simp [insertAll] at h
    | l :: ls =>
      have hl := h2 l (by simp)
      obtain ⟨ns1, lost1, bs, rest, p1, p2, p3, p4, p5, p6, p7, p8, p9, p10⟩ :=
        insertOne_spec (PostOK.id hashOf) hh hl.1 hl.2 e h3
      simp only [insertAll, p1, Outcome.bind_ok, Outcome.bind_eq_ok, Outcome.pure_eq,
        Outcome.ok.injEq, Prod.mk.injEq] at h
      obtain ⟨⟨ns2, lost2⟩, h5, h6, h7⟩ := h
      rw [List.map_id] at p7
      have hcount := (p7.trans p6).length_eq
      simp only [List.length_append, List.length_cons, List.length_nil] at hcount h4
      have hl1 : lost1 = [] := by
        rcases p10 with h | ⟨n, hn, hlen⟩
        · exact h
        · rw [← List.length_eq_zero_iff]
          have := length_le_flatMap (List.mem_of_getElem? hn)
          omega
      subst hl1
      simp only [List.nil_append] at h7
      subst h7
      refine ih ls ns1 ns2 lost2 (fun l hl => h2 l (by simp [hl])) p2 ?_ h5
      simp only [List.length_nil] at hcount
      omega

theorem runBatches_noloss {hashOf : α → List Bool} (hh : ∀ e, 256 ≤ (hashOf e).length)
    (bs : List (Batch α)) : ∀ (t : Tree α) (r : Run α), TWF hashOf t → (∀ b ∈ bs, Batch.WF b) →
    total bs + t.actualSize < 2 ^ 30 → t.contents.length + total bs ≤ t.stashSize →
    runBatches hashOf id t bs = .ok r → r.lost = [] := by
  induction bs with
  | nil => intro t r _ _ _ _ h; simp [runBatches] at h; rw [← h]
  | cons b bs ih =>
    intro t r ht hb htot hst h
    simp only [total, List.map_cons, List.sum_cons] at htot hst
    obtain ⟨r1, k1, k2, k3, k4, k5, k6, k7, k8, _⟩ := insertWith_spec (PostOK.id hashOf) hh
      (fun _ => 1) (fun b => rfl) ht (es := b.1) (hsh := b.2) (hb b (by simp)) (by omega)
    simp only [runBatches, k1, Outcome.bind_ok, Outcome.bind_eq_ok, Outcome.pure_eq,
      Outcome.ok.injEq] at h
    obtain ⟨r2, h2, rfl⟩ := h
    have hlen : ∀ l : List α, wsum (fun _ => 1) l = l.length := by
      intro l; simp [wsum]
    rw [hlen, hlen, hlen, hlen] at k8
    have hl1 : r1.lost = [] := by
      simp only [insertWith, Outcome.bind_eq_ok, Outcome.pure_eq, Outcome.ok.injEq] at k1
      obtain ⟨t1, e1, l, hl, ⟨ns, lost⟩, hins, rs, _, rfl⟩ := k1
      obtain ⟨t1', g1, g2, g3, g4, g5, g6, g7, g8, g9, g10⟩ := grow_spec hh ht (k := b.1.length) (by omega)
      rw [e1] at g1
      simp only [Outcome.ok.injEq] at g1
      subst g1
      have hd : ∀ x ∈ b.2, t1.depth ≤ x.length := fun x hx => by
        have := (hb b (by simp)).2 x hx; omega
      rw [leafIndices_ok hd] at hl
      simp only [Outcome.ok.injEq] at hl
      subst hl
      refine insertAll_noloss (s := t1.stashSize) (c := t1.nodeSize)
        (fun e => by have := hh e; omega) _ _ _ _ _ ?_ g2 ?_ hins
      · intro l hl
        obtain ⟨y, hy, rfl⟩ := List.mem_map.1 hl
        exact leafAddr_bounds (hd y hy)
      · rw [g10, List.flatMap_append, replicate_flatMap_nil, List.append_nil, g4]
        simp only [Tree.contents] at hst
        omega
    rw [hl1] at k8 ⊢
    simp only [List.nil_append]
    refine ih r1.tree r2 k2 (fun b hb' => hb b (by simp [hb'])) ?_ ?_ h2
    · simp only [total]; omega
    · simp only [total, k4]; simp at k8; omega

end Upsi.Tree
