import Verif.Tree.InsertLemmas
import Mathlib.Algebra.BigOperators.Group.List.Basic
/- The tree invariant and its preservation by growth and insertion. -/
namespace Upsi.Tree
open Upsi

variable {α : Type}

/-- Node-array invariant at depth `d`. -/
structure NodesWF (hashOf : α → List Bool) (d nodeSize stashSize : Nat) (ns : List (Node α)) :
    Prop where
  len : ns.length = 2 ^ (d + 1)
  caps : ∀ (u : Nat) (n : Node α), ns[u]? = some n → n.cap = if u = 0 then stashSize else nodeSize
  room : ∀ (u : Nat) (n : Node α), ns[u]? = some n → n.elems.length ≤ n.cap
  pos : ∀ (u : Nat) (n : Node α), ns[u]? = some n → ∀ e ∈ n.elems, Anc u (leafAddr d (hashOf e))

/-- Tree invariant. -/
structure TWF (hashOf : α → List Bool) (t : Tree α) : Prop where
  nodes : NodesWF hashOf t.depth t.nodeSize t.stashSize t.nodes
  size : t.actualSize < 2 ^ (t.depth + 1)
  depth : t.depth ≤ 29

theorem empty_wf (hashOf : α → List Bool) (ss ns : Nat) : TWF hashOf (Tree.empty ss ns : Tree α) := by
  refine ⟨⟨rfl, ?_, ?_, ?_⟩, by simp [Tree.empty], by simp [Tree.empty]⟩ <;>
  · intro u n h
    match u with
    | 0 => simp [Tree.empty] at h; subst h; simp [Tree.empty]
    | 1 => simp [Tree.empty] at h; subst h; simp [Tree.empty]
    | u + 2 => simp [Tree.empty] at h

theorem addNewLayer_nodes {hashOf : α → List Bool} {t : Tree α}
    (h : NodesWF hashOf t.depth t.nodeSize t.stashSize t.nodes)
    (hh : ∀ e, t.depth + 1 ≤ (hashOf e).length) :
    NodesWF hashOf t.addNewLayer.depth t.addNewLayer.nodeSize t.addNewLayer.stashSize
      t.addNewLayer.nodes := by
  have hlen := h.len
  have key : ∀ (u : Nat) (n : Node α), t.addNewLayer.nodes[u]? = some n →
      t.nodes[u]? = some n ∨ (u ≠ 0 ∧ n = ⟨t.nodeSize, []⟩) := by
    intro u n hn
    simp only [Tree.addNewLayer] at hn
    by_cases hu : u < t.nodes.length
    · left; rwa [List.getElem?_append_left hu] at hn
    · right
      rw [List.getElem?_append_right (by omega), List.getElem?_replicate] at hn
      split at hn
      · refine ⟨?_, by simpa using hn.symm⟩
        have : 0 < 2 ^ (t.depth + 1) := Nat.pow_pos (by omega)
        omega
      · simp at hn
  refine ⟨?_, ?_, ?_, ?_⟩
  · simp only [Tree.addNewLayer, List.length_append, List.length_replicate, hlen]
    rw [Nat.pow_succ 2 (t.depth + 1)]; omega
  · intro u n hn
    rcases key u n hn with h1 | ⟨h1, rfl⟩
    · exact h.caps u n h1
    · simp [h1, Tree.addNewLayer]
  · intro u n hn
    rcases key u n hn with h1 | ⟨h1, rfl⟩
    · exact h.room u n h1
    · simp
  · intro u n hn e he
    rcases key u n hn with h1 | ⟨h1, rfl⟩
    · exact (h.pos u n h1 e he).leafAddr_succ (hh e)
    · simp at he

theorem growGo_spec {hashOf : α → List Bool} (hh : ∀ e, 256 ≤ (hashOf e).length) {total : Nat}
    (htot : total < 2 ^ 30) (f : Nat) : ∀ (t : Tree α),
    NodesWF hashOf t.depth t.nodeSize t.stashSize t.nodes → t.depth ≤ 29 → 31 ≤ f + t.depth →
    ∃ t', growGo total f t = .ok t' ∧
      NodesWF hashOf t'.depth t'.nodeSize t'.stashSize t'.nodes ∧
      t'.nodeSize = t.nodeSize ∧ t'.stashSize = t.stashSize ∧ t'.actualSize = t.actualSize ∧
      t'.depth ≤ 29 ∧ t.depth ≤ t'.depth ∧ total < 2 ^ (t'.depth + 1) ∧
      (∀ d, t.depth ≤ d → total < 2 ^ (d + 1) → t'.depth ≤ d) ∧
      t'.nodes = t.nodes ++ List.replicate (2 ^ (t'.depth + 1) - 2 ^ (t.depth + 1)) ⟨t.nodeSize, []⟩ := by
  induction f with
  | zero => intro t h1 h2 h3; omega
  | succ f ih =>
    intro t h1 h2 h3
    unfold growGo
    rw [if_neg (by omega)]
    by_cases hc : total ≥ 2 ^ (t.depth + 1)
    · have hd : t.depth + 1 < 30 := by
        have : 2 ^ (t.depth + 1) < 2 ^ 30 := by omega
        exact (Nat.pow_lt_pow_iff_right (by omega)).1 this
      rw [if_pos hc, if_neg (by omega)]
      obtain ⟨t', r1, r2, r3, r4, r5, r6, r7, r8, r9, r10⟩ := ih t.addNewLayer
        (addNewLayer_nodes h1 (fun e => by have := hh e; omega))
        (by simp [Tree.addNewLayer]; omega) (by simp [Tree.addNewLayer]; omega)
      refine ⟨t', r1, r2, r3, r4, r5, r6, ?_, r8, ?_, ?_⟩
      · simp [Tree.addNewLayer] at r7; omega
      · intro d hd1 hd2
        apply r9 d _ hd2
        by_cases h : t.depth = d
        · subst h; omega
        · simp [Tree.addNewLayer]; omega
      · rw [r10]
        simp only [Tree.addNewLayer] at r7 ⊢
        rw [List.append_assoc, List.replicate_append_replicate, h1.len]
        congr 2
        have e1 : 2 ^ (t.depth + 1) ≤ 2 ^ (t.depth + 1 + 1) := Nat.pow_le_pow_right (by omega) (by omega)
        have e2 : 2 ^ (t.depth + 1 + 1) ≤ 2 ^ (t'.depth + 1) := Nat.pow_le_pow_right (by omega) (by omega)
        omega
    · rw [if_neg hc]
      exact ⟨t, rfl, h1, rfl, rfl, rfl, h2, Nat.le_refl _, by omega, fun d hd _ => hd, by simp⟩

theorem grow_spec {hashOf : α → List Bool} (hh : ∀ e, 256 ≤ (hashOf e).length) {k : Nat}
    {t : Tree α} (ht : TWF hashOf t) (htot : k + t.actualSize < 2 ^ 30) :
    ∃ t', grow k t = .ok t' ∧
      NodesWF hashOf t'.depth t'.nodeSize t'.stashSize t'.nodes ∧
      t'.nodeSize = t.nodeSize ∧ t'.stashSize = t.stashSize ∧ t'.actualSize = t.actualSize ∧
      t'.depth ≤ 29 ∧ t.depth ≤ t'.depth ∧ k + t.actualSize < 2 ^ (t'.depth + 1) ∧
      (∀ d, t.depth ≤ d → k + t.actualSize < 2 ^ (d + 1) → t'.depth ≤ d) ∧
      t'.nodes = t.nodes ++ List.replicate (2 ^ (t'.depth + 1) - 2 ^ (t.depth + 1)) ⟨t.nodeSize, []⟩ :=
  growGo_spec hh htot 32 t ht.nodes ht.depth (by omega)

theorem replicate_flatMap_nil (k c : Nat) :
    (List.replicate k (⟨c, []⟩ : Node α)).flatMap Node.elems = [] := by
  induction k with
  | zero => rfl
  | succ k ih => simp [List.replicate_succ, ih]

/-- Property of the bucket post-processing: it introduces no new hash. -/
def PostOK (hashOf : α → List Bool) (post : List α → List α) : Prop :=
  ∀ b, ∀ e ∈ post b, ∃ e' ∈ b, hashOf e = hashOf e'

theorem PostOK.id (hashOf : α → List Bool) : PostOK hashOf (id : List α → List α) :=
  fun _ e he => ⟨e, he, rfl⟩

theorem insertOne_spec {hashOf : α → List Bool} {post : List α → List α}
    (hpost : PostOK hashOf post) {d c s leaf : Nat} (hh : ∀ e, d ≤ (hashOf e).length)
    (h1 : 2 ^ d ≤ leaf) (h2 : leaf < 2 ^ (d + 1)) (new : α) {ns : List (Node α)}
    (hw : NodesWF hashOf d c s ns) :
    ∃ ns' lost bs rest, insertOne hashOf post d leaf new ns = .ok (ns', lost) ∧
      NodesWF hashOf d c s ns' ∧
      bs.length = d + 2 ∧ BOK hashOf d leaf bs ∧
      bs.flatten.Perm ((pathUp leaf).flatMap (nodeAt ns) ++ [new]) ∧
      (rest ++ bs.flatten).Perm (ns.flatMap Node.elems ++ [new]) ∧
      (ns'.flatMap Node.elems ++ lost).Perm (rest ++ (bs.map post).flatten) ∧
      ((pathUp leaf).flatMap (nodeAt ns') ++ lost).Perm (bs.map post).flatten ∧
      (∀ u, u ∉ pathUp leaf → ns'[u]? = ns[u]?) ∧
      (lost = [] ∨ ∃ n, ns'[0]? = some n ∧ n.elems.length = s) := by
  have hlt : ∀ u ∈ pathUp leaf, u < ns.length := by
    intro u hu
    have := (mem_pathUp.1 hu).le
    rw [hw.len]; omega
  have hzero : (0 : Nat) ∈ pathUp leaf := mem_pathUp.2 (Anc.zero _)
  obtain ⟨ns1, bs, q1, q2, q3, q4, q5, q6, q7⟩ := collectPath_spec hh h2 new (pathUp leaf) ns
    (List.replicate (d + 2) []) (pathUp_nodup leaf) hlt (by simp) (by
      intro i b hb e he
      rw [List.getElem?_replicate] at hb
      split at hb
      · simp at hb; subst hb; simp at he
      · simp at hb)
  have hrep : (List.replicate (d + 2) ([] : List α)).flatten = [] := by
    rw [List.flatten_eq_nil_iff]; intro b hb; exact (List.mem_replicate.1 hb).2
  rw [hrep, if_pos hzero] at q6 q7
  simp only [List.nil_append] at q6 q7
  have hbok : BOK hashOf d leaf (bs.map post) := by
    intro i b hb e he
    rw [List.getElem?_map] at hb
    cases hbi : bs[i]? with
    | none => simp [hbi] at hb
    | some b0 =>
      simp [hbi] at hb; subst hb
      obtain ⟨e', he', hhe⟩ := hpost b0 e he
      rw [hhe]
      exact q5 i b0 hbi e' he'
  obtain ⟨ns2, bs', f1, f2, f3, f4, f5, f6, f7, f8⟩ := fillPath_spec (hashOf := hashOf) (d := d)
    (leaf := leaf) (pathUp leaf) 0 0 ns1 (bs.map post) (pathUp_nodup leaf)
    (by intro u hu; rw [q2]; exact hlt u hu) (by simpa using q4) hbok
    (by intro i u hu
        rw [pathUp_eq h1 h2, List.getElem?_map] at hu
        by_cases hi : i < d + 2
        · rw [List.getElem?_range hi] at hu; simp at hu; simp [hu]
        · rw [List.getElem?_eq_none (by simp; omega)] at hu; simp at hu)
    (by rw [pathUp_eq h1 h2]; simp) (by omega) (by intro j hj; omega)
    (by intro u n hn
        obtain ⟨m, hm, c1, c2, c3⟩ := q3 u n hn
        by_cases hu : u ∈ pathUp leaf
        · rw [c2 hu]; simp
        · rw [c3 hu]; exact hw.room u m hm)
  have hempty : (pathUp leaf).flatMap (nodeAt ns1) = [] := by
    rw [List.flatMap_eq_nil_iff]
    intro u hu
    have hu' : u < ns1.length := by rw [q2]; exact hlt u hu
    obtain ⟨m, hm, c1, c2, c3⟩ := q3 u _ (List.getElem?_eq_getElem hu')
    rw [nodeAt_of (List.getElem?_eq_getElem hu')]
    exact c2 hu
  rw [hempty, List.nil_append] at f6
  refine ⟨ns2, bs'.flatten, bs, ns1.flatMap Node.elems, ?_, ?_, q4, q5, q6,
    List.perm_append_comm.trans q7, f7, f6, ?_, ?_⟩
  · simp only [insertOne, q1, Outcome.bind_ok, f1, Outcome.pure_eq]
  · refine ⟨by rw [f2, q2, hw.len], ?_, ?_, ?_⟩
    · intro u n hn
      obtain ⟨m, hm, c1, _⟩ := f5 u n hn
      obtain ⟨m', hm', c1', _⟩ := q3 u m hm
      rw [c1, c1', hw.caps u m' hm']
    · intro u n hn
      obtain ⟨m, hm, c1, c2, _⟩ := f5 u n hn
      exact c2
    · intro u n hn e he
      obtain ⟨m, hm, c1, c2, c3, c4⟩ := f5 u n hn
      rcases c4 e he with h | h
      · obtain ⟨m', hm', d1, d2, d3⟩ := q3 u m hm
        by_cases hu : u ∈ pathUp leaf
        · rw [d2 hu] at h; simp at h
        · rw [d3 hu] at h; exact hw.pos u m' hm' e h
      · exact h
  · intro u hu
    by_cases hlen : u < ns2.length
    · obtain ⟨m, hm, c1, c2, c3, c4⟩ := f5 u _ (List.getElem?_eq_getElem hlen)
      obtain ⟨m', hm', d1, d2, d3⟩ := q3 u m hm
      rw [List.getElem?_eq_getElem hlen, c3 hu, d3 hu, hm']
    · rw [List.getElem?_eq_none (by omega), List.getElem?_eq_none (by omega)]
  · rcases f8 (List.ne_nil_of_mem hzero) with h | ⟨u, n', g1, g2, g3⟩
    · exact Or.inl h
    · right
      have hu0 : u = 0 := by
        rw [pathUp_eq h1 h2, List.range_succ, List.map_append, List.getLast?_append] at g1
        simp at g1
        rw [← g1]; exact Nat.div_eq_of_lt h2
      subst hu0
      refine ⟨n', g2, ?_⟩
      rw [g3]
      obtain ⟨m, hm, c1, _⟩ := f5 0 n' g2
      obtain ⟨m', hm', c1', _⟩ := q3 0 m hm
      rw [c1, c1', hw.caps 0 m' hm', if_pos rfl]

/-- Sum of a weight over a list. -/
def wsum {M : Type} [AddCommMonoid M] (w : α → M) (l : List α) : M := (l.map w).sum

section wsum
variable {M : Type} [AddCommMonoid M] (w : α → M)

@[simp] theorem wsum_nil : wsum w [] = 0 := rfl
@[simp] theorem wsum_cons (a : α) (l : List α) : wsum w (a :: l) = w a + wsum w l := by simp [wsum]
@[simp] theorem wsum_append (a b : List α) : wsum w (a ++ b) = wsum w a + wsum w b := by
  simp [wsum]
theorem wsum_perm {a b : List α} (h : a.Perm b) : wsum w a = wsum w b := (h.map w).sum_eq
theorem wsum_flatten_map (post : List α → List α) (hp : ∀ b, wsum w (post b) = wsum w b)
    (bs : List (List α)) : wsum w (bs.map post).flatten = wsum w bs.flatten := by
  induction bs with
  | nil => rfl
  | cons b bs ih => simp [hp, ih]
end wsum

theorem insertAll_spec {hashOf : α → List Bool} {post : List α → List α}
    (hpost : PostOK hashOf post) {d c s : Nat} (hh : ∀ e, d ≤ (hashOf e).length)
    {M : Type} [AddCommMonoid M] (w : α → M) (hw : ∀ b, wsum w (post b) = wsum w b)
    (es : List α) : ∀ (ls : List Nat) (ns : List (Node α)), ls.length = es.length →
    (∀ l ∈ ls, 2 ^ d ≤ l ∧ l < 2 ^ (d + 1)) → NodesWF hashOf d c s ns →
    ∃ ns' lost, insertAll hashOf post d es ls ns = .ok (ns', lost) ∧ NodesWF hashOf d c s ns' ∧
      (wsum w (ns'.flatMap Node.elems) + wsum w lost =
        wsum w (ns.flatMap Node.elems) + wsum w es) ∧
      (∀ u, (∀ l ∈ ls, ¬ Anc u l) → ns'[u]? = ns[u]?) := by
  induction es with
  | nil =>
    intro ls ns h1 h2 h3
    exact ⟨ns, [], by simp [insertAll], h3, by simp, fun u _ => rfl⟩
  | cons e es ih =>
    intro ls ns h1 h2 h3
    match ls, h1 with
    | l :: ls, h1 =>
      have hl := h2 l (by simp)
      obtain ⟨ns1, lost1, bs, rest, p1, p2, p3, p4, p5, p6, p7, p8, p9, p10⟩ :=
        insertOne_spec hpost hh hl.1 hl.2 e h3
      obtain ⟨ns', lost', q1, q2, q3, q4⟩ := ih ls ns1 (by simpa using h1)
        (fun l hl => h2 l (by simp [hl])) p2
      refine ⟨ns', lost1 ++ lost', ?_, q2, ?_, ?_⟩
      · simp only [insertAll, p1, Outcome.bind_ok, q1, Outcome.pure_eq]
      · have e1 := wsum_perm w p7
        have e2 := wsum_perm w p6
        simp only [wsum_append, wsum_flatten_map w post hw, wsum_cons, wsum_nil, add_zero] at e1 e2 q3 ⊢
        rw [← add_assoc, ← add_assoc, add_right_comm, q3, add_right_comm, e1, e2]
      · intro u hu
        rw [q4 u (fun l hl => hu l (by simp [hl])), p9 u]
        intro hm
        exact hu l (by simp) (mem_pathUp.1 hm)

theorem leafIndices_ok {d : Nat} {hs : List (List Bool)} (h : ∀ x ∈ hs, d ≤ x.length) :
    leafIndices d hs = .ok (hs.map (leafAddr d)) := by
  induction hs with
  | nil => rfl
  | cons x hs ih =>
    simp only [leafIndices, computeIndex_ok (h x (by simp)), Outcome.bind_ok,
      ih (fun y hy => h y (by simp [hy])), Outcome.pure_eq, List.map_cons]

theorem copyNodes_ok {ns : List (Node α)} {us : List Nat} (h : ∀ u ∈ us, u < ns.length) :
    ∃ r, copyNodes ns us = .ok r ∧ r.length = us.length ∧
      ∀ i : Nat, r[i]? = (us[i]?).bind (fun u => ns[u]?) := by
  induction us with
  | nil => exact ⟨[], rfl, rfl, by simp⟩
  | cons u us ih =>
    obtain ⟨r, h1, h2, h3⟩ := ih (fun v hv => h v (by simp [hv]))
    have hu := h u (by simp)
    have hget : ns[u]? = some ns[u] := List.getElem?_eq_getElem hu
    refine ⟨ns[u] :: r, ?_, by simp [h2], ?_⟩
    · simp only [copyNodes, getNode, hget, Outcome.bind_ok, h1, Outcome.pure_eq]
    · intro i
      cases i with
      | zero => simp [hget]
      | succ i => simpa using h3 i

/-- The address list of an update. -/
def updateAddrs (d : Nat) (hsh : List (List Bool)) : List Nat :=
  extractPathIndices (hsh.map (leafAddr d))

theorem updateAddrs_spec {d : Nat} {hsh : List (List Bool)} (h : ∀ x ∈ hsh, d ≤ x.length) :
    (updateAddrs d hsh).Pairwise (· > ·) ∧
    (∀ v, v ∈ updateAddrs d hsh ↔ ∃ x ∈ hsh, Anc v (leafAddr d x)) := by
  have := extractPathIndices_spec (d := d) (leaves := hsh.map (leafAddr d)) (by
    intro x hx
    obtain ⟨y, hy, rfl⟩ := List.mem_map.1 hx
    exact leafAddr_bounds (h y hy))
  refine ⟨this.1, fun v => ?_⟩
  unfold updateAddrs
  rw [this.2]
  simp

theorem insertWith_spec {hashOf : α → List Bool} {post : List α → List α}
    (hpost : PostOK hashOf post) (hh : ∀ e, 256 ≤ (hashOf e).length)
    {M : Type} [AddCommMonoid M] (w : α → M) (hw : ∀ b, wsum w (post b) = wsum w b)
    {t : Tree α} (ht : TWF hashOf t) {es : List α} {hsh : List (List Bool)}
    (hb : Batch.WF (es, hsh)) (htot : es.length + t.actualSize < 2 ^ 30) :
    ∃ r, insertWith hashOf post t es hsh = .ok r ∧ TWF hashOf r.tree ∧
      r.tree.nodeSize = t.nodeSize ∧ r.tree.stashSize = t.stashSize ∧
      r.tree.actualSize = t.actualSize + es.length ∧
      t.depth ≤ r.tree.depth ∧
      (∀ d, t.depth ≤ d → es.length + t.actualSize < 2 ^ (d + 1) → r.tree.depth ≤ d) ∧
      (wsum w r.tree.contents + wsum w r.lost = wsum w t.contents + wsum w es) ∧
      r.update.length = (updateAddrs r.tree.depth hsh).length ∧
      (∀ i : Nat, r.update[i]? = ((updateAddrs r.tree.depth hsh)[i]?).bind (fun u => r.tree.nodes[u]?)) ∧
      (∀ u : Nat, u ∉ updateAddrs r.tree.depth hsh → r.tree.nodes[u]? =
        (t.nodes ++ List.replicate (2 ^ (r.tree.depth + 1) - 2 ^ (t.depth + 1)) ⟨t.nodeSize, []⟩)[u]?) := by
  obtain ⟨hb1, hb2⟩ := hb
  obtain ⟨t1, g1, g2, g3, g4, g5, g6, g7, g8, g9, g10⟩ := grow_spec hh ht htot
  have hd : ∀ x ∈ hsh, t1.depth ≤ x.length := fun x hx => by have := hb2 x hx; omega
  have hleaf := leafIndices_ok hd
  obtain ⟨ns, lost, i1, i2, i3, i4⟩ := insertAll_spec hpost (d := t1.depth)
    (fun e => by have := hh e; omega) w hw es (hsh.map (leafAddr t1.depth)) t1.nodes
    (by simpa using hb1) (by
      intro l hl
      obtain ⟨y, hy, rfl⟩ := List.mem_map.1 hl
      exact leafAddr_bounds (hd y hy)) g2
  obtain ⟨s1, s2⟩ := updateAddrs_spec hd
  obtain ⟨rs, c1, c2, c3⟩ := copyNodes_ok (ns := ns) (us := updateAddrs t1.depth hsh) (by
    intro u hu
    obtain ⟨x, hx, ha⟩ := (s2 u).1 hu
    have := ha.le
    have := (leafAddr_bounds (hd x hx)).2
    rw [i2.len]; omega)
  refine ⟨⟨{ t1 with nodes := ns, actualSize := t1.actualSize + es.length }, rs, lost⟩, ?_, ?_, g3, g4,
    by simp [g5], g7, g9, ?_, c2, c3, ?_⟩
  · simp only [insertWith, g1, Outcome.bind_ok, hleaf, i1]
    simp only [updateAddrs] at c1
    simp only [c1, Outcome.bind_ok, Outcome.pure_eq]
  · exact ⟨i2, by simp only [g5]; omega, g6⟩
  · simp only [Tree.contents] at i3 ⊢
    rw [i3, g10, List.flatMap_append, replicate_flatMap_nil]
    simp
  · intro u hu
    rw [← g10]
    apply i4
    intro l hl ha
    obtain ⟨y, hy, rfl⟩ := List.mem_map.1 hl
    exact hu ((s2 u).2 ⟨y, hy, ha⟩)

end Upsi.Tree
