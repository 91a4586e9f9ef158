import Verif.Tree.Deletion
import Verif.Tree.RunLemmas
/- Lemmas about bucket merging and the deletion tree. -/
namespace Upsi.Tree
open Upsi

/-- Net payload of key `k` in a list of entries. -/
def net (k : Nat) (l : List EP) : Int := wsum (fun e : EP => if e.1 = k then e.2 else 0) l

theorem net_nil (k : Nat) : net k [] = 0 := rfl
theorem net_cons (k : Nat) (e : EP) (l : List EP) :
    net k (e :: l) = (if e.1 = k then e.2 else 0) + net k l := by simp [net]
theorem net_append (k : Nat) (a b : List EP) : net k (a ++ b) = net k a + net k b := by simp [net]
theorem net_perm (k : Nat) {a b : List EP} (h : a.Perm b) : net k a = net k b := wsum_perm _ h

theorem insertEP_perm (x : EP) (l : List EP) : (insertEP x l).Perm (x :: l) := by
  induction l with
  | nil => exact List.Perm.refl _
  | cons y ys ih =>
    unfold insertEP
    split
    · exact List.Perm.refl _
    · exact (ih.cons y).trans (List.Perm.swap x y ys)

theorem sortEP_perm (l : List EP) : (sortEP l).Perm l := by
  induction l with
  | nil => exact List.Perm.refl _
  | cons x xs ih => exact (insertEP_perm x _).trans (ih.cons x)

theorem insertEP_sorted (x : EP) (l : List EP) (h : l.Pairwise (fun a b => a.1 ≤ b.1)) :
    (insertEP x l).Pairwise (fun a b => a.1 ≤ b.1) := by
  induction l with
  | nil => simp [insertEP]
  | cons y ys ih =>
    rw [List.pairwise_cons] at h
    unfold insertEP
    split
    · rename_i hle
      have hxy : x.1 ≤ y.1 := by
        simp only [epLe, Bool.or_eq_true, decide_eq_true_eq, Bool.and_eq_true, beq_iff_eq] at hle
        omega
      rw [List.pairwise_cons]
      refine ⟨?_, List.pairwise_cons.2 h⟩
      intro z hz
      rcases List.mem_cons.1 hz with rfl | hz
      · exact hxy
      · exact Nat.le_trans hxy (h.1 z hz)
    · rename_i hle
      have hyx : y.1 ≤ x.1 := by
        simp only [epLe, Bool.or_eq_true, decide_eq_true_eq, Bool.and_eq_true, beq_iff_eq] at hle
        omega
      rw [List.pairwise_cons]
      refine ⟨?_, ih h.2⟩
      intro z hz
      rcases List.mem_cons.1 ((insertEP_perm x ys).subset hz) with rfl | hz
      · exact hyx
      · exact h.1 z hz

theorem sortEP_sorted (l : List EP) : (sortEP l).Pairwise (fun a b => a.1 ≤ b.1) := by
  induction l with
  | nil => simp [sortEP]
  | cons x xs ih => exact insertEP_sorted x _ ih

theorem net_emit (k j : Nat) (v : Int) : net k (emit j v) = if j = k then v else 0 := by
  unfold emit
  split
  · rename_i h; simp [h, net_nil]
  · simp [net_cons, net_nil]

theorem net_mergeGo (k : Nat) (l : List EP) : ∀ (j : Nat) (v : Int),
    net k (mergeGo j v l) = (if j = k then v else 0) + net k l := by
  induction l with
  | nil => intro j v; simp [mergeGo, net_emit, net_nil]
  | cons e r ih =>
    intro j v
    obtain ⟨k', v'⟩ := e
    unfold mergeGo
    split
    · rename_i h
      subst h
      rw [ih, net_cons]
      by_cases hk : k' = k <;> simp [hk]
      omega
    · rw [net_append, net_emit, ih, net_cons]

theorem net_mergeBucket (k : Nat) (b : List EP) : net k (mergeBucket b) = net k b := by
  rw [← net_perm k (sortEP_perm b), mergeBucket]
  cases sortEP b with
  | nil => rfl
  | cons e r => obtain ⟨j, v⟩ := e; simp [mergeSorted, net_mergeGo, net_cons]

theorem mergeGo_keys (l : List EP) : ∀ (j : Nat) (v : Int), ∀ e ∈ mergeGo j v l,
    e.1 = j ∨ ∃ e' ∈ l, e.1 = e'.1 := by
  induction l with
  | nil =>
    intro j v e he
    simp only [mergeGo, emit] at he
    split at he
    · simp at he
    · simp at he; left; rw [he]
  | cons x r ih =>
    intro j v e he
    obtain ⟨k', v'⟩ := x
    unfold mergeGo at he
    split at he
    · rename_i h
      subst h
      rcases ih _ _ e he with h | ⟨e', h1, h2⟩
      · left; exact h
      · right; exact ⟨e', by simp [h1], h2⟩
    · rcases List.mem_append.1 he with h | h
      · left
        simp only [emit] at h
        split at h
        · simp at h
        · simp at h; rw [h]
      · right
        rcases ih _ _ e h with h | ⟨e', h1, h2⟩
        · exact ⟨(k', v'), by simp, h⟩
        · exact ⟨e', by simp [h1], h2⟩

theorem mergeBucket_keys (b : List EP) : ∀ e ∈ mergeBucket b, ∃ e' ∈ b, e.1 = e'.1 := by
  intro e he
  unfold mergeBucket at he
  have hs : ∀ x ∈ sortEP b, x ∈ b := fun x hx => (sortEP_perm b).subset hx
  cases hb : sortEP b with
  | nil => rw [hb] at he; simp [mergeSorted] at he
  | cons x r =>
    rw [hb] at he hs
    obtain ⟨j, v⟩ := x
    rcases mergeGo_keys r j v e he with h | ⟨e', h1, h2⟩
    · exact ⟨(j, v), hs _ (by simp), h⟩
    · exact ⟨e', hs _ (by simp [h1]), h2⟩

theorem mergeGo_nonzero (l : List EP) : ∀ (j : Nat) (v : Int), ∀ e ∈ mergeGo j v l, e.2 ≠ 0 := by
  have hemit : ∀ (j : Nat) (v : Int), ∀ e ∈ emit j v, e.2 ≠ 0 := by
    intro j v e he
    unfold emit at he
    split at he
    · simp at he
    · simp at he; rw [he]; assumption
  induction l with
  | nil => intro j v e he; exact hemit j v e he
  | cons x r ih =>
    intro j v e he
    obtain ⟨k', v'⟩ := x
    unfold mergeGo at he
    split at he
    · exact ih _ _ e he
    · rcases List.mem_append.1 he with h | h
      · exact hemit _ _ e h
      · exact ih _ _ e h

theorem mergeBucket_nonzero (b : List EP) : ∀ e ∈ mergeBucket b, e.2 ≠ 0 := by
  intro e he
  unfold mergeBucket at he
  cases hb : sortEP b with
  | nil => rw [hb] at he; simp [mergeSorted] at he
  | cons x r => rw [hb] at he; obtain ⟨j, v⟩ := x; exact mergeGo_nonzero r j v e he

theorem mergeGo_sorted (l : List EP) : ∀ (j : Nat) (v : Int),
    ((j, v) :: l).Pairwise (fun a b => a.1 ≤ b.1) →
    (mergeGo j v l).Pairwise (fun a b => a.1 < b.1) ∧ ∀ e ∈ mergeGo j v l, j ≤ e.1 := by
  induction l with
  | nil =>
    intro j v _
    simp only [mergeGo, emit]
    split <;> simp
  | cons x r ih =>
    intro j v h
    obtain ⟨k', v'⟩ := x
    rw [List.pairwise_cons, List.pairwise_cons] at h
    obtain ⟨h1, h2, h3⟩ := h
    have hjk : j ≤ k' := h1 (k', v') (by simp)
    unfold mergeGo
    split
    · rename_i hk
      subst hk
      exact ih k' (v + v') (List.pairwise_cons.2 ⟨fun a ha => h2 a ha, h3⟩)
    · rename_i hk
      obtain ⟨p1, p2⟩ := ih k' v' (List.pairwise_cons.2 ⟨h2, h3⟩)
      have hem : ∀ e ∈ emit j v, e.1 = j := by
        intro e he
        unfold emit at he
        split at he
        · simp at he
        · simp at he; rw [he]
      refine ⟨?_, ?_⟩
      · rw [List.pairwise_append]
        refine ⟨?_, p1, ?_⟩
        · unfold emit; split <;> simp
        · intro a ha b hb
          have := hem a ha
          have := p2 b hb
          omega
      · intro e he
        rcases List.mem_append.1 he with h | h
        · have := hem e h; omega
        · have := p2 e h; omega

theorem mergeBucket_nodup (b : List EP) : ((mergeBucket b).map Prod.fst).Nodup := by
  have hs := sortEP_sorted b
  unfold mergeBucket
  cases hb : sortEP b with
  | nil => simp [mergeSorted]
  | cons x r =>
    obtain ⟨j, v⟩ := x
    rw [hb] at hs
    have := (mergeGo_sorted r j v hs).1
    simp only [mergeSorted]
    rw [List.Nodup, List.pairwise_map]
    exact this.imp (fun h => by omega)

theorem mergeBucket_post (h : Nat → List Bool) : PostOK (fun e : EP => h e.1) mergeBucket := by
  intro b e he
  obtain ⟨e', h1, h2⟩ := mergeBucket_keys b e he
  exact ⟨e', h1, by simp only [h2]⟩

/-- Keys are pairwise distinct over all merged buckets of one path. -/
theorem merged_flatten_nodup {h : Nat → List Bool} {d leaf : Nat} {bs : List (List EP)}
    (hb : BOK (fun e : EP => h e.1) d leaf bs) :
    (((bs.map mergeBucket).flatten).map Prod.fst).Nodup := by
  rw [List.map_flatten, List.map_map, List.nodup_flatten]
  constructor
  · intro l hl
    obtain ⟨b, _, rfl⟩ := List.mem_map.1 hl
    exact mergeBucket_nodup b
  · rw [List.pairwise_map, List.pairwise_iff_getElem]
    intro i j hi hj hij
    rw [List.disjoint_left]
    intro k hk1 hk2
    simp only [Function.comp, List.mem_map] at hk1 hk2
    obtain ⟨e1, m1, rfl⟩ := hk1
    obtain ⟨e2, m2, he⟩ := hk2
    obtain ⟨e1', n1, q1⟩ := mergeBucket_keys _ e1 m1
    obtain ⟨e2', n2, q2⟩ := mergeBucket_keys _ e2 m2
    have s1 := hb i _ (List.getElem?_eq_getElem hi) e1' n1
    have s2 := hb j _ (List.getElem?_eq_getElem hj) e2' n2
    simp only at s1 s2
    rw [← q1] at s1
    rw [← q2, he] at s2
    omega

theorem insertAll_append {α : Type} (hashOf : α → List Bool) (post : List α → List α) (d : Nat)
    (es : List α) (e : α) : ∀ (ls : List Nat) (l : Nat) (ns : List (Node α)),
    ls.length = es.length → ∀ r, insertAll hashOf post d (es ++ [e]) (ls ++ [l]) ns = .ok r →
    ∃ ns1 lost1 ns2 lost2, insertAll hashOf post d es ls ns = .ok (ns1, lost1) ∧
      insertOne hashOf post d l e ns1 = .ok (ns2, lost2) ∧ r = (ns2, lost1 ++ lost2) := by
  induction es with
  | nil =>
    intro ls l ns hlen r hr
    have : ls = [] := by simpa using hlen
    subst this
    simp only [List.nil_append, insertAll, Outcome.bind_eq_ok, Outcome.pure_eq, Outcome.ok.injEq] at hr
    obtain ⟨⟨a, b⟩, h1, ⟨c, f⟩, h2, h3⟩ := hr
    simp only [Prod.mk.injEq] at h2
    obtain ⟨rfl, rfl⟩ := h2
    exact ⟨ns, [], a, b, rfl, h1, by rw [← h3]; simp⟩
  | cons x es ih =>
    intro ls l ns hlen r hr
    match ls, hlen with
    | l0 :: ls, hlen =>
      simp only [List.cons_append, insertAll, Outcome.bind_eq_ok, Outcome.pure_eq,
        Outcome.ok.injEq] at hr
      obtain ⟨⟨a, b⟩, h1, ⟨c, f⟩, h2, h3⟩ := hr
      obtain ⟨ns1, lost1, ns2, lost2, q1, q2, q3⟩ := ih ls l a (by simpa using hlen) _ h2
      simp only [Prod.mk.injEq] at q3
      refine ⟨ns1, b ++ lost1, ns2, lost2, ?_, q2, ?_⟩
      · simp only [insertAll, h1, Outcome.bind_ok, q1, Outcome.pure_eq]
      · rw [← h3, q3.1, q3.2, List.append_assoc]

/-- If post-processing only emits entries satisfying `P`, then all stored entries satisfy `P`. -/
theorem insertAll_forall {α : Type} {hashOf : α → List Bool} {post : List α → List α}
    (hpost : PostOK hashOf post) {d c s : Nat} (hh : ∀ e, d ≤ (hashOf e).length) (P : α → Prop)
    (hP : ∀ b, ∀ e ∈ post b, P e)
    (es : List α) : ∀ (ls : List Nat) (ns ns' : List (Node α)) (lost : List α),
    (∀ l ∈ ls, 2 ^ d ≤ l ∧ l < 2 ^ (d + 1)) → NodesWF hashOf d c s ns →
    (∀ e ∈ ns.flatMap Node.elems, P e) →
    insertAll hashOf post d es ls ns = .ok (ns', lost) → ∀ e ∈ ns'.flatMap Node.elems, P e := by
  induction es with
  | nil => intro ls ns ns' lost _ _ hns h; simp [insertAll] at h; rw [← h.1]; exact hns
  | cons e es ih =>
    intro ls ns ns' lost h2 h3 hns h
    match ls with
    | [] => simp [insertAll] at h
    | l :: ls =>
      have hl := h2 l (by simp)
      obtain ⟨ns1, lost1, bs, rest, p1, p2, p3, p4, p5, p6, p7, p8, p9, p10⟩ :=
        insertOne_spec hpost hh hl.1 hl.2 e h3
      simp only [insertAll, p1, Outcome.bind_ok, Outcome.bind_eq_ok, Outcome.pure_eq,
        Outcome.ok.injEq, Prod.mk.injEq] at h
      obtain ⟨⟨ns2, lost2⟩, h5, h6, h7⟩ := h
      subst h6
      refine ih ls ns1 ns2 lost2 (fun l hl => h2 l (by simp [hl])) p2 ?_ h5
      intro x hx
      -- x sits at some node: on the path it came out of `post`, elsewhere it was there before
      obtain ⟨n, hn, hxn⟩ := List.mem_flatMap.1 hx
      obtain ⟨u, hu, hun⟩ := List.mem_iff_getElem.1 hn
      have hget : ns1[u]? = some n := by rw [List.getElem?_eq_getElem hu, hun]
      by_cases hup : u ∈ pathUp l
      · have : x ∈ (bs.map post).flatten := by
          apply p8.subset
          apply List.mem_append_left
          exact List.mem_flatMap.2 ⟨u, hup, by rw [nodeAt_of hget]; exact hxn⟩
        obtain ⟨b, hb, hxb⟩ := List.mem_flatten.1 this
        obtain ⟨b0, _, rfl⟩ := List.mem_map.1 hb
        exact hP b0 x hxb
      · rw [p9 u hup] at hget
        exact hns x (List.mem_flatMap.2 ⟨n, List.mem_of_getElem? hget, hxn⟩)

end Upsi.Tree
