import Verif.Tree.DeletionLemmas
import Verif.Tree.Props2
/- Property theorems C14, C15: the tree with deletions. -/
namespace Upsi.Tree.Props
open Upsi Upsi.Tree

/-- Specification: the sum of the payloads attached to element `k` in a list of entries. -/
def payloadSum (k : Nat) (l : List EP) : Int := ((l.filter (fun e => e.1 = k)).map Prod.snd).sum

theorem net_eq_payloadSum (k : Nat) (l : List EP) : net k l = payloadSum k l := by
  induction l with
  | nil => rfl
  | cons e l ih =>
    rw [net_cons, ih]
    unfold payloadSum
    by_cases h : e.1 = k <;> simp [h]

/-- History of `InsertWithDeletions` calls. -/
abbrev runDel (h : Nat → List Bool) := runBatches (fun e : EP => h e.1) mergeBucket

/-- **C14** (exact accounting) For every history of signed batches and every element `k`, the
payloads of `k` on the path of `k` plus those dropped by stash overflow sum to everything ever
inserted for `k`. -/
theorem C14_path_sum (h : Nat → List Bool) (hh : ∀ k, (h k).length = 256) (stash node : Nat)
    (bs : List (Batch EP)) (hb : ∀ b ∈ bs, Batch.WF b) (htot : total bs < 2 ^ 30) :
    ∃ r, runDel h (Tree.empty stash node) bs = .ok r ∧
      ∀ k, ∃ p, getPath r.tree (h k) = .ok p ∧
        payloadSum k p + payloadSum k r.lost = payloadSum k (bs.flatMap (·.1)) := by
  have hh' : ∀ e : EP, 256 ≤ ((fun e : EP => h e.1) e).length := fun e => by simp only [hh]; omega
  have run := fun k => runBatches_spec (mergeBucket_post h) hh'
    (fun e : EP => if e.1 = k then e.2 else (0 : Int)) (fun b => net_mergeBucket k b) bs
    (Tree.empty stash node) (empty_wf _ _ _) hb (by simpa [Tree.empty] using htot)
  obtain ⟨r, h1, h2, _⟩ := run 0
  refine ⟨r, h1, fun k => ?_⟩
  obtain ⟨r', h1', _, _, _, _, _, h7⟩ := run k
  rw [h1] at h1'
  simp only [Outcome.ok.injEq] at h1'
  subst h1'
  have hd : r.tree.depth ≤ (h k).length := by rw [hh]; have := h2.depth; omega
  refine ⟨_, getPath_ok h2.nodes.len hd, ?_⟩
  have hf := filter_path h2 hd (fun e : EP => decide (e.1 = k)) (by
    intro e he; simp only [decide_eq_true_eq] at he; simp only [he])
  have hp : payloadSum k ((pathUp (leafAddr r.tree.depth (h k))).flatMap (nodeAt r.tree.nodes)) =
      payloadSum k r.tree.contents := (hf.map Prod.snd).sum_eq
  rw [hp]
  rw [← net_eq_payloadSum, ← net_eq_payloadSum, ← net_eq_payloadSum]
  have he : (Tree.empty stash node : Tree EP).contents = [] := by simp [Tree.contents, Tree.empty]
  rw [he] at h7
  simpa [net] using h7

/-- **C14** As long as nothing was dropped, the path of `k` carries exactly the net payload of `k`. -/
theorem C14_net_payload (h : Nat → List Bool) (hh : ∀ k, (h k).length = 256) (stash node : Nat)
    (bs : List (Batch EP)) (hb : ∀ b ∈ bs, Batch.WF b) (htot : total bs < 2 ^ 30) (r : Run EP)
    (hr : runDel h (Tree.empty stash node) bs = .ok r) (hlost : r.lost = []) (k : Nat) :
    ∃ p, getPath r.tree (h k) = .ok p ∧ payloadSum k p = payloadSum k (bs.flatMap (·.1)) := by
  obtain ⟨r', h1, h2⟩ := C14_path_sum h hh stash node bs hb htot
  rw [hr] at h1
  simp only [Outcome.ok.injEq] at h1
  subst h1
  obtain ⟨p, hp, hs⟩ := h2 k
  exact ⟨p, hp, by rw [hlost] at hs; simpa [payloadSum] using hs⟩

/-- **C15** Every single insertion along a path, from any state satisfying the tree invariant,
leaves on that path at most one entry per element and no entry with payload zero.  Nodes off the
path are untouched. -/
theorem C15_path_merged (h : Nat → List Bool) (hh : ∀ k, (h k).length = 256) (d c s leaf : Nat)
    (hd : d ≤ 29) (h1 : 2 ^ d ≤ leaf) (h2 : leaf < 2 ^ (d + 1)) (new : EP) (ns : List (Node EP))
    (hw : NodesWF (fun e : EP => h e.1) d c s ns) :
    ∃ ns' lost, insertOne (fun e : EP => h e.1) mergeBucket d leaf new ns = .ok (ns', lost) ∧
      (((pathUp leaf).flatMap (nodeAt ns')).map Prod.fst).Nodup ∧
      (∀ e ∈ (pathUp leaf).flatMap (nodeAt ns'), e.2 ≠ 0) ∧
      (∀ u, u ∉ pathUp leaf → ns'[u]? = ns[u]?) := by
  obtain ⟨ns', lost, bs, rest, p1, p2, p3, p4, p5, p6, p7, p8, p9, p10⟩ :=
    insertOne_spec (mergeBucket_post h) (fun e => by simp only [hh]; omega) h1 h2 new hw
  refine ⟨ns', lost, p1, ?_, ?_, p9⟩
  · have := merged_flatten_nodup p4
    rw [← (p8.map Prod.fst).nodup_iff, List.map_append] at this
    exact (List.nodup_append.1 this).1
  · intro e he
    have : e ∈ (bs.map mergeBucket).flatten := p8.subset (List.mem_append_left _ he)
    obtain ⟨b, hb, heb⟩ := List.mem_flatten.1 this
    obtain ⟨b0, _, rfl⟩ := List.mem_map.1 hb
    exact mergeBucket_nonzero b0 e heb

/-- One call of `InsertWithDeletions` keeps the invariant "no zero payload anywhere". -/
theorem insertDel_nonzero {h : Nat → List Bool} (hh : ∀ k, (h k).length = 256) {t : Tree EP}
    (ht : TWF (fun e : EP => h e.1) t) (hz : ∀ e ∈ t.contents, e.2 ≠ 0)
    {es : List EP} {hsh : List (List Bool)} (hb : Batch.WF (es, hsh))
    (htot : es.length + t.actualSize < 2 ^ 30) {x : InsertResult EP}
    (hx : insertDel h t es hsh = .ok x) : ∀ e ∈ x.tree.contents, e.2 ≠ 0 := by
  have hh' : ∀ e : EP, 256 ≤ ((fun e : EP => h e.1) e).length := fun e => by simp only [hh]; omega
  simp only [insertDel, insertWith, Outcome.bind_eq_ok, Outcome.pure_eq, Outcome.ok.injEq] at hx
  obtain ⟨t1, e1, l, hl, ⟨ns, lost⟩, hins, rs, _, rfl⟩ := hx
  obtain ⟨t1', g1, g2, g3, g4, g5, g6, g7, g8, g9, g10⟩ := grow_spec hh' ht htot
  rw [e1] at g1
  simp only [Outcome.ok.injEq] at g1
  subst g1
  have hd : ∀ x ∈ hsh, t1.depth ≤ x.length := fun x hx => by have := hb.2 x hx; omega
  rw [leafIndices_ok hd] at hl
  simp only [Outcome.ok.injEq] at hl
  subst hl
  refine insertAll_forall (mergeBucket_post h) (fun e => by simp only [hh]; omega)
    (fun e : EP => e.2 ≠ 0) mergeBucket_nonzero es _ t1.nodes ns lost ?_ g2 ?_ hins
  · intro l hl
    obtain ⟨y, hy, rfl⟩ := List.mem_map.1 hl
    exact leafAddr_bounds (hd y hy)
  · rw [g10, List.flatMap_append, replicate_flatMap_nil, List.append_nil]
    exact hz

/-- **C15** (whole tree) After any history no entry with payload zero is stored anywhere. -/
theorem C15_no_zero (h : Nat → List Bool) (hh : ∀ k, (h k).length = 256) (bs : List (Batch EP))
    (hb : ∀ b ∈ bs, Batch.WF b) : ∀ (t : Tree EP) (r : Run EP),
    TWF (fun e : EP => h e.1) t → (∀ e ∈ t.contents, e.2 ≠ 0) → total bs + t.actualSize < 2 ^ 30 →
    runDel h t bs = .ok r → ∀ e ∈ r.tree.contents, e.2 ≠ 0 := by
  have hh' : ∀ e : EP, 256 ≤ ((fun e : EP => h e.1) e).length := fun e => by simp only [hh]; omega
  induction bs with
  | nil => intro t r _ hz _ h; simp [runBatches] at h; rw [← h]; exact hz
  | cons b bs ih =>
    intro t r ht hz htot hr
    simp only [total, List.map_cons, List.sum_cons] at htot
    simp only [runBatches, Outcome.bind_eq_ok, Outcome.pure_eq, Outcome.ok.injEq] at hr
    obtain ⟨x, hx, r2, h2, rfl⟩ := hr
    obtain ⟨x', k1, k2, _, _, k5, _⟩ := insertWith_spec (M := Nat) (mergeBucket_post h) hh' (fun _ => 0)
      (fun b => by simp [wsum]) ht (es := b.1) (hsh := b.2) (hb b (by simp)) (by omega)
    rw [hx] at k1
    simp only [Outcome.ok.injEq] at k1
    subst k1
    exact ih (fun b hb' => hb b (by simp [hb'])) x.tree r2 k2
      (insertDel_nonzero hh ht hz (hb b (by simp)) (by omega) hx) (by simp only [total]; omega) h2

/-- **C15** (one call) After a call of `InsertWithDeletions` that inserts the batch `es ++ [e]`
into any reachable tree, the path of the last identifier – the leaf-to-root nodes and the stash –
holds at most one entry per element, and no stored entry at all has payload zero. -/
theorem C15_insert_merged (h : Nat → List Bool) (hh : ∀ k, (h k).length = 256) (stash node : Nat)
    (bs : List (Batch EP)) (hb : ∀ b ∈ bs, Batch.WF b) (es : List EP) (e : EP)
    (hsh : List (List Bool)) (y : List Bool) (hw : Batch.WF (es ++ [e], hsh ++ [y]))
    (htot : total bs + (es.length + 1) < 2 ^ 30) (r : Run EP)
    (hr : runDel h (Tree.empty stash node) bs = .ok r) :
    ∃ x p, insertDel h r.tree (es ++ [e]) (hsh ++ [y]) = .ok x ∧
      getPath x.tree y = .ok p ∧ (p.map Prod.fst).Nodup ∧ (∀ a ∈ p, a.2 ≠ 0) ∧
      (∀ a ∈ x.tree.contents, a.2 ≠ 0) := by
  have hh' : ∀ e : EP, 256 ≤ ((fun e : EP => h e.1) e).length := fun e => by simp only [hh]; omega
  obtain ⟨r', h1, h2, _, _, h5, _, _⟩ := runBatches_spec (M := Nat) (mergeBucket_post h) hh' (fun _ => 0)
    (fun _ => by simp [wsum]) bs
    (Tree.empty stash node) (empty_wf _ _ _) hb (by simp [Tree.empty]; omega)
  have hr' : runBatches (fun e : EP => h e.1) mergeBucket (Tree.empty stash node) bs = .ok r := hr
  rw [hr'] at h1
  simp only [Outcome.ok.injEq] at h1
  subst h1
  have hsz : r.tree.actualSize = total bs := by simpa [Tree.empty] using h5
  have htot' : (es ++ [e]).length + r.tree.actualSize < 2 ^ 30 := by
    rw [hsz]; simp only [List.length_append, List.length_cons, List.length_nil]; omega
  obtain ⟨x, k1, k2, _⟩ := insertWith_spec (M := Nat) (mergeBucket_post h) hh' (fun _ => 0)
    (fun b => by simp [wsum]) h2 (es := es ++ [e]) (hsh := hsh ++ [y]) hw htot'
  have hz := C15_no_zero h hh bs hb _ r (empty_wf _ stash node) (by simp [Tree.contents, Tree.empty])
    (by simp [Tree.empty]; omega) hr
  have hz' := insertDel_nonzero hh h2 hz hw htot' k1
  have hyd : x.tree.depth ≤ y.length := by
    have := k2.depth; have := hw.2 y (by simp); omega
  refine ⟨x, _, k1, getPath_ok k2.nodes.len hyd, ?_, ?_, hz'⟩
  · have k1' := k1
    simp only [insertWith, Outcome.bind_eq_ok, Outcome.pure_eq, Outcome.ok.injEq] at k1'
    obtain ⟨t1, e1, l, hl, ⟨ns, lost⟩, hins, rs, _, rfl⟩ := k1'
    obtain ⟨t1', g1, g2, g3, g4, g5, g6, g7, g8, g9, g10⟩ := grow_spec hh' h2 htot'
    rw [e1] at g1
    simp only [Outcome.ok.injEq] at g1
    subst g1
    have hd : ∀ x ∈ hsh ++ [y], t1.depth ≤ x.length := fun x hx => by have := hw.2 x hx; omega
    rw [leafIndices_ok hd] at hl
    simp only [Outcome.ok.injEq] at hl
    subst hl
    rw [List.map_append, List.map_cons, List.map_nil] at hins
    have hlen : hsh.length = es.length := by simpa using hw.1
    obtain ⟨ns1, lost1, ns2, lost2, q1, q2, q3⟩ := insertAll_append _ _ _ _ _ _ _ _ (by simpa using hlen) _ hins
    simp only [Prod.mk.injEq] at q3
    have hbd : ∀ l ∈ hsh.map (leafAddr t1.depth), 2 ^ t1.depth ≤ l ∧ l < 2 ^ (t1.depth + 1) := by
      intro l hl
      obtain ⟨z, hz, rfl⟩ := List.mem_map.1 hl
      exact leafAddr_bounds (hd z (by simp [hz]))
    obtain ⟨ns1', lost1', i1, i2, _⟩ := insertAll_spec (M := Nat) (mergeBucket_post h) (d := t1.depth)
      (fun e => by simp only [hh]; omega) (fun _ => 0) (fun b => by simp [wsum]) es
      (hsh.map (leafAddr t1.depth)) t1.nodes (by simpa using hlen) hbd g2
    rw [q1] at i1
    simp only [Outcome.ok.injEq, Prod.mk.injEq] at i1
    obtain ⟨rfl, rfl⟩ := i1
    obtain ⟨b1, b2⟩ := leafAddr_bounds (hd y (by simp))
    obtain ⟨ns', lost', m1, m2, m3, m4⟩ := C15_path_merged h hh t1.depth _ _ _ g6 b1 b2 e ns1 i2
    rw [q2] at m1
    simp only [Outcome.ok.injEq, Prod.mk.injEq] at m1
    obtain ⟨rfl, rfl⟩ := m1
    simp only [q3.1]
    exact m2
  · intro a ha
    apply hz'
    obtain ⟨u, hu, hau⟩ := List.mem_flatMap.1 ha
    unfold nodeAt at hau
    cases hg : x.tree.nodes[u]? with
    | none => rw [hg] at hau; simp at hau
    | some n =>
      rw [hg] at hau
      exact List.mem_flatMap.2 ⟨n, List.mem_of_getElem? hg, by simpa using hau⟩

/-- Two batches: add elements 5 and 6 with payloads 10 and 7, later delete element 5. -/
def toyDel : List (Batch EP) :=
  [([(5, 10), (6, 7)], [toyHash 0, toyHash 1]), ([(5, -10)], [toyHash 1])]

theorem toyDel_wf : ∀ b ∈ toyDel, Batch.WF b := by
  intro b hb
  simp only [toyDel, List.mem_cons, List.not_mem_nil, or_false] at hb
  rcases hb with rfl | rfl <;> refine ⟨rfl, ?_⟩ <;> intro h hh <;>
    simp only [List.mem_cons, List.not_mem_nil, or_false] at hh
  · rcases hh with rfl | rfl <;> exact toyHash_len _
  · rcases hh with rfl; exact toyHash_len _

example : ∃ r, runDel toyHash (Tree.empty 3 1) toyDel = .ok r ∧
    ∀ k, ∃ p, getPath r.tree (toyHash k) = .ok p ∧
      payloadSum k p + payloadSum k r.lost = payloadSum k [(5, 10), (6, 7), (5, -10)] :=
  C14_path_sum toyHash toyHash_len 3 1 toyDel toyDel_wf (by decide)

example : ∃ r, runDel toyHash (Tree.empty 3 1) toyDel = .ok r ∧
    ∃ x p, insertDel toyHash r.tree [(6, 1), (6, 2)] [toyHash 4, toyHash 6] = .ok x ∧
      getPath x.tree (toyHash 6) = .ok p ∧ (p.map Prod.fst).Nodup ∧ (∀ a ∈ p, a.2 ≠ 0) := by
  obtain ⟨r, hr, _⟩ := C14_path_sum toyHash toyHash_len 3 1 toyDel toyDel_wf (by decide)
  obtain ⟨x, p, h1, h2, h3, h4, _⟩ := C15_insert_merged toyHash toyHash_len 3 1 toyDel toyDel_wf
    [(6, 1)] (6, 2) [toyHash 4] (toyHash 6)
    ⟨rfl, by
      intro h hh
      simp only [List.cons_append, List.nil_append, List.mem_cons, List.not_mem_nil, or_false] at hh
      rcases hh with rfl | rfl <;> exact toyHash_len _⟩ (by decide) r hr
  exact ⟨r, hr, x, p, h1, h2, h3, h4⟩

end Upsi.Tree.Props
