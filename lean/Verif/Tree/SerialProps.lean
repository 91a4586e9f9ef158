import Verif.Tree.Serial
import Verif.Tree.DeletionProps
import Verif.Num.BytesProps
/- Property theorems C12, C13. -/
namespace Upsi.Tree.Props
open Upsi Upsi.Tree Upsi.Num

variable {α : Type}

theorem deserNode_spec (dec : PElem → α) (ps : List PElem) : ∀ (n : Node α),
    ps.foldl (fun n e => addElement n (dec e)) n =
      { n with elems := n.elems ++ (ps.map dec).take (n.cap - n.elems.length) } := by
  induction ps with
  | nil => intro n; simp
  | cons p ps ih =>
    intro n
    rw [List.foldl_cons, ih, addElement]
    split
    · rename_i h
      simp only [List.length_append, List.length_cons, List.length_nil, List.map_cons]
      have : n.cap - n.elems.length = (n.cap - (n.elems.length + 1)) + 1 := by omega
      rw [this, List.take_succ_cons]
      simp
    · rename_i h
      have : n.cap - n.elems.length = 0 := by omega
      simp [this]

theorem serElems_ok {enc : α → Outcome PElem} {dec : PElem → α} (es : List α)
    (h : ∀ e ∈ es, ∃ p, enc e = .ok p ∧ dec p = e) :
    ∃ ps, serElems enc es = .ok ps ∧ ps.map dec = es := by
  induction es with
  | nil => exact ⟨[], rfl, rfl⟩
  | cons e es ih =>
    obtain ⟨p, h1, h2⟩ := h e (by simp)
    obtain ⟨ps, h3, h4⟩ := ih (fun x hx => h x (by simp [hx]))
    exact ⟨p :: ps, by simp [serElems, h1, h3], by simp [h2, h4]⟩

theorem serNodes_ok {enc : α → Outcome PElem} {dec : PElem → α} (ns : List (Node α))
    (hcap : ∀ n ∈ ns, n.elems.length ≤ n.cap)
    (h : ∀ e ∈ ns.flatMap Node.elems, ∃ p, enc e = .ok p ∧ dec p = e) :
    ∃ ps, serNodes enc ns = .ok ps ∧ ps.map (deserNode dec) = ns := by
  induction ns with
  | nil => exact ⟨[], rfl, rfl⟩
  | cons n ns ih =>
    obtain ⟨ps, h1, h2⟩ := serElems_ok (enc := enc) (dec := dec) n.elems
      (fun e he => h e (by simp [he]))
    obtain ⟨qs, h3, h4⟩ := ih (fun m hm => hcap m (by simp [hm]))
      (fun e he => h e (by simp only [List.flatMap_cons, List.mem_append]; right; exact he))
    refine ⟨⟨n.cap, ps⟩ :: qs, by simp [serNodes, serNode, h1, h3], ?_⟩
    have hc := hcap n (by simp)
    simp only [List.map_cons, h4, deserNode, deserNode_spec, h2]
    simp only [List.length_nil, Nat.sub_zero, List.nil_append]
    rw [List.take_of_length_le hc]

theorem serialize_roundtrip {enc : α → Outcome PElem} {dec : PElem → α} (t : Tree α)
    (hcap : ∀ n ∈ t.nodes, n.elems.length ≤ n.cap)
    (h : ∀ e ∈ t.contents, ∃ p, enc e = .ok p ∧ dec p = e) :
    ∃ p, serialize enc t = .ok p ∧ deserialize dec p = t := by
  obtain ⟨ps, h1, h2⟩ := serNodes_ok t.nodes hcap h
  exact ⟨⟨t.stashSize, t.nodeSize, t.actualSize, t.depth, ps⟩, by simp [serialize, h1],
    by simp [deserialize, h2]⟩

theorem encElement_ok {e : Int} (h : 0 ≤ e) : ∃ p, encElement e = .ok p ∧ decElement p = e := by
  obtain ⟨b, h1, h2, _⟩ := C30_bytes_roundtrip e h
  exact ⟨⟨b, []⟩, by simp [encElement, h1], h2⟩

theorem encPair_ok {e : Int × Int} (h : 0 ≤ e.1 ∧ 0 ≤ e.2) : ∃ p, encPair e = .ok p ∧ decPair p = e := by
  obtain ⟨b, h1, h2, _⟩ := C30_bytes_roundtrip e.1 h.1
  obtain ⟨c, h3, h4, _⟩ := C30_bytes_roundtrip e.2 h.2
  exact ⟨⟨b, c⟩, by simp [encPair, h1, h3], by simp only [decPair, h2, h4]⟩

theorem reach_caps {hashOf : α → List Bool} {post : List α → List α} (hpost : PostOK hashOf post)
    (hh : ∀ e, (hashOf e).length = 256) (stash node : Nat) (bs : List (Batch α))
    (hb : ∀ b ∈ bs, Batch.WF b) (htot : total bs < 2 ^ 30)
    (r : Run α) (hr : runBatches hashOf post (Tree.empty stash node) bs = .ok r) :
    ∀ n ∈ r.tree.nodes, n.elems.length ≤ n.cap := by
  obtain ⟨r', h1, h2, _⟩ := runBatches_spec (M := Nat) hpost
    (fun e => by rw [hh e]) (fun _ => 0) (fun _ => by simp [wsum]) bs
    (Tree.empty stash node) (empty_wf hashOf _ _) hb (by simpa [Tree.empty] using htot)
  rw [hr] at h1
  simp only [Outcome.ok.injEq] at h1
  subst h1
  intro n hn
  obtain ⟨u, hu, hun⟩ := List.mem_iff_getElem.1 hn
  exact h2.nodes.room u n (by rw [List.getElem?_eq_getElem hu, hun])

/-- **C12** Every plaintext tree reachable by inserting non-negative elements is returned unchanged
by serialize-then-deserialize (same sizes, depth, counters, node capacities and contents). -/
theorem C12_roundtrip (hashOf : Int → List Bool) (hh : ∀ e, (hashOf e).length = 256)
    (stash node : Nat) (bs : List (Batch Int)) (hb : ∀ b ∈ bs, Batch.WF b) (htot : total bs < 2 ^ 30)
    (hpos : ∀ b ∈ bs, ∀ e ∈ b.1, 0 ≤ e) (r : Run Int)
    (hr : runBatches hashOf id (Tree.empty stash node) bs = .ok r) :
    ∃ p, serialize encElement r.tree = .ok p ∧ deserialize decElement p = r.tree := by
  apply serialize_roundtrip
  · exact reach_caps (PostOK.id _) hh stash node bs hb htot r hr
  · intro e he
    obtain ⟨r', h1, h2⟩ := C01_conservation hashOf hh stash node bs hb htot
    rw [hr] at h1
    simp only [Outcome.ok.injEq] at h1
    subst h1
    have : e ∈ bs.flatMap (·.1) := h2.subset (List.mem_append_left _ he)
    obtain ⟨b, hbm, hbe⟩ := List.mem_flatMap.1 this
    exact encElement_ok (hpos b hbm e hbe)

/-- **C12** (with payloads) The same for trees of element/payload pairs with non-negative payloads
(the addition-only protocols). -/
theorem C12_roundtrip_payload (hashOf : Int × Int → List Bool) (hh : ∀ e, (hashOf e).length = 256)
    (stash node : Nat) (bs : List (Batch (Int × Int))) (hb : ∀ b ∈ bs, Batch.WF b)
    (htot : total bs < 2 ^ 30) (hpos : ∀ b ∈ bs, ∀ e ∈ b.1, 0 ≤ e.1 ∧ 0 ≤ e.2) (r : Run (Int × Int))
    (hr : runBatches hashOf id (Tree.empty stash node) bs = .ok r) :
    ∃ p, serialize encPair r.tree = .ok p ∧ deserialize decPair p = r.tree := by
  apply serialize_roundtrip
  · exact reach_caps (PostOK.id _) hh stash node bs hb htot r hr
  · intro e he
    obtain ⟨r', h1, h2⟩ := C01_conservation hashOf hh stash node bs hb htot
    rw [hr] at h1
    simp only [Outcome.ok.injEq] at h1
    subst h1
    have : e ∈ bs.flatMap (·.1) := h2.subset (List.mem_append_left _ he)
    obtain ⟨b, hbm, hbe⟩ := List.mem_flatMap.1 this
    exact encPair_ok (hpos b hbm e hbe)

theorem encPair_cases (e : Int × Int) : (∃ p, encPair e = .ok p) ∨ encPair e = .abort := by
  unfold encPair toBytes
  split
  · right; rfl
  · split
    · right; rfl
    · left; exact ⟨_, rfl⟩

theorem serElems_abort (es : List (Int × Int)) (h : ∃ e ∈ es, e.1 < 0 ∨ e.2 < 0) :
    serElems encPair es = .abort := by
  induction es with
  | nil => obtain ⟨e, he, _⟩ := h; simp at he
  | cons e es ih =>
    rcases encPair_cases e with ⟨p, hp⟩ | hp
    · have hne : ¬ (e.1 < 0 ∨ e.2 < 0) := by
        rintro (h1 | h1)
        · simp [encPair, toBytes, h1] at hp
        · simp only [encPair, toBytes] at hp
          split at hp
          · simp at hp
          · simp [h1] at hp
      obtain ⟨x, hx, hx2⟩ := h
      rcases List.mem_cons.1 hx with rfl | hx
      · exact absurd hx2 hne
      · simp [serElems, hp, ih ⟨x, hx, hx2⟩]
    · simp [serElems, hp]

theorem serElems_cases (es : List (Int × Int)) :
    (∃ ps, serElems encPair es = .ok ps) ∨ serElems encPair es = .abort := by
  by_cases h : ∃ e ∈ es, e.1 < 0 ∨ e.2 < 0
  · exact Or.inr (serElems_abort es h)
  · left
    obtain ⟨ps, h1, _⟩ := serElems_ok (enc := encPair) (dec := decPair) es (fun e he => by
      apply encPair_ok
      have : ¬ (e.1 < 0 ∨ e.2 < 0) := fun h' => h ⟨e, he, h'⟩
      omega)
    exact ⟨ps, h1⟩

theorem serNodes_abort (ns : List (Node (Int × Int)))
    (h : ∃ e ∈ ns.flatMap Node.elems, e.1 < 0 ∨ e.2 < 0) : serNodes encPair ns = .abort := by
  induction ns with
  | nil => obtain ⟨e, he, _⟩ := h; simp at he
  | cons n ns ih =>
    rcases serElems_cases n.elems with ⟨ps, hp⟩ | hp
    · obtain ⟨x, hx, hx2⟩ := h
      simp only [List.flatMap_cons, List.mem_append] at hx
      rcases hx with hx | hx
      · rw [serElems_abort n.elems ⟨x, hx, hx2⟩] at hp; simp at hp
      · simp [serNodes, serNode, hp, ih ⟨x, hx, hx2⟩]
    · simp [serNodes, serNode, hp]

/-- **C13** (exact behaviour) A tree of element/payload pairs
whose nodes respect their capacity round-trips exactly when no entry is negative; otherwise
serialization kills the process. -/
theorem C13_signed_payloads (t : Tree (Int × Int)) (hcap : ∀ n ∈ t.nodes, n.elems.length ≤ n.cap) :
    ((∀ e ∈ t.contents, 0 ≤ e.1 ∧ 0 ≤ e.2) →
      ∃ p, serialize encPair t = .ok p ∧ deserialize decPair p = t) ∧
    ((∃ e ∈ t.contents, e.1 < 0 ∨ e.2 < 0) → serialize encPair t = .abort) := by
  refine ⟨fun h => serialize_roundtrip t hcap (fun e he => encPair_ok (h e he)), fun h => ?_⟩
  simp [serialize, serNodes_abort t.nodes h]

/-- Signed view of an entry of the deletion tree. -/
def epInt (e : EP) : Int × Int := (e.1, e.2)

/-- **C13** (reachable) A single deletion (payload −1) of an element
that is not on the inserted path leaves a negative entry, and exporting the tree aborts. -/
theorem C13_abort_reachable : ∃ r, runDel toyHash (Tree.empty 3 1) [([(5, -1)], [toyHash 0])] = .ok r ∧
    r.lost = [] ∧
    serialize (fun e => encPair (epInt e)) r.tree = .abort := by
  refine ⟨⟨⟨1, 3, 0, 1, [⟨3, []⟩, ⟨1, [(5, -1)]⟩]⟩, [[⟨1, [(5, -1)]⟩, ⟨3, []⟩]], []⟩, ?_, rfl, ?_⟩
  · decide +kernel
  · decide +kernel

/-- Non-vacuity for C12: a concrete two-batch history. -/
example : ∃ r, runBatches (fun e : Int => toyHash e.toNat) id (Tree.empty 3 1)
    [([5, 6, 7], [toyHash 0, toyHash 1, toyHash 3])] = .ok r ∧
    ∃ p, serialize encElement r.tree = .ok p ∧ deserialize decElement p = r.tree := by
  have hb : ∀ b ∈ [(([5, 6, 7] : List Int), [toyHash 0, toyHash 1, toyHash 3])], Batch.WF b := by
    intro b hb
    simp only [List.mem_singleton] at hb
    subst hb
    refine ⟨rfl, ?_⟩
    intro h hh
    simp only [List.mem_cons, List.not_mem_nil, or_false] at hh
    rcases hh with rfl | rfl | rfl <;> exact toyHash_len _
  obtain ⟨r, hr, _⟩ := C01_conservation (fun e : Int => toyHash e.toNat) (fun e => toyHash_len _) 3 1
    _ hb (by decide)
  refine ⟨r, hr, C12_roundtrip _ (fun e => toyHash_len _) 3 1 _ hb (by decide) ?_ r hr⟩
  intro b hbm e he
  simp only [List.mem_singleton] at hbm
  subst hbm
  simp only [List.mem_cons, List.not_mem_nil, or_false] at he
  rcases he with rfl | rfl | rfl <;> decide

end Upsi.Tree.Props
