import Verif.Tree.RunLemmas
/-
Property theorems C01-C11 about the tree.

Common hypotheses:
* `hh : ∀ e, (hashOf e).length = 256` – the element hash is SHA-256 (utils.cc:164-181);
* `hb : ∀ b ∈ bs, Batch.WF b`       – every batch draws one 256-bit path identifier per element;
* `htot : total bs < 2 ^ 30`        – fewer than 2^30 elements in all (C09 shows this is exactly the
  condition under which the 32-bit shifts are defined).
-/
namespace Upsi.Tree.Props
open Upsi Upsi.Tree

variable {α γ ω : Type}

/-! ### a concrete instance used for non-vacuity -/

/-- A toy 256-bit hash on natural numbers: the little-endian bits. -/
def toyHash (n : Nat) : List Bool := (List.range 256).map (fun i => n.testBit i)

theorem toyHash_len (n : Nat) : (toyHash n).length = 256 := by simp [toyHash]

/-- Two batches with five elements in all. -/
def toyBatches : List (Batch Nat) :=
  [([5, 6, 7], [toyHash 0, toyHash 1, toyHash 3]), ([8, 9], [toyHash 2, toyHash 2])]

theorem toyBatches_wf : ∀ b ∈ toyBatches, Batch.WF b := by
  intro b hb
  simp only [toyBatches, List.mem_cons, List.not_mem_nil, or_false] at hb
  rcases hb with rfl | rfl <;> refine ⟨rfl, ?_⟩ <;> intro h hh <;>
    simp only [List.mem_cons, List.not_mem_nil, or_false] at hh
  · rcases hh with rfl | rfl | rfl <;> exact toyHash_len _
  · rcases hh with rfl | rfl <;> exact toyHash_len _

/-! ### C01 -/

/-- **C01** For every history of batches starting from the empty tree, insertion succeeds and the
stored elements together with the dropped ones are exactly (as a multiset) the inserted ones. -/
theorem C01_conservation (hashOf : α → List Bool) (hh : ∀ e, (hashOf e).length = 256)
    (stash node : Nat) (bs : List (Batch α)) (hb : ∀ b ∈ bs, Batch.WF b) (htot : total bs < 2 ^ 30) :
    ∃ r, runBatches hashOf id (Tree.empty stash node) bs = .ok r ∧
      (r.tree.contents ++ r.lost).Perm (bs.flatMap (·.1)) := by
  obtain ⟨r, h1, _, _, _, _, _, h7⟩ := runBatches_spec (PostOK.id hashOf)
    (fun e => by rw [hh e]) (fun a => ({a} : Multiset α)) (fun _ => rfl) bs
    (Tree.empty stash node) (empty_wf hashOf _ _) hb (by simpa [Tree.empty] using htot)
  refine ⟨r, h1, ?_⟩
  rw [wsum_singleton, wsum_singleton, wsum_singleton, wsum_singleton] at h7
  have he : (Tree.empty stash node : Tree α).contents = [] := by simp [Tree.contents, Tree.empty]
  rw [he] at h7
  simpa using h7

/-- One batch into an arbitrary reachable tree: what was stored before plus the batch equals what is
stored after plus what was dropped (C01 for a single call of `insert`). -/
theorem C01_conservation_step (hashOf : α → List Bool) (hh : ∀ e, (hashOf e).length = 256)
    (stash node : Nat) (bs : List (Batch α)) (hb : ∀ b ∈ bs, Batch.WF b)
    (es : List α) (hsh : List (List Bool)) (hw : Batch.WF (es, hsh))
    (htot : total bs + es.length < 2 ^ 30) (r : Run α)
    (hr : runBatches hashOf id (Tree.empty stash node) bs = .ok r) :
    ∃ x, insert hashOf r.tree es hsh = .ok x ∧
      (x.tree.contents ++ x.lost).Perm (r.tree.contents ++ es) := by
  obtain ⟨r', h1, h2, _, _, h5, _, _⟩ := runBatches_spec (PostOK.id hashOf)
    (fun e => by rw [hh e]) (fun a => ({a} : Multiset α)) (fun _ => rfl) bs
    (Tree.empty stash node) (empty_wf hashOf _ _) hb (by simp [Tree.empty]; omega)
  rw [hr] at h1
  simp only [Outcome.ok.injEq] at h1
  subst h1
  have hsz : r.tree.actualSize = total bs := by simpa [Tree.empty] using h5
  obtain ⟨x, k1, _, _, _, _, _, _, k8, _⟩ := insertWith_spec (PostOK.id hashOf)
    (fun e => by rw [hh e]) (fun a => ({a} : Multiset α)) (fun _ => rfl) h2 hw (by omega)
  refine ⟨x, k1, ?_⟩
  rw [wsum_singleton, wsum_singleton, wsum_singleton, wsum_singleton] at k8
  simpa using k8

example : ∃ r, runBatches toyHash id (Tree.empty 3 1) toyBatches = .ok r ∧
    (r.tree.contents ++ r.lost).Perm [5, 6, 7, 8, 9] :=
  C01_conservation toyHash toyHash_len 3 1 toyBatches toyBatches_wf (by decide)

/-! ### C02 -/

/-- **C02** After any history, looking up the path of an element returns every copy of it that the
tree holds. -/
theorem C02_findable [DecidableEq α] (hashOf : α → List Bool) (hh : ∀ e, (hashOf e).length = 256)
    (stash node : Nat) (bs : List (Batch α)) (hb : ∀ b ∈ bs, Batch.WF b) (htot : total bs < 2 ^ 30)
    (r : Run α) (hr : runBatches hashOf id (Tree.empty stash node) bs = .ok r) (e : α) :
    ∃ p, getPath r.tree (hashOf e) = .ok p ∧ p.count e = r.tree.contents.count e := by
  obtain ⟨r', h1, h2, _⟩ := runBatches_spec (M := Nat) (PostOK.id hashOf)
    (fun e => by rw [hh e]) (fun _ => 0) (fun _ => rfl) bs
    (Tree.empty stash node) (empty_wf hashOf _ _) hb (by simpa [Tree.empty] using htot)
  rw [hr] at h1
  simp only [Outcome.ok.injEq] at h1
  subst h1
  have hd : r.tree.depth ≤ (hashOf e).length := by rw [hh]; have := h2.depth; omega
  refine ⟨_, getPath_ok h2.nodes.len hd, ?_⟩
  have := (filter_path h2 hd (fun x => x == e) (by
    intro x hx; rw [beq_iff_eq] at hx; rw [hx])).length_eq
  rw [List.count_eq_length_filter, List.count_eq_length_filter]
  exact this

/-- **C02** (consequence) Every element inserted at some time is returned by its own path lookup
at the end of the history at least as often as it was inserted minus the copies dropped by stash
overflow. -/
theorem C02_inserted_found [DecidableEq α] (hashOf : α → List Bool)
    (hh : ∀ e, (hashOf e).length = 256) (stash node : Nat) (bs : List (Batch α))
    (hb : ∀ b ∈ bs, Batch.WF b) (htot : total bs < 2 ^ 30)
    (r : Run α) (hr : runBatches hashOf id (Tree.empty stash node) bs = .ok r) (e : α) :
    ∃ p, getPath r.tree (hashOf e) = .ok p ∧
      p.count e + r.lost.count e = (bs.flatMap (·.1)).count e := by
  obtain ⟨p, h1, h2⟩ := C02_findable hashOf hh stash node bs hb htot r hr e
  obtain ⟨r', h3, h4⟩ := C01_conservation hashOf hh stash node bs hb htot
  rw [hr] at h3
  simp only [Outcome.ok.injEq] at h3
  subst h3
  refine ⟨p, h1, ?_⟩
  rw [← h4.count_eq e, List.count_append, h2]

example : ∃ r, runBatches toyHash id (Tree.empty 3 1) toyBatches = .ok r ∧
    ∃ p, getPath r.tree (toyHash 8) = .ok p ∧ p.count 8 + r.lost.count 8 = 1 := by
  obtain ⟨r, h, _⟩ := C01_conservation toyHash toyHash_len 3 1 toyBatches toyBatches_wf (by decide)
  obtain ⟨p, h1, h2⟩ := C02_inserted_found toyHash toyHash_len 3 1 toyBatches toyBatches_wf
    (by decide) r h 8
  exact ⟨r, h, p, h1, by rw [h2]; decide⟩

/-! ### C03 -/

/-- **C03** A path lookup reads, in this order, the leaf addressed by the first `depth` bits of the
hash, its ancestors up to the root, and the stash, and nothing else. -/
theorem C03_path_exact (t : Tree α) (hl : t.nodes.length = 2 ^ (t.depth + 1)) (h : List Bool)
    (hd : t.depth ≤ h.length) :
    getPath t h = .ok ((List.range (t.depth + 1)).flatMap
      (fun k => t.at (leafAddr t.depth h / 2 ^ k)) ++ t.at 0) ∧
    leafAddr t.depth h / 2 ^ t.depth = 1 := by
  obtain ⟨b1, b2⟩ := leafAddr_bounds hd
  refine ⟨?_, ?_⟩
  · rw [getPath_ok hl hd, pathUp_eq b1 b2, List.range_succ]
    simp only [List.map_append, List.map_cons, List.map_nil, List.flatMap_append, List.flatMap_cons,
      List.flatMap_nil, List.append_nil, Outcome.ok.injEq]
    rw [Nat.div_eq_of_lt b2, List.flatMap_map]
    rfl
  · apply Nat.div_eq_of_lt_le
    · omega
    · rw [Nat.pow_succ] at b2; omega

/-- **C03** The visited nodes are pairwise different, there are `depth + 2` of them and they are
exactly the ancestors-or-self of the leaf together with the stash. -/
theorem C03_path_nodes (d : Nat) (h : List Bool) (hd : d ≤ h.length) :
    (pathUp (leafAddr d h)).Nodup ∧ (pathUp (leafAddr d h)).length = d + 2 ∧
    ∀ v, v ∈ pathUp (leafAddr d h) ↔ Anc v (leafAddr d h) := by
  obtain ⟨b1, b2⟩ := leafAddr_bounds hd
  exact ⟨pathUp_nodup _, by rw [pathUp_eq b1 b2]; simp, fun v => mem_pathUp⟩

/-- The hypothesis of C03 holds in every reachable tree. -/
theorem C03_reachable (hashOf : α → List Bool) (hh : ∀ e, (hashOf e).length = 256)
    (stash node : Nat) (bs : List (Batch α)) (hb : ∀ b ∈ bs, Batch.WF b) (htot : total bs < 2 ^ 30)
    (r : Run α) (hr : runBatches hashOf id (Tree.empty stash node) bs = .ok r) :
    r.tree.nodes.length = 2 ^ (r.tree.depth + 1) ∧ r.tree.depth ≤ 29 := by
  obtain ⟨r', h1, h2, _⟩ := runBatches_spec (M := Nat) (PostOK.id hashOf)
    (fun e => by rw [hh e]) (fun _ => 0) (fun _ => rfl) bs
    (Tree.empty stash node) (empty_wf hashOf _ _) hb (by simpa [Tree.empty] using htot)
  rw [hr] at h1
  simp only [Outcome.ok.injEq] at h1
  subst h1
  exact ⟨h2.nodes.len, h2.depth⟩

example : getPath (Tree.empty 2 1 : Tree Nat) (toyHash 3) = .ok [] := by
  rw [(C03_path_exact (Tree.empty 2 1 : Tree Nat) rfl (toyHash 3) (by simp [Tree.empty])).1]
  rfl

/-! ### C04 -/

/-- **C04** In every reachable tree the stash holds at most `stash` elements and every other node
at most `node`. -/
theorem C04_capacity (hashOf : α → List Bool) (hh : ∀ e, (hashOf e).length = 256)
    (stash node : Nat) (bs : List (Batch α)) (hb : ∀ b ∈ bs, Batch.WF b) (htot : total bs < 2 ^ 30)
    (r : Run α) (hr : runBatches hashOf id (Tree.empty stash node) bs = .ok r) :
    (r.tree.at 0).length ≤ stash ∧ ∀ u, u ≠ 0 → (r.tree.at u).length ≤ node := by
  obtain ⟨r', h1, h2, h3, h4, _⟩ := runBatches_spec (M := Nat) (PostOK.id hashOf)
    (fun e => by rw [hh e]) (fun _ => 0) (fun _ => rfl) bs
    (Tree.empty stash node) (empty_wf hashOf _ _) hb (by simpa [Tree.empty] using htot)
  rw [hr] at h1
  simp only [Outcome.ok.injEq] at h1
  subst h1
  have key : ∀ u, (r.tree.at u).length ≤ if u = 0 then stash else node := by
    intro u
    cases hn : r.tree.nodes[u]? with
    | none => simp [Tree.at, hn]
    | some n =>
      have c1 := h2.nodes.room u n hn
      have c2 := h2.nodes.caps u n hn
      rw [c2] at c1
      simpa [Tree.at, hn, h3, h4, Tree.empty] using c1
  exact ⟨by simpa using key 0, fun u hu => by simpa [hu] using key u⟩

example : ∃ r, runBatches toyHash id (Tree.empty 3 1) toyBatches = .ok r ∧
    (r.tree.at 0).length ≤ 3 := by
  obtain ⟨r, h, _⟩ := C01_conservation toyHash toyHash_len 3 1 toyBatches toyBatches_wf (by decide)
  exact ⟨r, h, (C04_capacity toyHash toyHash_len 3 1 toyBatches toyBatches_wf (by decide) r h).1⟩

/-! ### C05 -/

/-- Number of elements sent in a session. -/
def sent (us : List (UpdateIn α ω)) : Nat := (us.map (fun u => u.elems.length)).sum

theorem session_mirror (hashOf : α → List Bool) (hh : ∀ e, (hashOf e).length = 256)
    (post : List α → List α) (hpost : PostOK hashOf post) (deser : ω → Outcome γ)
    (Enc : α → γ → Prop) (isPad : α → Prop) (us : List (UpdateIn α ω))
    (hw : ∀ u ∈ us, Batch.WF (u.elems, u.hsh)) (hp : ∀ u ∈ us, ∀ i j, isPad (u.pads i j))
    (hE : ∀ u ∈ us, ∀ i j a w c, u.enc i j a = .ok w → deser w = .ok c → Enc a c) :
    ∀ (s : Tree α) (r : Tree γ) (s' : Tree α) (r' : Tree γ) (ms : List (Msg ω)),
    TWF hashOf s → Mirror Enc isPad s r → sent us + s.actualSize < 2 ^ 30 →
    session hashOf post deser s r us = .ok (s', r', ms) →
    TWF hashOf s' ∧ Mirror Enc isPad s' r' := by
  induction us with
  | nil =>
    intro s r s' r' ms h1 h2 _ h
    simp only [session, Outcome.ok.injEq, Prod.mk.injEq] at h
    obtain ⟨rfl, rfl, _⟩ := h
    exact ⟨h1, h2⟩
  | cons u us ih =>
    intro s r s' r' ms h1 h2 h3 h
    simp only [sent, List.map_cons, List.sum_cons] at h3
    simp only [session, Outcome.bind_eq_ok, Outcome.pure_eq, Outcome.ok.injEq, Prod.mk.injEq] at h
    obtain ⟨x, hx, r1, hr1, ⟨s2, r2, ms2⟩, h4, rfl, rfl, _⟩ := h
    obtain ⟨k1, k2, k3⟩ := mirror_step hpost (fun e => by rw [hh e]) (hp u (by simp)) h1 h2
      (hw u (by simp)) (by omega) (fun i j a _ => hE u (by simp) i j a) hx hr1
    exact ih (fun v hv => hw v (by simp [hv])) (fun v hv => hp v (by simp [hv]))
      (fun v hv => hE v (by simp [hv])) _ _ _ _ _ k1 k3 (by simp only [sent]; omega) h4

/-- **C05** If a receiver (starting from an empty tree of any sizes) applies every update a sender
produces, in order, and no step returns an error, then the receiver's tree mirrors the sender's:
same depth, size and node count, and at each node encryptions of the sender's elements followed by
padding.  `post = id` is the addition-only tree; any hash-preserving bucket operation is allowed, so
the statement covers the deletion tree as well. -/
theorem C05_sync (hashOf : α → List Bool) (hh : ∀ e, (hashOf e).length = 256)
    (post : List α → List α) (hpost : PostOK hashOf post) (deser : ω → Outcome γ)
    (Enc : α → γ → Prop) (isPad : α → Prop) (us : List (UpdateIn α ω))
    (hw : ∀ u ∈ us, Batch.WF (u.elems, u.hsh)) (hp : ∀ u ∈ us, ∀ i j, isPad (u.pads i j))
    (hE : ∀ u ∈ us, ∀ i j a w c, u.enc i j a = .ok w → deser w = .ok c → Enc a c)
    (stash node stash' node' : Nat) (htot : sent us < 2 ^ 30)
    (s : Tree α) (r : Tree γ) (ms : List (Msg ω))
    (h : session hashOf post deser (Tree.empty stash node) (Tree.empty stash' node') us
      = .ok (s, r, ms)) :
    Mirror Enc isPad s r :=
  (session_mirror hashOf hh post hpost deser Enc isPad us hw hp hE _ _ _ _ _
    (empty_wf hashOf _ _)
    ⟨rfl, rfl, rfl, fun u => ⟨[], by simp, by
      match u with
      | 0 => exact List.Forall₂.nil
      | 1 => exact List.Forall₂.nil
      | u + 2 => exact List.Forall₂.nil⟩⟩ (by simpa [Tree.empty] using htot) h).2

theorem mirror_flatMap {Enc : α → γ → Prop} {isPad : α → Prop} {f : Nat → List α} {g : Nat → List γ}
    (hm : ∀ u, NodeMirror Enc isPad (f u) (g u)) (us : List Nat) :
    ∃ l pads, (∀ p ∈ pads, isPad p) ∧ List.Forall₂ Enc l (us.flatMap g) ∧
      l.Perm (us.flatMap f ++ pads) := by
  induction us with
  | nil => exact ⟨[], [], by simp, List.Forall₂.nil, by simp⟩
  | cons u us ih =>
    obtain ⟨l, pads, h1, h2, h3⟩ := ih
    obtain ⟨pu, h4, h5⟩ := hm u
    refine ⟨(f u ++ pu) ++ l, pu ++ pads, ?_, ?_, ?_⟩
    · intro p hp
      rcases List.mem_append.1 hp with hp | hp
      · exact h4 p hp
      · exact h1 p hp
    · simp only [List.flatMap_cons]
      exact List.rel_append h5 h2
    · simp only [List.flatMap_cons, List.append_assoc]
      refine List.Perm.append_left _ ?_
      refine (h3.append_left _).trans ?_
      exact List.perm_append_comm_assoc _ _ _

/-- **C05** (path form) A mirrored receiver lookup succeeds exactly where the sender's does, and
consists of encryptions of the sender's path lookup plus padding (up to order). -/
theorem C05_path (Enc : α → γ → Prop) (isPad : α → Prop) (s : Tree α) (r : Tree γ)
    (hm : Mirror Enc isPad s r) (hl : s.nodes.length = 2 ^ (s.depth + 1)) (h : List Bool)
    (hd : s.depth ≤ h.length) :
    ∃ p q l pads, getPath s h = .ok p ∧ getPath r h = .ok q ∧ (∀ x ∈ pads, isPad x) ∧
      l.Perm (p ++ pads) ∧ List.Forall₂ Enc l q := by
  obtain ⟨l, pads, h1, h2, h3⟩ := mirror_flatMap (f := nodeAt s.nodes) (g := nodeAt r.nodes)
    (fun u => hm.node u) (pathUp (leafAddr s.depth h))
  refine ⟨_, _, l, pads, getPath_ok hl hd, ?_, h1, h3, h2⟩
  have := getPath_ok (t := r) (h := h) (by rw [hm.count, hl, hm.depth]) (by rw [hm.depth]; exact hd)
  rw [this, hm.depth]

/-! ### totality of sessions, used for C05 and C10 -/

theorem encElems_total {enc : Nat → α → Outcome ω} (h : ∀ j a, ∃ w, enc j a = .ok w) (as : List α) :
    ∀ j, ∃ ws, encElems enc j as = .ok ws := by
  induction as with
  | nil => intro j; exact ⟨[], rfl⟩
  | cons a as ih =>
    intro j
    obtain ⟨w, hw⟩ := h j a
    obtain ⟨ws, hws⟩ := ih (j + 1)
    exact ⟨w :: ws, by simp [encElems, hw, hws]⟩

theorem encNodes_total {enc : Nat → Nat → α → Outcome ω} {pads : Nat → Nat → α}
    (h : ∀ i j a, ∃ w, enc i j a = .ok w) (ns : List (Node α)) :
    ∀ i, ∃ ws, encNodes enc pads i ns = .ok ws := by
  induction ns with
  | nil => intro j; exact ⟨[], rfl⟩
  | cons n ns ih =>
    intro i
    obtain ⟨w, hw⟩ := encElems_total (h i) (padNode n (pads i)).elems 0
    obtain ⟨ws, hws⟩ := ih (i + 1)
    exact ⟨w.take n.cap :: ws, by simp [encNodes, encNode, hw, hws]⟩

theorem deserElems_total {deser : ω → Outcome γ} (ws : List ω)
    (h : ∀ w ∈ ws, ∃ c, deser w = .ok c) : ∃ cs, deserElems deser ws = .ok cs := by
  induction ws with
  | nil => exact ⟨[], rfl⟩
  | cons w ws ih =>
    obtain ⟨c, hc⟩ := h w (by simp)
    obtain ⟨cs, hcs⟩ := ih (fun x hx => h x (by simp [hx]))
    exact ⟨c :: cs, by simp [deserElems, hc, hcs]⟩

theorem deserNodes_total {deser : ω → Outcome γ} (ws : List (List ω))
    (h : ∀ n ∈ ws, ∀ w ∈ n, ∃ c, deser w = .ok c) : ∃ cs, deserNodes deser ws = .ok cs := by
  induction ws with
  | nil => exact ⟨[], rfl⟩
  | cons w ws ih =>
    obtain ⟨c, hc⟩ := deserElems_total w (h w (by simp))
    obtain ⟨cs, hcs⟩ := ih (fun x hx => h x (by simp [hx]))
    exact ⟨⟨c.length, c⟩ :: cs, by simp [deserNodes, hc, hcs]⟩

/-- A receiver tree that agrees with the sender's on depth, size and node count. -/
structure SameShape (s : Tree α) (r : Tree γ) : Prop where
  depth : r.depth = s.depth
  size : r.actualSize = s.actualSize
  count : r.nodes.length = s.nodes.length

theorem recv_total {hashOf : α → List Bool} (hh : ∀ e, (hashOf e).length = 256)
    {post : List α → List α} (hpost : PostOK hashOf post)
    {enc : Nat → Nat → α → Outcome ω} {pads : Nat → Nat → α} {deser : ω → Outcome γ}
    {s : Tree α} {r : Tree γ} (hs : TWF hashOf s) (hm : SameShape s r)
    {es : List α} {hsh : List (List Bool)} (hb : Batch.WF (es, hsh))
    (htot : es.length + s.actualSize < 2 ^ 30) {x : SendResult α ω}
    (hx : sendUpdate hashOf post enc pads s es hsh = .ok x)
    (hd : ∃ cs, deserNodes deser x.msg.nodes = .ok cs) :
    TWF hashOf x.tree ∧ x.tree.actualSize = s.actualSize + es.length ∧
    x.msg.hashes = hsh ∧ x.msg.nodes.length = (updateAddrs x.tree.depth hsh).length ∧
    ∃ r', recvUpdate deser r x.msg = .ok r' ∧ SameShape x.tree r' := by
  simp only [sendUpdate, Outcome.bind_eq_ok, Outcome.pure_eq, Outcome.ok.injEq] at hx
  obtain ⟨ri, hri, ws, hws, rfl⟩ := hx
  obtain ⟨ri', k1, k2, k3, k4, k5, k6, k7, k8, k9, k10, k11⟩ :=
    insertWith_spec (M := Nat) hpost (fun e => by rw [hh e]) (fun _ => 0) (fun b => by simp [wsum])
      hs hb htot
  rw [hri] at k1
  simp only [Outcome.ok.injEq] at k1
  subst k1
  obtain ⟨cs, hcs⟩ := hd
  obtain ⟨w1, w2⟩ := encNodes_spec _ _ _ hws
  obtain ⟨c1, c2⟩ := deserNodes_spec _ _ hcs
  refine ⟨k2, k5, rfl, by rw [w1, k9], ?_⟩
  obtain ⟨gs, g1, g2⟩ : ∃ gs, grow es.length s = .ok gs ∧ gs.depth = ri.tree.depth := by
    simp only [insertWith, Outcome.bind_eq_ok, Outcome.pure_eq, Outcome.ok.injEq] at hri
    obtain ⟨t1, e1, l, _, nl, _, rs, _, rfl⟩ := hri
    exact ⟨t1, e1, rfl⟩
  have hrlen : r.nodes.length = 2 ^ (r.depth + 1) := by rw [hm.count, hs.nodes.len, hm.depth]
  have hgr : growGo (hsh.length + r.actualSize) 32 s = .ok gs := by
    unfold grow at g1
    rw [hm.size, hb.1]; exact g1
  obtain ⟨gr, r1, r2, r3, r3', r4, r5, r6⟩ := growGo_shape 32 s gs r hgr hm.depth hs.nodes.len hrlen
  have hd : ∀ y ∈ hsh, gr.depth ≤ y.length := by
    intro y hy; have := hb.2 y hy; have := k2.depth; omega
  have haddr : extractPathIndices (hsh.map (leafAddr gr.depth)) = updateAddrs ri.tree.depth hsh := by
    rw [updateAddrs, r2, g2]
  have hd' : ∀ y ∈ hsh, ri.tree.depth ≤ y.length := by rw [← g2, ← r2]; exact hd
  obtain ⟨s1, s2⟩ := updateAddrs_spec hd'
  have hgrlen : gr.nodes.length = 2 ^ (ri.tree.depth + 1) := by
    rw [r6]; simp only [List.length_append, List.length_replicate, hrlen, hm.depth, ← g2]
    have : 2 ^ (s.depth + 1) ≤ 2 ^ (gs.depth + 1) := Nat.pow_le_pow_right (by omega) (by omega)
    omega
  obtain ⟨ns', a1, a2, a3, a4⟩ := assignNodes_spec (updateAddrs ri.tree.depth hsh) cs gr.nodes
    (by rw [c1, w1, k9]) (s1.imp (fun h => by omega)) (by
      intro u hu
      obtain ⟨y, hy, ha⟩ := (s2 u).1 hu
      have := ha.le
      have := (leafAddr_bounds (hd' y hy)).2
      omega)
  refine ⟨{ gr with nodes := ns', actualSize := gr.actualSize + hsh.length }, ?_, ?_⟩
  · simp only [recvUpdate, hcs, Outcome.bind_ok, replaceNodes, grow, r1, leafIndices_ok hd, haddr, a1,
      Outcome.pure_eq]
  · exact ⟨by simp [r2, g2], by simp [r3, hm.size, k5, hb.1], by rw [a2, hgrlen, k2.nodes.len]⟩

/-- **C05/C10** If encryption and decoding never fail, a session of any length never fails and never
leaves an array: neither the sender's insertions nor the receiver's node replacements are out of
bounds. -/
theorem C05_session_total (hashOf : α → List Bool) (hh : ∀ e, (hashOf e).length = 256)
    (post : List α → List α) (hpost : PostOK hashOf post) (deser : ω → Outcome γ)
    (us : List (UpdateIn α ω))
    (hw : ∀ u ∈ us, Batch.WF (u.elems, u.hsh))
    (hE : ∀ u ∈ us, ∀ i j a, ∃ w, u.enc i j a = .ok w) (hD : ∀ w, ∃ c, deser w = .ok c) :
    ∀ (s : Tree α) (r : Tree γ), TWF hashOf s → SameShape s r →
    sent us + s.actualSize < 2 ^ 30 →
    ∃ s' r' ms, session hashOf post deser s r us = .ok (s', r', ms) := by
  induction us with
  | nil => intro s r _ _ _; exact ⟨s, r, [], rfl⟩
  | cons u us ih =>
    intro s r hs hm htot
    simp only [sent, List.map_cons, List.sum_cons] at htot
    obtain ⟨ri, k1, _⟩ := insertWith_spec (M := Nat) hpost (fun e => by rw [hh e]) (fun _ => 0)
      (fun b => by simp [wsum]) hs (hw u (by simp)) (by omega)
    obtain ⟨ws, hws⟩ := encNodes_total (pads := u.pads) (hE u (by simp)) ri.update 0
    have hx : sendUpdate hashOf post u.enc u.pads s u.elems u.hsh =
        .ok { tree := ri.tree, msg := { hashes := u.hsh, nodes := ws }, lost := ri.lost } := by
      simp [sendUpdate, k1, hws]
    obtain ⟨h1, h2, _, _, r', h3, h4⟩ := recv_total hh hpost hs hm (hw u (by simp)) (by omega) hx
      (deserNodes_total ws (fun _ _ w _ => hD w))
    obtain ⟨s2, r2, ms, h5⟩ := ih (fun v hv => hw v (by simp [hv])) (fun v hv => hE v (by simp [hv]))
      _ r' h1 h4 (by simp only [sent] at h2 ⊢; omega)
    exact ⟨s2, r2, ⟨u.hsh, ws⟩ :: ms, by simp only [session, hx, Outcome.bind_ok, h3, h5, Outcome.pure_eq]⟩

/-- Non-vacuity of C05: a two-update session over a toy encryption (`a ↦ (a, coin)`). -/
example : ∃ s r ms, session toyHash id (fun w => Outcome.ok w) (Tree.empty 3 2) (Tree.empty 3 2)
      [⟨[5, 6], [toyHash 0, toyHash 1], fun i j a => .ok (a, i + j), fun _ _ => 1000⟩,
       ⟨[7], [toyHash 1], fun i j a => .ok (a, i * j), fun _ _ => 1001⟩] = .ok (s, r, ms) ∧
    Mirror (fun (a : Nat) (c : Nat × Nat) => c.1 = a) (fun p => 1000 ≤ p) s r := by
  have hw : ∀ u ∈ ([⟨[5, 6], [toyHash 0, toyHash 1], fun i j a => .ok (a, i + j), fun _ _ => 1000⟩,
       ⟨[7], [toyHash 1], fun i j a => .ok (a, i * j), fun _ _ => 1001⟩] :
         List (UpdateIn Nat (Nat × Nat))), Batch.WF (u.elems, u.hsh) := by
    intro u hu
    simp only [List.mem_cons, List.not_mem_nil, or_false] at hu
    rcases hu with rfl | rfl <;> refine ⟨rfl, ?_⟩ <;> intro h hh <;>
      simp only [List.mem_cons, List.not_mem_nil, or_false] at hh
    · rcases hh with rfl | rfl <;> exact toyHash_len _
    · rcases hh with rfl; exact toyHash_len _
  obtain ⟨s, r, ms, h⟩ := C05_session_total toyHash toyHash_len id (PostOK.id _)
    (fun w => Outcome.ok w) _ hw (by
      intro u hu
      simp only [List.mem_cons, List.not_mem_nil, or_false] at hu
      rcases hu with rfl | rfl <;> intro i j a <;> exact ⟨_, rfl⟩) (fun w => ⟨w, rfl⟩)
    (Tree.empty 3 2) (Tree.empty 3 2) (empty_wf _ _ _) ⟨rfl, rfl, rfl⟩ (by decide)
  refine ⟨s, r, ms, h, C05_sync toyHash toyHash_len id (PostOK.id _) _ _ _ _ hw ?_ ?_ 3 2 3 2
    (by decide) s r ms h⟩
  · intro u hu
    simp only [List.mem_cons, List.not_mem_nil, or_false] at hu
    rcases hu with rfl | rfl <;> intro i j <;> simp
  · intro u hu
    simp only [List.mem_cons, List.not_mem_nil, or_false] at hu
    rcases hu with rfl | rfl <;> intro i j a w c h1 h2 <;>
      simp only [Outcome.ok.injEq] at h1 h2 <;> subst h1 <;> subst h2 <;> rfl

end Upsi.Tree.Props
