import Verif.Tree.Props
/- Property theorems C06-C11 about the tree. -/
namespace Upsi.Tree.Props
open Upsi Upsi.Tree

variable {α β γ ω ω' : Type}

/-! ### C06 -/

/-- A sender produces a sequence of updates. -/
def sendAll (hashOf : α → List Bool) (post : List α → List α) :
    Tree α → List (UpdateIn α ω) → Outcome (Tree α × List (Msg ω))
  | t, [] => .ok (t, [])
  | t, u :: us => do
    let x ← sendUpdate hashOf post u.enc u.pads t u.elems u.hsh
    let (t', ms) ← sendAll hashOf post x.tree us
    pure (t', x.msg :: ms)

/-- What an observer of the wire sees without decrypting: the path identifiers and, node by node,
the number of ciphertexts. -/
def _root_.Upsi.Tree.Msg.shape (m : Msg ω) : List (List Bool) × List Nat := (m.hashes, m.nodes.map List.length)

/-- Public closed form of the shapes, computed from the parameters and the path identifiers alone.
`d` is the current depth and `n` the current number of elements. -/
def publicShapes (stash node : Nat) : Nat → Nat → List (List (List Bool)) →
    List (List (List Bool) × List Nat)
  | _, _, [] => []
  | d, n, h :: hs =>
    let d' := max d (Nat.log2 (n + h.length))
    (h, (updateAddrs d' h).map (fun u => if u = 0 then stash else node)) ::
      publicShapes stash node d' (n + h.length) hs

theorem depth_eq {d d' N : Nat} (h1 : d ≤ d') (h2 : N < 2 ^ (d' + 1))
    (h3 : ∀ e, d ≤ e → N < 2 ^ (e + 1) → d' ≤ e) : d' = max d (Nat.log2 N) := by
  have hlog : ∀ e, N < 2 ^ (e + 1) ↔ Nat.log2 N ≤ e := by
    intro e
    by_cases hN : N = 0
    · subst hN; simp [Nat.pow_pos]
    · rw [← Nat.log2_lt hN]; omega
  apply Nat.le_antisymm
  · apply h3
    · omega
    · rw [hlog]; omega
  · have := (hlog d').1 h2
    omega

theorem encNode_length {enc : Nat → α → Outcome ω} {pads : Nat → α} {n : Node α} {w : List ω}
    (hcap : n.elems.length ≤ n.cap) (h : encNode enc pads n = .ok w) : w.length = n.cap := by
  simp only [encNode, Outcome.bind_eq_ok, Outcome.pure_eq, Outcome.ok.injEq] at h
  obtain ⟨ws, hws, rfl⟩ := h
  have hlen := encElems_length _ _ _ hws
  have hlen2 : (padNode n pads).elems.length = n.cap := by
    simp [padNode]; omega
  simp; omega

theorem sendUpdate_shape {hashOf : α → List Bool} (hh : ∀ e, (hashOf e).length = 256)
    {post : List α → List α} (hpost : PostOK hashOf post)
    {enc : Nat → Nat → α → Outcome ω} {pads : Nat → Nat → α}
    {s : Tree α} (hs : TWF hashOf s)
    {es : List α} {hsh : List (List Bool)} (hb : Batch.WF (es, hsh))
    (htot : es.length + s.actualSize < 2 ^ 30) {x : SendResult α ω}
    (hx : sendUpdate hashOf post enc pads s es hsh = .ok x) :
    TWF hashOf x.tree ∧ x.tree.actualSize = s.actualSize + es.length ∧
    x.tree.nodeSize = s.nodeSize ∧ x.tree.stashSize = s.stashSize ∧
    x.tree.depth = max s.depth (Nat.log2 (s.actualSize + hsh.length)) ∧
    x.msg.shape = (hsh, (updateAddrs x.tree.depth hsh).map
      (fun u => if u = 0 then s.stashSize else s.nodeSize)) := by
  simp only [sendUpdate, Outcome.bind_eq_ok, Outcome.pure_eq, Outcome.ok.injEq] at hx
  obtain ⟨ri, hri, ws, hws, rfl⟩ := hx
  obtain ⟨ri', k1, k2, k3, k4, k5, k6, k7, k8, k9, k10, k11⟩ :=
    insertWith_spec (M := Nat) hpost (fun e => by rw [hh e]) (fun _ => 0) (fun b => by simp [wsum])
      hs hb htot
  rw [hri] at k1
  simp only [Outcome.ok.injEq] at k1
  subst k1
  refine ⟨k2, k5, k3, k4, ?_, ?_⟩
  · have hb1 : hsh.length = es.length := hb.1
    rw [hb1, Nat.add_comm]
    refine depth_eq k6 ?_ k7
    have := k2.size
    rw [k5, Nat.add_comm] at this
    exact this
  · obtain ⟨w1, w2⟩ := encNodes_spec _ _ _ hws
    simp only [Msg.shape, Prod.mk.injEq, true_and]
    apply List.ext_getElem?
    intro i
    rw [List.getElem?_map, List.getElem?_map]
    cases ha : (updateAddrs ri.tree.depth hsh)[i]? with
    | none =>
      have hlen : (updateAddrs ri.tree.depth hsh).length ≤ i := by
        rwa [List.getElem?_eq_none_iff] at ha
      rw [List.getElem?_eq_none (by omega)]
      rfl
    | some u =>
      have hup := k10 i
      rw [ha] at hup
      simp only [Option.bind_some] at hup
      have hi : i < ri.update.length := by
        rw [k9]
        have := List.getElem?_eq_some_iff.1 ha
        exact this.1
      have hget : ri.update[i]? = some ri.update[i] := List.getElem?_eq_getElem hi
      generalize ri.update[i] = n at hget
      obtain ⟨w, hw, hwn⟩ := w2 i n hget
      rw [hget] at hup
      have c1 := k2.nodes.room u n hup.symm
      have c2 := k2.nodes.caps u n hup.symm
      rw [hw]
      simp only [Option.map_some, Option.some.injEq]
      rw [encNode_length c1 hwn, c2, k3, k4]

/-- **C06** The shapes of all update messages of a history are given by a closed form in the public
parameters and the path identifiers: they are independent of the elements, the stored contents, the
paddings and the encryption. -/
theorem C06_public_shape (hashOf : α → List Bool) (hh : ∀ e, (hashOf e).length = 256)
    (post : List α → List α) (hpost : PostOK hashOf post) (us : List (UpdateIn α ω))
    (hw : ∀ u ∈ us, Batch.WF (u.elems, u.hsh)) :
    ∀ (s s' : Tree α) (ms : List (Msg ω)), TWF hashOf s → sent us + s.actualSize < 2 ^ 30 →
    sendAll hashOf post s us = .ok (s', ms) →
    ms.map Msg.shape =
      publicShapes s.stashSize s.nodeSize s.depth s.actualSize (us.map (fun u => u.hsh)) := by
  induction us with
  | nil =>
    intro s s' ms _ _ h
    simp only [sendAll, Outcome.ok.injEq, Prod.mk.injEq] at h
    rw [← h.2]; rfl
  | cons u us ih =>
    intro s s' ms hs htot h
    simp only [sent, List.map_cons, List.sum_cons] at htot
    simp only [sendAll, Outcome.bind_eq_ok, Outcome.pure_eq, Outcome.ok.injEq, Prod.mk.injEq] at h
    obtain ⟨x, hx, ⟨t', ms'⟩, h2, rfl, rfl⟩ := h
    have hb := hw u (by simp)
    obtain ⟨c1, c2, c3, c4, c5, c6⟩ := sendUpdate_shape hh hpost hs hb (by omega) hx
    have := ih (fun v hv => hw v (by simp [hv])) _ _ _ c1 (by simp only [sent]; omega) h2
    rw [List.map_cons, List.map_cons, this, c6, c2, c3, c4, c5]
    have hb1 : u.hsh.length = u.elems.length := hb.1
    simp only [publicShapes, hb1]

/-- **C06** (two-run form) Two senders with the same parameters whose histories use the same path
identifiers (hence the same batch sizes) – whatever their elements, element types, paddings,
encryption schemes and coins – send messages of the same shape. -/
theorem C06_oblivious (hashOf : α → List Bool) (hh : ∀ e, (hashOf e).length = 256)
    (hashOf' : β → List Bool) (hh' : ∀ e, (hashOf' e).length = 256)
    (us : List (UpdateIn α ω)) (vs : List (UpdateIn β ω'))
    (hw : ∀ u ∈ us, Batch.WF (u.elems, u.hsh)) (hw' : ∀ u ∈ vs, Batch.WF (u.elems, u.hsh))
    (hsame : us.map (fun u => u.hsh) = vs.map (fun v => v.hsh))
    (stash node : Nat) (htot : sent us < 2 ^ 30) (htot' : sent vs < 2 ^ 30)
    (s : Tree α) (ms : List (Msg ω)) (s' : Tree β) (ms' : List (Msg ω'))
    (h : sendAll hashOf id (Tree.empty stash node) us = .ok (s, ms))
    (h' : sendAll hashOf' id (Tree.empty stash node) vs = .ok (s', ms')) :
    ms.map Msg.shape = ms'.map Msg.shape := by
  rw [C06_public_shape hashOf hh id (PostOK.id _) us hw _ _ _ (empty_wf _ _ _)
      (by simpa [Tree.empty] using htot) h,
    C06_public_shape hashOf' hh' id (PostOK.id _) vs hw' _ _ _ (empty_wf _ _ _)
      (by simpa [Tree.empty] using htot') h', hsame]
  rfl

/-- The sender never fails when encryption does not, so the hypotheses of C06 are satisfiable. -/
theorem sendAll_total (hashOf : α → List Bool) (hh : ∀ e, (hashOf e).length = 256)
    (post : List α → List α) (hpost : PostOK hashOf post) (us : List (UpdateIn α ω))
    (hw : ∀ u ∈ us, Batch.WF (u.elems, u.hsh))
    (hE : ∀ u ∈ us, ∀ i j a, ∃ w, u.enc i j a = .ok w) :
    ∀ (s : Tree α), TWF hashOf s → sent us + s.actualSize < 2 ^ 30 →
    ∃ r, sendAll hashOf post s us = .ok r := by
  induction us with
  | nil => intro s _ _; exact ⟨_, rfl⟩
  | cons u us ih =>
    intro s hs htot
    simp only [sent, List.map_cons, List.sum_cons] at htot
    obtain ⟨ri, k1, k2, k3, k4, k5, _⟩ := insertWith_spec (M := Nat) hpost (fun e => by rw [hh e])
      (fun _ => 0) (fun b => by simp [wsum]) hs (hw u (by simp)) (by omega)
    obtain ⟨ws, hws⟩ := encNodes_total (pads := u.pads) (hE u (by simp)) ri.update 0
    obtain ⟨⟨t', ms⟩, h⟩ := ih (fun v hv => hw v (by simp [hv])) (fun v hv => hE v (by simp [hv]))
      ri.tree k2 (by simp only [sent]; omega)
    exact ⟨(t', ⟨u.hsh, ws⟩ :: ms), by simp [sendAll, sendUpdate, k1, hws, h]⟩

/-- Non-vacuity of C06: different elements and encryptions, same identifiers. -/
example : ∃ s ms s' ms',
    sendAll (ω := Nat) toyHash id (Tree.empty 3 2)
      [⟨[5, 6], [toyHash 0, toyHash 1], fun _ _ a => .ok a, fun _ _ => 1000⟩] = .ok (s, ms) ∧
    sendAll (ω := Nat × Nat) toyHash id (Tree.empty 3 2)
      [⟨[77, 78], [toyHash 0, toyHash 1], fun i j a => .ok (a, i + j), fun _ _ => 9⟩] = .ok (s', ms') ∧
    ms.map Msg.shape = ms'.map Msg.shape := by
  have hwf : ∀ es : List Nat, es.length = 2 → Batch.WF (es, [toyHash 0, toyHash 1]) := by
    intro es h
    refine ⟨by simp [h], ?_⟩
    intro h hh
    simp only [List.mem_cons, List.not_mem_nil, or_false] at hh
    rcases hh with rfl | rfl <;> exact toyHash_len _
  obtain ⟨⟨s, ms⟩, h⟩ := sendAll_total (ω := Nat) toyHash toyHash_len id (PostOK.id _)
    [⟨[5, 6], [toyHash 0, toyHash 1], fun _ _ a => .ok a, fun _ _ => 1000⟩]
    (by intro u hu; simp at hu; subst hu; exact hwf _ rfl)
    (by intro u hu; simp at hu; subst hu; intro i j a; exact ⟨_, rfl⟩)
    (Tree.empty 3 2) (empty_wf _ _ _) (by decide)
  obtain ⟨⟨s', ms'⟩, h'⟩ := sendAll_total (ω := Nat × Nat) toyHash toyHash_len id (PostOK.id _)
    [⟨[77, 78], [toyHash 0, toyHash 1], fun i j a => .ok (a, i + j), fun _ _ => 9⟩]
    (by intro u hu; simp at hu; subst hu; exact hwf _ rfl)
    (by intro u hu; simp at hu; subst hu; intro i j a; exact ⟨_, rfl⟩)
    (Tree.empty 3 2) (empty_wf _ _ _) (by decide)
  refine ⟨s, ms, s', ms', h, h', ?_⟩
  refine C06_oblivious (ω := Nat) (ω' := Nat × Nat) toyHash toyHash_len toyHash toyHash_len
    [⟨[5, 6], [toyHash 0, toyHash 1], fun _ _ a => .ok a, fun _ _ => 1000⟩]
    [⟨[77, 78], [toyHash 0, toyHash 1], fun i j a => .ok (a, i + j), fun _ _ => 9⟩]
    (by intro u hu; simp at hu; subst hu; exact hwf _ rfl)
    (by intro u hu; simp at hu; subst hu; exact hwf _ rfl) (by simp only [List.map_cons, List.map_nil])
    3 2 (by decide) (by decide) s ms s' ms' h h'

/-! ### C07 -/

/-- **C07** For leaves of one level (any order, any repetition), path extraction returns a strictly
decreasing list whose members are exactly the leaves' ancestors-or-self and the stash. -/
theorem C07_indices_exact (d : Nat) (leaves : List Nat)
    (hl : ∀ x ∈ leaves, 2 ^ d ≤ x ∧ x < 2 ^ (d + 1)) :
    (extractPathIndices leaves).Pairwise (· > ·) ∧
    ∀ v, v ∈ extractPathIndices leaves ↔ ∃ u ∈ leaves, Anc v u :=
  extractPathIndices_spec hl

theorem strict_ext : ∀ {l1 l2 : List Nat}, l1.Pairwise (· > ·) → l2.Pairwise (· > ·) →
    (∀ v, v ∈ l1 ↔ v ∈ l2) → l1 = l2 := by
  intro l1 l2 h1 h2 h
  have hp : l1.Perm l2 := by
    rw [List.perm_ext_iff_of_nodup (h1.imp (fun h => by omega)) (h2.imp (fun h => by omega))]
    exact h
  exact hp.eq_of_pairwise (fun a b _ _ hab hba => by omega) h1 h2

/-- **C07** (order independence) Lists of leaves with the same members – e.g. the sender's and the
receiver's, however ordered or repeated – give the same index list. -/
theorem C07_order_independent (d : Nat) (l1 l2 : List Nat)
    (h1 : ∀ x ∈ l1, 2 ^ d ≤ x ∧ x < 2 ^ (d + 1)) (h : ∀ x, x ∈ l1 ↔ x ∈ l2) :
    extractPathIndices l1 = extractPathIndices l2 := by
  have a := extractPathIndices_spec h1
  have b := extractPathIndices_spec (d := d) (leaves := l2) (fun x hx => h1 x ((h x).2 hx))
  refine strict_ext a.1 b.1 (fun v => ?_)
  rw [a.2, b.2]
  simp only [h]

/-- A non-empty list always includes the stash and the root. -/
theorem C07_stash_root (d : Nat) (leaves : List Nat) (hne : leaves ≠ [])
    (hl : ∀ x ∈ leaves, 2 ^ d ≤ x ∧ x < 2 ^ (d + 1)) :
    0 ∈ extractPathIndices leaves ∧ 1 ∈ extractPathIndices leaves := by
  obtain ⟨x, hx⟩ := List.exists_mem_of_ne_nil _ hne
  have := extractPathIndices_spec hl
  refine ⟨(this.2 0).2 ⟨x, hx, Anc.zero _⟩, (this.2 1).2 ⟨x, hx, d, ?_⟩⟩
  obtain ⟨h1, h2⟩ := hl x hx
  symm
  apply Nat.div_eq_of_lt_le
  · omega
  · rw [Nat.pow_succ] at h2; omega

example : extractPathIndices [5, 7, 5] = [7, 5, 3, 2, 1, 0] := by decide
example : ∀ x ∈ [5, 7, 5], 2 ^ 2 ≤ x ∧ x < 2 ^ (2 + 1) := by decide

/-! ### C08 -/

/-- **C08** (sufficient condition) Nothing is lost as long as the number of elements inserted does not exceed
the stash size.  Beyond that bound elements may be dropped without an error, see `C08_silent_loss`; the exact
condition for each insertion is `C08_loss_iff_overfull` in `Verif.Tree.LossProps`. -/
theorem C08_no_loss_below_stash (hashOf : α → List Bool) (hh : ∀ e, (hashOf e).length = 256)
    (stash node : Nat) (bs : List (Batch α)) (hb : ∀ b ∈ bs, Batch.WF b) (htot : total bs < 2 ^ 30)
    (hst : total bs ≤ stash) (r : Run α)
    (hr : runBatches hashOf id (Tree.empty stash node) bs = .ok r) : r.lost = [] :=
  runBatches_noloss (fun e => by rw [hh e]) bs _ r (empty_wf _ _ _) hb
    (by simpa [Tree.empty] using htot) (by simpa [Tree.contents, Tree.empty] using hst) hr

/-- A lower bound on the loss: elements whose hashes agree on the first `depth` bits share one path,
and a path holds at most `stash + (depth+1) * node` of them. -/
theorem C08_collision_loss (hashOf : α → List Bool) (hh : ∀ e, (hashOf e).length = 256)
    (stash node : Nat) (bs : List (Batch α)) (hb : ∀ b ∈ bs, Batch.WF b) (htot : total bs < 2 ^ 30)
    (r : Run α) (hr : runBatches hashOf id (Tree.empty stash node) bs = .ok r) (h : List Bool)
    (hlen : h.length = 256)
    (hcol : ∀ b ∈ bs, ∀ e ∈ b.1, leafAddr r.tree.depth (hashOf e) = leafAddr r.tree.depth h) :
    total bs ≤ r.lost.length + (stash + (r.tree.depth + 1) * node) := by
  obtain ⟨r', h1, h2, h3, h4, _⟩ := runBatches_spec (M := Nat) (PostOK.id hashOf)
    (fun e => by rw [hh e]) (fun _ => 0) (fun _ => rfl) bs
    (Tree.empty stash node) (empty_wf hashOf _ _) hb (by simpa [Tree.empty] using htot)
  obtain ⟨r'', c1, c2⟩ := C01_conservation hashOf hh stash node bs hb htot
  rw [hr] at h1 c1
  simp only [Outcome.ok.injEq] at h1 c1
  subst h1; subst c1
  have hd : r.tree.depth ≤ h.length := by rw [hlen]; have := h2.depth; omega
  have hall : ∀ e ∈ r.tree.contents, leafAddr r.tree.depth (hashOf e) = leafAddr r.tree.depth h := by
    intro e he
    have : e ∈ bs.flatMap (·.1) := c2.subset (List.mem_append_left _ he)
    obtain ⟨b, hbm, hbe⟩ := List.mem_flatMap.1 this
    exact hcol b hbm e hbe
  classical
  have hf := (filter_path h2 hd
    (fun e => decide (leafAddr r.tree.depth (hashOf e) = leafAddr r.tree.depth h))
    (by intro e he; simpa using he)).length_eq
  have hfull : r.tree.contents.filter
      (fun e => decide (leafAddr r.tree.depth (hashOf e) = leafAddr r.tree.depth h)) =
        r.tree.contents := by
    rw [List.filter_eq_self]; intro e he; simpa using hall e he
  rw [hfull] at hf
  have hle := List.length_filter_le
    (fun e => decide (leafAddr r.tree.depth (hashOf e) = leafAddr r.tree.depth h))
    ((pathUp (leafAddr r.tree.depth h)).flatMap (nodeAt r.tree.nodes))
  have hcap := path_capacity h2 hd
  rw [h3, h4] at hcap
  simp only [Tree.empty] at hcap
  have hc := c2.length_eq
  have ht : (bs.flatMap (·.1)).length = total bs := by
    simp [total, List.length_flatMap]
  rw [List.length_append, ht] at hc
  omega

theorem silent_loss_aux (z : List Bool) (hz : z.length = 256) (hsh : List (List Bool))
    (hwf : Batch.WF (List.range 200, hsh)) :
    ∃ r : Run Nat, runBatches (fun _ => z) id (Tree.empty 89 4) [(List.range 200, hsh)] = .ok r ∧
      79 ≤ r.lost.length := by
  have hh : ∀ e : Nat, ((fun _ => z) e : List Bool).length = 256 := fun _ => hz
  have hb : ∀ b ∈ [((List.range 200 : List Nat), hsh)], Batch.WF b := by
    intro b hb; simp only [List.mem_singleton] at hb; subst hb; exact hwf
  have htot : total [((List.range 200 : List Nat), hsh)] = 200 := by
    simp only [total, List.map_cons, List.map_nil, List.length_range, List.sum_cons, List.sum_nil,
      Nat.add_zero]
  obtain ⟨r, h1, _⟩ := C01_conservation (fun _ : Nat => z) hh 89 4 _ hb (by rw [htot]; decide)
  refine ⟨r, h1, ?_⟩
  have hl := C08_collision_loss _ hh 89 4 _ hb (by rw [htot]; decide) r h1 z hz (fun _ _ _ _ => rfl)
  rw [htot] at hl
  have hdepth : r.tree.depth ≤ 7 := by
    simp only [runBatches, Outcome.bind_eq_ok, Outcome.pure_eq, Outcome.ok.injEq] at h1
    obtain ⟨x, hx, r2, h2, rfl⟩ := h1
    subst h2
    obtain ⟨x', k1, _, _, _, _, _, k7, _⟩ := insertWith_spec (M := Nat)
      (PostOK.id (fun _ : Nat => z)) (fun e => by rw [hh e]) (fun _ => 0)
      (fun _ => rfl) (empty_wf _ 89 4) hwf (by rw [List.length_range]; decide)
    rw [hx] at k1
    simp only [Outcome.ok.injEq] at k1
    subst k1
    exact k7 7 (by decide) (by rw [List.length_range]; decide)
  have : (r.tree.depth + 1) * 4 ≤ 32 := by omega
  omega

/-- **C08** (silent loss) With the default sizes (stash 89, node 4, utils.h) there is a
hash function and a batch of 200 elements for which `insert` returns normally although at least 79
elements are gone. -/
theorem C08_silent_loss : ∃ (hashOf : Nat → List Bool) (b : Batch Nat) (r : Run Nat),
    (∀ e, (hashOf e).length = 256) ∧ Batch.WF b ∧ b.1.Nodup ∧ b.1.length = 200 ∧
    runBatches hashOf id (Tree.empty 89 4) [b] = .ok r ∧ 79 ≤ r.lost.length := by
  have hwf : Batch.WF ((List.range 200 : List Nat), List.replicate 200 (toyHash 0)) := by
    refine ⟨by rw [List.length_replicate, List.length_range], ?_⟩
    intro h hm
    rw [List.eq_of_mem_replicate hm]; exact toyHash_len 0
  obtain ⟨r, h1, h2⟩ := silent_loss_aux (toyHash 0) (toyHash_len 0) _ hwf
  exact ⟨_, _, r, fun _ => toyHash_len 0, hwf, List.nodup_range, List.length_range, h1, h2⟩

example : (total toyBatches ≤ 5) ∧ ∀ b ∈ toyBatches, Batch.WF b := ⟨by decide, toyBatches_wf⟩

/-! ### C09 -/

/-- **C09** After inserting a batch into a reachable tree the depth is the least value that is at
least the old depth and satisfies `size < 2^(depth+1)`; there are exactly `2^(depth+1)` nodes. -/
theorem C09_depth (hashOf : α → List Bool) (hh : ∀ e, (hashOf e).length = 256)
    (stash node : Nat) (bs : List (Batch α)) (hb : ∀ b ∈ bs, Batch.WF b)
    (es : List α) (hsh : List (List Bool)) (hw : Batch.WF (es, hsh))
    (htot : total bs + es.length < 2 ^ 30) (r : Run α)
    (hr : runBatches hashOf id (Tree.empty stash node) bs = .ok r) :
    ∃ x, insert hashOf r.tree es hsh = .ok x ∧
      x.tree.actualSize = total bs + es.length ∧
      r.tree.depth ≤ x.tree.depth ∧ total bs + es.length < 2 ^ (x.tree.depth + 1) ∧
      (∀ d, r.tree.depth ≤ d → total bs + es.length < 2 ^ (d + 1) → x.tree.depth ≤ d) ∧
      x.tree.nodes.length = 2 ^ (x.tree.depth + 1) ∧ x.tree.depth ≤ 29 := by
  obtain ⟨r', h1, h2, _, _, h5, _, _⟩ := runBatches_spec (M := Nat) (PostOK.id hashOf)
    (fun e => by rw [hh e]) (fun _ => 0) (fun _ => rfl) bs
    (Tree.empty stash node) (empty_wf hashOf _ _) hb (by simp [Tree.empty]; omega)
  rw [hr] at h1
  simp only [Outcome.ok.injEq] at h1
  subst h1
  have hsz : r.tree.actualSize = total bs := by simpa [Tree.empty] using h5
  obtain ⟨x, k1, k2, _, _, k5, k6, k7, _⟩ := insertWith_spec (M := Nat) (PostOK.id hashOf)
    (fun e => by rw [hh e]) (fun _ => 0) (fun _ => rfl) h2 hw (by omega)
  refine ⟨x, k1, by rw [k5, hsz], k6, ?_, ?_, k2.nodes.len, k2.depth⟩
  · have := k2.size; rw [k5, hsz] at this; exact this
  · intro d h3 h4; exact k7 d h3 (by omega)

theorem growGo_ub {total : Nat} (htot : 2 ^ 30 ≤ total) (f : Nat) : ∀ (t : Tree α),
    growGo total f t = .ub := by
  induction f with
  | zero => intro t; rfl
  | succ f ih =>
    intro t
    unfold growGo
    by_cases h1 : t.depth + 1 > 30
    · rw [if_pos h1]
    · have : 2 ^ (t.depth + 1) ≤ 2 ^ 30 := Nat.pow_le_pow_right (by omega) (by omega)
      rw [if_neg h1, if_pos (by omega)]
      split
      · rfl
      · exact ih _

/-- **C09** (the int bound is sharp) `insert` into a reachable tree has defined behaviour exactly
when the new size stays below `2^30`; otherwise a 32-bit shift overflows. -/
theorem C09_int_bound (hashOf : α → List Bool) (hh : ∀ e, (hashOf e).length = 256)
    (stash node : Nat) (bs : List (Batch α)) (hb : ∀ b ∈ bs, Batch.WF b) (hbs : total bs < 2 ^ 30)
    (es : List α) (hsh : List (List Bool)) (hw : Batch.WF (es, hsh)) (r : Run α)
    (hr : runBatches hashOf id (Tree.empty stash node) bs = .ok r) :
    insert hashOf r.tree es hsh = .ub ↔ 2 ^ 30 ≤ total bs + es.length := by
  constructor
  · intro h
    by_contra hlt
    obtain ⟨x, hx, _⟩ := C09_depth hashOf hh stash node bs hb es hsh hw (by omega) r hr
    rw [hx] at h; simp at h
  · intro h
    obtain ⟨r', h1, h2, _, _, h5, _, _⟩ := runBatches_spec (M := Nat) (PostOK.id hashOf)
      (fun e => by rw [hh e]) (fun _ => 0) (fun _ => rfl) bs
      (Tree.empty stash node) (empty_wf hashOf _ _) hb (by simpa [Tree.empty] using hbs)
    rw [hr] at h1
    simp only [Outcome.ok.injEq] at h1
    subst h1
    have hsz : r.tree.actualSize = total bs := by simpa [Tree.empty] using h5
    simp only [insert, insertWith, grow]
    rw [growGo_ub (by omega)]
    rfl

example : ∃ r, runBatches toyHash id (Tree.empty 3 1) toyBatches = .ok r ∧
    ∃ x, insert toyHash r.tree [10] [toyHash 7] = .ok x ∧ 6 < 2 ^ (x.tree.depth + 1) := by
  obtain ⟨r, h, _⟩ := C01_conservation toyHash toyHash_len 3 1 toyBatches toyBatches_wf (by decide)
  obtain ⟨x, h1, _, _, h2, _⟩ := C09_depth toyHash toyHash_len 3 1 toyBatches toyBatches_wf [10] [toyHash 7]
    ⟨rfl, by intro h hh; simp at hh; subst hh; exact toyHash_len _⟩ (by decide) r h
  exact ⟨r, h, x, h1, by simpa [toyBatches, total] using h2⟩

/-! ### C10 -/

/-- **C10** In every reachable tree, inserting a batch and looking up any element's path are in
bounds (`Outcome.ok`, i.e. never `ub`).  Receiver-side node replacement is covered by
`C05_session_total` and `C11_replace_exact`. -/
theorem C10_in_bounds (hashOf : α → List Bool) (hh : ∀ e, (hashOf e).length = 256)
    (stash node : Nat) (bs : List (Batch α)) (hb : ∀ b ∈ bs, Batch.WF b)
    (es : List α) (hsh : List (List Bool)) (hw : Batch.WF (es, hsh))
    (htot : total bs + es.length < 2 ^ 30) :
    ∃ r, runBatches hashOf id (Tree.empty stash node) bs = .ok r ∧
      (∃ x, insert hashOf r.tree es hsh = .ok x) ∧ (∀ e, ∃ p, getPath r.tree (hashOf e) = .ok p) := by
  obtain ⟨r, h1, _⟩ := C01_conservation hashOf hh stash node bs hb (by omega)
  obtain ⟨x, hx, _⟩ := C09_depth hashOf hh stash node bs hb es hsh hw htot r h1
  obtain ⟨hl, hd⟩ := C03_reachable hashOf hh stash node bs hb (by omega) r h1
  exact ⟨r, h1, ⟨x, hx⟩, fun e => ⟨_, (C03_path_exact r.tree hl (hashOf e) (by rw [hh]; omega)).1⟩⟩

/-- **C10** (sender and receiver) When encryption and decoding do not fail, a session of any number of updates between an
empty sender's tree and an empty receiver's tree is in bounds: every insertion, every update applied, and afterwards every
path lookup in either tree. -/
theorem C10_session {ω γ : Type} (hashOf : α → List Bool) (hh : ∀ e, (hashOf e).length = 256)
    (post : List α → List α) (hpost : PostOK hashOf post) (deser : ω → Outcome γ) (us : List (UpdateIn α ω))
    (hw : ∀ u ∈ us, Batch.WF (u.elems, u.hsh)) (hE : ∀ u ∈ us, ∀ i j a, ∃ w, u.enc i j a = .ok w)
    (hD : ∀ w, ∃ c, deser w = .ok c) (stash node stash' node' : Nat) (htot : sent us < 2 ^ 30) :
    ∃ s r ms, session hashOf post deser (Tree.empty stash node) (Tree.empty stash' node') us = .ok (s, r, ms) ∧
      ∀ e, (∃ p, getPath s (hashOf e) = .ok p) ∧ ∃ p, getPath r (hashOf e) = .ok p := by
  obtain ⟨s, r, ms, h⟩ := C05_session_total hashOf hh post hpost deser us hw hE hD (Tree.empty stash node) (Tree.empty stash' node')
    (empty_wf _ _ _) ⟨rfl, rfl, rfl⟩ (by simpa [Tree.empty] using htot)
  obtain ⟨h1, h2⟩ := session_mirror hashOf hh post hpost deser (fun _ _ => True) (fun _ => True) us hw (fun _ _ _ _ => trivial)
    (fun _ _ _ _ _ _ _ _ _ => trivial) _ _ _ _ _ (empty_wf hashOf stash node)
    (⟨rfl, rfl, rfl, fun u => ⟨[], by simp, by
      match u with
      | 0 => exact List.Forall₂.nil
      | 1 => exact List.Forall₂.nil
      | u + 2 => exact List.Forall₂.nil⟩⟩ : Mirror (fun (_ : α) (_ : γ) => True) (fun _ => True) (Tree.empty stash node) (Tree.empty stash' node'))
    (by simpa [Tree.empty] using htot) h
  refine ⟨s, r, ms, h, fun e => ?_⟩
  obtain ⟨p, q, _, _, hp, hq, _⟩ := C05_path _ _ s r h2 h1.nodes.len (hashOf e) (by rw [hh]; have := h1.depth; omega)
  exact ⟨⟨p, hp⟩, q, hq⟩

example : ∃ r, runBatches toyHash id (Tree.empty 3 1) toyBatches = .ok r ∧
    (∃ x, insert toyHash r.tree [] [] = .ok x) ∧ (∀ e, ∃ p, getPath r.tree (toyHash e) = .ok p) :=
  C10_in_bounds toyHash toyHash_len 3 1 toyBatches toyBatches_wf [] [] ⟨rfl, by simp⟩ (by decide)

/-! ### C11 -/

theorem assignNodes_prefix (ind : List Nat) : ∀ (news ns : List (Node γ)),
    news.length ≤ ind.length → ind.Nodup → (∀ u ∈ ind, u < ns.length) →
    ∃ ns', assignNodes ind news ns = .ok ns' ∧ ns'.length = ns.length ∧
      (∀ u : Nat, u ∉ ind.take news.length → ns'[u]? = ns[u]?) ∧
      (∀ i u : Nat, i < news.length → ind[i]? = some u → ns'[u]? = news[i]?) := by
  induction ind with
  | nil =>
    intro news ns h1 h2 h3
    have : news = [] := by simpa using h1
    subst this
    exact ⟨ns, by simp [assignNodes], rfl, fun _ _ => rfl, by simp⟩
  | cons v ind ih =>
    intro news ns h1 h2 h3
    match news, h1 with
    | [], _ => exact ⟨ns, by simp [assignNodes], rfl, fun _ _ => rfl, by simp⟩
    | n :: news, h1 =>
      have hv := h3 v (by simp)
      have hnd := List.nodup_cons.1 h2
      obtain ⟨ns', e1, e2, e3, e4⟩ := ih news (ns.set v n) (by simpa using h1) hnd.2
        (by intro u hu; simpa using h3 u (by simp [hu]))
      refine ⟨ns', ?_, by simpa using e2, ?_, ?_⟩
      · simp only [assignNodes, if_pos hv, e1]
      · intro u hu
        simp only [List.length_cons, List.take_succ_cons, List.mem_cons, not_or] at hu
        rw [e3 u hu.2, List.getElem?_set_ne (Ne.symm hu.1)]
      · intro i u hi' hi
        cases i with
        | zero =>
          simp only [List.getElem?_cons_zero, Option.some.injEq] at hi ⊢
          subst hi
          rw [e3 v (fun h => hnd.1 (List.mem_of_mem_take h)), List.getElem?_set_self hv]
        | succ i =>
          simp only [List.getElem?_cons_succ] at hi ⊢
          exact e4 i u (by simpa using hi') hi

theorem assignNodes_ub (ind : List Nat) : ∀ (news ns : List (Node γ)),
    ind.length < news.length → assignNodes ind news ns = .ub := by
  induction ind with
  | nil =>
    intro news ns h
    match news, h with
    | n :: news, _ => simp [assignNodes]
  | cons v ind ih =>
    intro news ns h
    match news, h with
    | n :: news, h =>
      simp only [assignNodes]
      split
      · exact ih _ _ (by simpa using h)
      · rfl

/-- **C11** Exact behaviour of a receiver on an arbitrary update: with `k` the number of nodes on the
addressed paths, more than `k` nodes in the message is undefined behaviour; at most `k` nodes is
accepted, and then exactly the first `length news` addresses (in decreasing order) are overwritten
and everything else keeps its contents – so a short message is a silent partial update.  The
intended behaviour ("reject") is therefore violated; see the two witnesses below. -/
theorem C11_replace_exact (t : Tree γ) (hl : t.nodes.length = 2 ^ (t.depth + 1))
    (hdep : t.depth ≤ 29) (hsh : List (List Bool)) (hw : ∀ h ∈ hsh, h.length = 256)
    (htot : hsh.length + t.actualSize < 2 ^ 30) (news : List (Node γ)) :
    ∃ (d : Nat) (addrs : List Nat), d = max t.depth (Nat.log2 (hsh.length + t.actualSize)) ∧
      addrs.Pairwise (· > ·) ∧ (∀ v, v ∈ addrs ↔ ∃ h ∈ hsh, Anc v (leafAddr d h)) ∧
      (addrs.length < news.length → replaceNodes t news hsh = .ub) ∧
      (news.length ≤ addrs.length → ∃ t', replaceNodes t news hsh = .ok t' ∧
        t'.depth = d ∧ t'.actualSize = t.actualSize + hsh.length ∧
        t'.nodes.length = 2 ^ (d + 1) ∧
        (∀ u, u ∉ addrs.take news.length → t'.at u = t.at u) ∧
        (∀ i u, i < news.length → addrs[i]? = some u → t'.nodes[u]? = news[i]?)) := by
  -- growth
  obtain ⟨gs, g1, g2, g3, g4, g5⟩ : ∃ t', growGo (hsh.length + t.actualSize) 32 t = .ok t' ∧
      t'.depth = max t.depth (Nat.log2 (hsh.length + t.actualSize)) ∧ t'.depth ≤ 29 ∧
      t'.actualSize = t.actualSize ∧
      t'.nodes = t.nodes ++ List.replicate (2 ^ (t'.depth + 1) - 2 ^ (t.depth + 1)) ⟨t.nodeSize, []⟩ := by
    -- use the sender-side lemma on an empty-content tree of the same shape
    have key := growGo_spec (α := Unit) (hashOf := fun _ => toyHash 0) (fun _ => by rw [toyHash_len]) htot 32
      { nodeSize := 0, stashSize := 0, depth := t.depth, actualSize := t.actualSize,
        nodes := List.replicate (2 ^ (t.depth + 1)) ⟨0, []⟩ }
      ⟨by simp, by intro u n h; simp [List.getElem?_replicate] at h; obtain ⟨_, rfl⟩ := h; simp,
        by intro u n h; simp [List.getElem?_replicate] at h; obtain ⟨_, rfl⟩ := h; simp,
        by intro u n h; simp [List.getElem?_replicate] at h; obtain ⟨_, rfl⟩ := h; simp⟩
      hdep (by simp only []; omega)
    obtain ⟨s', a1, _, _, _, _, a6, a7, a8, a9, _⟩ := key
    obtain ⟨r', b1, b2, b3, b4, b5, b6, b7⟩ := growGo_shape 32 _ s' t a1 rfl (by simp) hl
    refine ⟨r', b1, ?_, by omega, b3, by rw [b7, b2]⟩
    rw [b2]
    exact depth_eq a7 a8 a9
  have hd : ∀ y ∈ hsh, gs.depth ≤ y.length := fun y hy => by have := hw y hy; omega
  obtain ⟨s1, s2⟩ := updateAddrs_spec hd
  have hgslen : gs.nodes.length = 2 ^ (gs.depth + 1) := by
    rw [g5]; simp only [List.length_append, List.length_replicate, hl]
    have : 2 ^ (t.depth + 1) ≤ 2 ^ (gs.depth + 1) := Nat.pow_le_pow_right (by omega) (by omega)
    omega
  refine ⟨gs.depth, updateAddrs gs.depth hsh, g2, s1, s2, ?_, ?_⟩
  · intro hlt
    simp only [replaceNodes, grow, g1, Outcome.bind_ok, leafIndices_ok hd]
    rw [assignNodes_ub _ _ _ (by simpa [updateAddrs] using hlt)]
    rfl
  · intro hle
    obtain ⟨ns', a1, a2, a3, a4⟩ := assignNodes_prefix (updateAddrs gs.depth hsh) news gs.nodes hle
      (s1.imp (fun h => by omega)) (by
        intro u hu
        obtain ⟨y, hy, ha⟩ := (s2 u).1 hu
        have := ha.le
        have := (leafAddr_bounds (hd y hy)).2
        omega)
    refine ⟨{ gs with nodes := ns', actualSize := gs.actualSize + hsh.length }, ?_, rfl,
      by simp [g4], by rw [a2, hgslen], ?_, a4⟩
    · simp only [replaceNodes, grow, g1, Outcome.bind_ok, leafIndices_ok hd]
      have : extractPathIndices (hsh.map (leafAddr gs.depth)) = updateAddrs gs.depth hsh := rfl
      simp only [this, a1, Outcome.bind_ok, Outcome.pure_eq]
    · intro u hu
      simp only [Tree.at, a3 u hu, g5, getElem?_append_replicate_elems]

/-- **C11** (too many nodes: memory safety) A message with one path identifier and three
nodes makes a fresh receiver write out of bounds (two nodes are addressed: root and stash). -/
theorem C11_oversized_ub :
    replaceNodes (Tree.empty 1 1 : Tree Nat) [⟨1, [7]⟩, ⟨1, [8]⟩, ⟨1, [9]⟩]
      [List.replicate 256 false] = .ub := by
  decide +kernel

/-- **C11** (too few nodes: silent partial update) One node instead of two is accepted,
the size counter advances, and the stash content of the sender never arrives. -/
theorem C11_short_accepted :
    replaceNodes (Tree.empty 1 1 : Tree Nat) [⟨1, [7]⟩] [List.replicate 256 false] =
      .ok { nodeSize := 1, stashSize := 1, depth := 0, actualSize := 1,
            nodes := [⟨1, []⟩, ⟨1, [7]⟩] } := by
  decide +kernel

/-- Hypotheses of `C11_replace_exact` hold for a fresh receiver. -/
example : (Tree.empty 1 1 : Tree Nat).nodes.length = 2 ^ ((Tree.empty 1 1 : Tree Nat).depth + 1) ∧
    (Tree.empty 1 1 : Tree Nat).depth ≤ 29 := by decide

end Upsi.Tree.Props
