import Verif.View.Model
import Verif.Tree.Props2
import Verif.Proto.SSProps
/-
C65: the sizes of the messages of the addition-only protocols.  Specification vocabulary and the tree part.
-/
namespace Upsi.View
open Upsi Upsi.ElGamal Upsi.Tree Upsi.Tree.Props Upsi.Num Upsi.Proto

/-! ### specification -/

/-- Is node `u` the leaf addressed by `h` in a tree of depth `d`, one of its ancestors, or the stash `0`? -/
def onPath (d : Nat) (h : List Bool) (u : Nat) : Bool := (List.range (d + 2)).any (fun k => leafAddr d h / 2 ^ k == u)

/-- The number of path identifiers sent so far. -/
def idCount (H : List (List (List Bool))) : Nat := (H.map List.length).sum

/-- Was node `u` part of one of the updates with identifiers `H`, the first of which reached a tree of `n` elements?  A
tree of `m` elements has depth `log2 m` (C09). -/
def touchedFrom (n : Nat) : List (List (List Bool)) → Nat → Bool
  | [], _ => false
  | b :: H, u => b.any (fun h => onPath (Nat.log2 (n + b.length)) h u) || touchedFrom (n + b.length) H u

/-- Was node `u` part of one of the updates with identifiers `H` of a tree that started empty? -/
def touched (H : List (List (List Bool))) (u : Nat) : Bool := touchedFrom 0 H u

/-- The number of nodes on the path of `h` (from the leaf to the root, without the stash) that were part of an update. -/
def levels (H : List (List (List Bool))) (h : List Bool) : Nat :=
  ((List.range (Nat.log2 (idCount H) + 1)).filter (fun k => touched H (leafAddr (Nat.log2 (idCount H)) h / 2 ^ k))).length

/-- The number of ciphertexts found for hash `h` in the copy of a tree that received the updates with identifiers `H`:
a full stash if there was any update, and a full node for every node of the path that was part of an update. -/
def slots (stash node : Nat) (H : List (List (List Bool))) (h : List Bool) : Nat :=
  (if touched H 0 then stash else 0) + levels H h * node

/-! ### the receiver's copy -/

theorem touchedFrom_snoc (H : List (List (List Bool))) (b : List (List Bool)) (u : Nat) : ∀ n,
    touchedFrom n (H ++ [b]) u = (touchedFrom n H u || b.any (fun h => onPath (Nat.log2 (n + idCount H + b.length)) h u)) := by
  induction H with
  | nil => intro n; simp [touchedFrom, idCount]
  | cons a H ih =>
    intro n
    simp only [List.cons_append, touchedFrom, ih, idCount, List.map_cons, List.sum_cons, Bool.or_assoc]
    rw [show n + a.length + (H.map List.length).sum + b.length = n + (a.length + (H.map List.length).sum) + b.length by omega]

theorem onPath_iff {d : Nat} {h : List Bool} (hd : d ≤ h.length) (u : Nat) : onPath d h u = true ↔ Anc u (leafAddr d h) := by
  simp only [onPath, List.any_eq_true, List.mem_range, beq_iff_eq]
  constructor
  · rintro ⟨k, _, rfl⟩; exact ⟨k, rfl⟩
  · rintro ⟨k, rfl⟩
    by_cases hk : k < d + 2
    · exact ⟨k, hk, rfl⟩
    · refine ⟨d + 1, by omega, ?_⟩
      have := (leafAddr_bounds hd).2
      rw [Nat.div_eq_of_lt this, Nat.div_eq_of_lt]
      exact Nat.lt_of_lt_of_le this (Nat.pow_le_pow_right (by omega) (by omega))

theorem log2_le {n : Nat} (h : n < 2 ^ 30) : Nat.log2 n ≤ 29 := by
  by_cases hn : n = 0
  · subst hn; simp
  · have := (Nat.log2_lt hn).2 h; omega

theorem log2_mono {m n : Nat} (h : m ≤ n) : Nat.log2 m ≤ Nat.log2 n := by
  by_cases hm : m = 0
  · subst hm; simp
  · have : 2 ^ Nat.log2 m ≤ n := Nat.le_trans (Nat.log2_self_le hm) h
    exact (Nat.le_log2 (by omega)).2 this

theorem idCount_snoc (H : List (List (List Bool))) (b : List (List Bool)) : idCount (H ++ [b]) = idCount H + b.length := by
  simp [idCount]

/-- The copy of a tree after updates with identifiers `H`: every node that was part of an update is full, every other
one is empty. -/
structure Shaped {γ : Type} (stash node : Nat) (H : List (List (List Bool))) (r : Upsi.Tree.Tree γ) : Prop where
  le : idCount H < 2 ^ 30
  size : r.actualSize = idCount H
  depth : r.depth = Nat.log2 (idCount H)
  count : r.nodes.length = 2 ^ (r.depth + 1)
  node : ∀ u, (r.at u).length = if touched H u then (if u = 0 then stash else node) else 0

theorem shaped_empty {γ : Type} (stash node stash' node' : Nat) : Shaped stash node [] (Tree.empty stash' node' : Upsi.Tree.Tree γ) where
  le := by decide
  size := rfl
  depth := rfl
  count := rfl
  node := fun u => by
    match u with
    | 0 => rfl
    | 1 => rfl
    | u + 2 => rfl

/-- The sender's own tree after updates with identifiers `H`. -/
structure Sender {α : Type} (hashOf : α → List Bool) (stash node : Nat) (H : List (List (List Bool))) (s : Upsi.Tree.Tree α) : Prop where
  wf : TWF hashOf s
  size : s.actualSize = idCount H
  depth : s.depth = Nat.log2 (idCount H)
  stash : s.stashSize = stash
  node : s.nodeSize = node

theorem sender_empty {α : Type} (hashOf : α → List Bool) (stash node : Nat) : Sender hashOf stash node [] (Tree.empty stash node) :=
  ⟨empty_wf _ _ _, rfl, rfl, rfl, rfl⟩

theorem shape_lengths {ω : Type} {m : Msg ω} {hsh : List (List Bool)} {l : List Nat} (h : m.shape = (hsh, l)) :
    m.hashes = hsh ∧ m.nodes.map List.length = l := by
  simpa [Msg.shape] using h

/-- A sender's update and what it looks like on the wire. -/
theorem sender_step {α ω : Type} {hashOf : α → List Bool} (hh : ∀ e, (hashOf e).length = 256) {post : List α → List α}
    (hpost : PostOK hashOf post) {enc : Nat → Nat → α → Outcome ω} {pads : Nat → Nat → α} {stash node : Nat}
    {H : List (List (List Bool))} {s : Upsi.Tree.Tree α} (hs : Sender hashOf stash node H s) {es : List α} {hsh : List (List Bool)}
    (hb : Batch.WF (es, hsh)) (htot : idCount H + hsh.length < 2 ^ 30) {x : SendResult α ω}
    (hx : sendUpdate hashOf post enc pads s es hsh = .ok x) :
    Sender hashOf stash node (H ++ [hsh]) x.tree ∧
    x.msg.shape = (hsh, (updateAddrs (Nat.log2 (idCount (H ++ [hsh]))) hsh).map (fun u => if u = 0 then stash else node)) := by
  have hb1 : hsh.length = es.length := hb.1
  obtain ⟨c1, c2, c3, c4, c5, c6⟩ := sendUpdate_shape hh hpost hs.wf hb (by rw [hs.size]; omega) hx
  have e : x.tree.depth = Nat.log2 (idCount (H ++ [hsh])) := by
    rw [c5, hs.depth, hs.size, idCount_snoc]
    have := log2_mono (show idCount H ≤ idCount H + hsh.length by omega)
    omega
  refine ⟨⟨c1, by rw [c2, hs.size, idCount_snoc]; omega, e, c4.trans hs.stash, c3.trans hs.node⟩, ?_⟩
  rw [c6, e, hs.stash, hs.node]

/-- A receiver's update. -/
theorem shaped_step {γ ω : Type} {deser : ω → Outcome γ} {stash node : Nat} {H : List (List (List Bool))} {r r' : Upsi.Tree.Tree γ}
    (hr : Shaped stash node H r) {hsh : List (List Bool)} (hw : ∀ h ∈ hsh, h.length = 256)
    (htot : idCount H + hsh.length < 2 ^ 30) {m : Msg ω}
    (hm : m.shape = (hsh, (updateAddrs (Nat.log2 (idCount (H ++ [hsh]))) hsh).map (fun u => if u = 0 then stash else node)))
    (h : recvUpdate deser r m = .ok r') : Shaped stash node (H ++ [hsh]) r' := by
  obtain ⟨m1, m2⟩ := shape_lengths hm
  simp only [recvUpdate, Outcome.bind_eq_ok] at h
  obtain ⟨ns, hns, h⟩ := h
  rw [m1] at h
  have hN : Nat.log2 (idCount (H ++ [hsh])) ≤ 29 := log2_le (by rw [idCount_snoc]; omega)
  have hd : ∀ y ∈ hsh, Nat.log2 (idCount (H ++ [hsh])) ≤ y.length := fun y hy => by rw [hw y hy]; omega
  obtain ⟨s1, s2⟩ := updateAddrs_spec hd
  obtain ⟨d, addrs, k1, k2, k3, k4, k5⟩ := C11_replace_exact r hr.count (by rw [hr.depth]; exact log2_le hr.le) hsh hw
    (by rw [hr.size]; omega) ns
  have hdd : d = Nat.log2 (idCount (H ++ [hsh])) := by
    rw [k1, hr.depth, hr.size, idCount_snoc, Nat.add_comm hsh.length]
    have := log2_mono (show idCount H ≤ idCount H + hsh.length by omega)
    omega
  have haddr : addrs = updateAddrs (Nat.log2 (idCount (H ++ [hsh]))) hsh := strict_ext k2 s1 (fun v => by rw [k3, s2, hdd])
  -- the decoded nodes
  have hdes : ∀ (l : List (List ω)) (ns : List (Node γ)), deserNodes deser l = .ok ns → ns.map (fun n => n.elems.length) = l.map List.length := by
    intro l
    induction l with
    | nil => intro ns h; simp only [deserNodes, Outcome.ok.injEq] at h; subst h; rfl
    | cons a l ih =>
      intro ns h
      simp only [deserNodes, Outcome.bind_eq_ok, Outcome.pure_eq, Outcome.ok.injEq] at h
      obtain ⟨c, hc, cs, hcs, rfl⟩ := h
      have hlen : ∀ (a : List ω) (c : List γ), deserElems deser a = .ok c → c.length = a.length := by
        intro a
        induction a with
        | nil => intro c h; simp only [deserElems, Outcome.ok.injEq] at h; subst h; rfl
        | cons w a ih =>
          intro c h
          simp only [deserElems, Outcome.bind_eq_ok, Outcome.pure_eq, Outcome.ok.injEq] at h
          obtain ⟨x, _, xs, hxs, rfl⟩ := h
          simp [ih xs hxs]
      simp only [List.map_cons, ih cs hcs, hlen a c hc]
  have hnl : ns.map (fun n => n.elems.length) = addrs.map (fun u => if u = 0 then stash else node) := by
    rw [hdes _ _ hns, m2, haddr]
  have hlen : ns.length = addrs.length := by simpa using congrArg List.length hnl
  obtain ⟨t', k6, k7, k8, k9, k10, k11⟩ := k5 (by omega)
  obtain rfl := Outcome.ok.inj (h.symm.trans k6)
  refine ⟨by rw [idCount_snoc]; omega, by rw [k8, hr.size, idCount_snoc], by rw [k7, hdd], by rw [k9, k7], fun u => ?_⟩
  have htu : touched (H ++ [hsh]) u = (touched H u || hsh.any (fun h => onPath (Nat.log2 (idCount (H ++ [hsh]))) h u)) := by
    have := touchedFrom_snoc H hsh u 0
    simp only [Nat.zero_add] at this
    rw [touched, this, idCount_snoc]; rfl
  have hany : hsh.any (fun h => onPath (Nat.log2 (idCount (H ++ [hsh]))) h u) = true ↔ u ∈ addrs := by
    rw [k3, List.any_eq_true, hdd]
    exact ⟨fun ⟨x, hx, hp⟩ => ⟨x, hx, (onPath_iff (hd x hx) u).1 hp⟩, fun ⟨x, hx, hp⟩ => ⟨x, hx, (onPath_iff (hd x hx) u).2 hp⟩⟩
  by_cases hu : u ∈ addrs
  · rw [if_pos (by rw [htu, hany.2 hu, Bool.or_true])]
    obtain ⟨i, hi, rfl⟩ := List.getElem_of_mem hu
    have hg := k11 i addrs[i] (by omega) (List.getElem?_eq_getElem hi)
    have hi' : i < ns.length := by omega
    rw [List.getElem?_eq_getElem hi'] at hg
    have e1 : (ns.map (fun n => n.elems.length))[i]? = (addrs.map (fun u => if u = 0 then stash else node))[i]? := by rw [hnl]
    rw [List.getElem?_map, List.getElem?_map, List.getElem?_eq_getElem hi', List.getElem?_eq_getElem hi] at e1
    simp only [Option.map_some, Option.some.injEq] at e1
    simpa [Tree.at, hg] using e1
  · have hf : hsh.any (fun h => onPath (Nat.log2 (idCount (H ++ [hsh]))) h u) = false := by
      cases hq : hsh.any (fun h => onPath (Nat.log2 (idCount (H ++ [hsh]))) h u) with
      | false => rfl
      | true => exact absurd (hany.1 hq) hu
    rw [k10 u (fun hm => hu (List.mem_of_mem_take hm)), hr.node u, htu, hf, Bool.or_false]

/-- A lookup in the copy. -/
theorem shaped_path {γ : Type} {stash node : Nat} {H : List (List (List Bool))} {r : Upsi.Tree.Tree γ} (hr : Shaped stash node H r)
    {h : List Bool} (hh : h.length = 256) {p : List γ} (hp : getPath r h = .ok p) : p.length = slots stash node H h := by
  have hd : r.depth ≤ h.length := by rw [hr.depth, hh]; have := log2_le hr.le; omega
  have := (C03_path_exact r hr.count h hd).1
  obtain rfl := Outcome.ok.inj (hp.symm.trans this)
  rw [List.length_append, hr.node 0, List.length_flatMap, slots, levels]
  have hne : ∀ k ∈ List.range (r.depth + 1), leafAddr r.depth h / 2 ^ k ≠ 0 := by
    intro k hk e
    have hk := List.mem_range.1 hk
    have hb := (leafAddr_bounds hd).1
    have := (Nat.div_eq_zero_iff_lt (Nat.pow_pos (by omega : 0 < 2))).1 e
    have : 2 ^ k ≤ 2 ^ r.depth := Nat.pow_le_pow_right (by omega) (by omega)
    omega
  have : ∀ l : List Nat, (∀ k ∈ l, leafAddr r.depth h / 2 ^ k ≠ 0) →
      (l.map (fun k => (r.at (leafAddr r.depth h / 2 ^ k)).length)).sum =
        (l.filter (fun k => touched H (leafAddr r.depth h / 2 ^ k))).length * node := by
    intro l
    induction l with
    | nil => intro _; simp
    | cons k l ih =>
      intro hl
      rw [List.map_cons, List.sum_cons, ih (fun k hk => hl k (List.mem_cons_of_mem _ hk)), hr.node,
        if_neg (hl k (List.mem_cons_self ..))]
      cases ht : touched H (leafAddr r.depth h / 2 ^ k) with
      | true => rw [List.filter_cons_of_pos (by simpa using ht)]; simp [Nat.add_mul]; omega
      | false => rw [List.filter_cons_of_neg (by simpa using ht)]; simp
  rw [this _ hne, hr.depth]
  simp only [if_true]
  omega

/-- Bounds: once something was sent, a lookup finds at least the stash and the root, and at most the stash and all
levels. -/
theorem slots_bounds (stash node : Nat) (H : List (List (List Bool))) (h : List Bool) (hh : h.length = 256) (hle : idCount H < 2 ^ 30)
    (hw : ∀ b ∈ H, ∀ x ∈ b, x.length = 256) (hne : idCount H ≠ 0) :
    stash + node ≤ slots stash node H h ∧ slots stash node H h ≤ stash + (Nat.log2 (idCount H) + 1) * node := by
  have key : ∀ (H : List (List (List Bool))) (n : Nat), (∀ b ∈ H, ∀ x ∈ b, x.length = 256) → n + idCount H < 2 ^ 30 → idCount H ≠ 0 →
      touchedFrom n H 0 = true ∧ touchedFrom n H 1 = true := by
    intro H
    induction H with
    | nil => intro n _ _ h; simp [idCount] at h
    | cons b H ih =>
      intro n hw hle hne
      have hc : idCount (b :: H) = b.length + idCount H := by simp [idCount]
      rw [hc] at hle hne
      by_cases hb : b = []
      · subst hb
        have := ih (n + 0) (fun b hb => hw b (List.mem_cons_of_mem _ hb)) (by simp at hle; omega) (by simpa using hne)
        simpa [touchedFrom] using this
      · obtain ⟨x, hx⟩ := List.exists_mem_of_ne_nil _ hb
        have hd : Nat.log2 (n + b.length) ≤ x.length := by
          rw [hw b (List.mem_cons_self ..) x hx]; have := log2_le (show n + b.length < 2 ^ 30 by omega); omega
        have hb := leafAddr_bounds hd
        simp only [touchedFrom, Bool.or_eq_true, List.any_eq_true]
        refine ⟨Or.inl ⟨x, hx, (onPath_iff hd 0).2 (Anc.zero _)⟩, Or.inl ⟨x, hx, (onPath_iff hd 1).2 ⟨Nat.log2 (n + b.length), ?_⟩⟩⟩
        symm
        apply Nat.div_eq_of_lt_le
        · omega
        · have := hb.2; rw [Nat.pow_succ] at this; omega
  obtain ⟨t0, t1⟩ := key H 0 hw (by omega) hne
  have hd : Nat.log2 (idCount H) ≤ h.length := by rw [hh]; have := log2_le hle; omega
  have hb := leafAddr_bounds hd
  have hroot : leafAddr (Nat.log2 (idCount H)) h / 2 ^ Nat.log2 (idCount H) = 1 := by
    apply Nat.div_eq_of_lt_le
    · omega
    · have := hb.2; rw [Nat.pow_succ] at this; omega
  have l1 : 1 ≤ levels H h := by
    unfold levels
    apply List.length_pos_of_mem (a := Nat.log2 (idCount H))
    rw [List.mem_filter, hroot]
    exact ⟨List.mem_range.2 (by omega), t1⟩
  have l2 : levels H h ≤ Nat.log2 (idCount H) + 1 := by
    unfold levels
    refine (List.length_filter_le _ _).trans ?_
    simp
  have e0 : touched H 0 = true := t0
  simp only [slots, e0, if_true]
  refine ⟨?_, Nat.add_le_add_left (Nat.mul_le_mul_right _ l2) _⟩
  have := Nat.mul_le_mul_right node l1
  omega

end Upsi.View
