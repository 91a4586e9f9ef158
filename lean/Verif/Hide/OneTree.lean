import Verif.Hide.OneModel
import Verif.Hide.Lemmas
/- Trees with relabelled contents (C80). -/
namespace Upsi.Hide
open Upsi Upsi.ElGamal Upsi.Tree Upsi.Num Upsi.Proto Upsi.View Upsi.Tree.Props

variable {α β ω : Type}

/-- A node with relabelled contents. -/
def mapNode (f : α → β) (n : Node α) : Node β := ⟨n.cap, n.elems.map f⟩

/-- A tree with relabelled contents. -/
def mapTree (f : α → β) (t : Upsi.Tree.Tree α) : Upsi.Tree.Tree β :=
  ⟨t.nodeSize, t.stashSize, t.depth, t.actualSize, t.nodes.map (mapNode f)⟩

theorem mapTree_empty (f : α → β) (a b : Nat) : mapTree f (Tree.empty a b) = Tree.empty a b := rfl

theorem readPath_map (f : α → β) (ns : List (Node α)) : ∀ us p, readPath ns us = .ok p → readPath (ns.map (mapNode f)) us = .ok (p.map f)
  | [], p, h => by simp only [readPath, Outcome.ok.injEq] at h ⊢; subst h; rfl
  | u :: us, p, h => by
    simp only [readPath, Outcome.bind_eq_ok, Outcome.pure_eq, Outcome.ok.injEq] at h
    obtain ⟨n, hn, r, hr, rfl⟩ := h
    have h1 : getNode (ns.map (mapNode f)) u = .ok (mapNode f n) := by
      unfold getNode at hn ⊢
      rw [List.getElem?_map]
      cases hu : ns[u]? with
      | none => rw [hu] at hn; simp at hn
      | some m => rw [hu] at hn; simp only [Outcome.ok.injEq] at hn; subst hn; rfl
    rw [readPath, h1, Outcome.bind_ok, readPath_map f ns us r hr, Outcome.bind_ok, List.map_append]
    rfl

theorem getPath_map (f : α → β) {t : Upsi.Tree.Tree α} {h : List Bool} {p : List α} (hp : getPath t h = .ok p) :
    getPath (mapTree f t) h = .ok (p.map f) := by
  simp only [getPath, Outcome.bind_eq_ok] at hp
  obtain ⟨leaf, hl, hp⟩ := hp
  rw [getPath]
  show (computeIndex t.depth h >>= _) = _
  rw [hl, Outcome.bind_ok]
  exact readPath_map f _ _ _ hp

theorem growGo_map (f : α → β) (total : Nat) : ∀ (k : Nat) (t t' : Upsi.Tree.Tree α), growGo total k t = .ok t' →
    growGo total k (mapTree f t) = .ok (mapTree f t')
  | 0, _, _, h => by simp [growGo] at h
  | k + 1, t, t', h => by
    rw [growGo] at h ⊢
    show (if t.depth + 1 > 30 then _ else if total ≥ 2 ^ (t.depth + 1) then (if t.depth + 2 > 30 then _ else _) else _) = _
    split at h
    · simp at h
    · split at h
      · split at h
        · simp at h
        · rename_i h1 h2 h3
          rw [if_neg h1, if_pos h2, if_neg h3]
          have : (mapTree f t).addNewLayer = mapTree f t.addNewLayer := by
            simp only [Tree.addNewLayer, mapTree, List.map_append, List.map_replicate, List.length_map]
            rfl
          rw [this]
          exact growGo_map f total k _ _ h
      · rename_i h1 h2
        simp only [Outcome.ok.injEq] at h
        subst h
        rw [if_neg h1, if_neg h2]

theorem assignNodes_map (f : α → β) : ∀ (us : List Nat) (news ns ns' : List (Node α)), assignNodes us news ns = .ok ns' →
    assignNodes us (news.map (mapNode f)) (ns.map (mapNode f)) = .ok (ns'.map (mapNode f))
  | _, [], ns, ns', h => by simp only [assignNodes, Outcome.ok.injEq] at h; subst h; simp [assignNodes]
  | [], _ :: _, _, _, h => by simp [assignNodes] at h
  | u :: us, n :: news, ns, ns', h => by
    rw [assignNodes] at h
    split at h
    · rename_i hu
      rw [List.map_cons, assignNodes, List.length_map, if_pos hu, ← List.map_set]
      exact assignNodes_map f us news _ _ h
    · simp at h

theorem replaceNodes_map (f : α → β) {t t' : Upsi.Tree.Tree α} {news : List (Node α)} {hsh : List (List Bool)}
    (h : replaceNodes t news hsh = .ok t') : replaceNodes (mapTree f t) (news.map (mapNode f)) hsh = .ok (mapTree f t') := by
  simp only [replaceNodes, Outcome.bind_eq_ok, Outcome.pure_eq, Outcome.ok.injEq] at h
  obtain ⟨t1, h1, leaves, h2, ns, h3, rfl⟩ := h
  rw [replaceNodes]
  have e1 : grow hsh.length (mapTree f t) = .ok (mapTree f t1) := growGo_map f _ _ _ _ h1
  rw [e1, Outcome.bind_ok]
  show (leafIndices t1.depth hsh >>= _) = _
  rw [h2, Outcome.bind_ok]
  show (assignNodes (extractPathIndices leaves) (news.map (mapNode f)) (t1.nodes.map (mapNode f)) >>= _) = _
  rw [assignNodes_map f _ _ _ _ h3, Outcome.bind_ok]
  rfl

/-- The wire messages `ws` decode to the relabelled nodes. -/
theorem deserElems_map {deser : ω → Outcome β} {f : α → β} {ws : List ω} {ls : List α} (h : List.Forall₂ (fun w l => deser w = .ok (f l)) ws ls) :
    deserElems deser ws = .ok (ls.map f) := by
  induction h with
  | nil => rfl
  | cons h1 _ ih => rw [deserElems, h1, Outcome.bind_ok, ih, Outcome.bind_ok]; rfl

theorem deserElems_id : ∀ (ls : List α), deserElems .ok ls = .ok ls
  | [] => rfl
  | l :: ls => by rw [deserElems, Outcome.bind_ok, deserElems_id ls]; rfl

theorem deserNodes_id : ∀ (ls : List (List α)), deserNodes .ok ls = .ok (ls.map fun l => ⟨l.length, l⟩)
  | [] => rfl
  | l :: ls => by rw [deserNodes, deserElems_id, Outcome.bind_ok, deserNodes_id ls]; rfl

theorem deserNodes_map {deser : ω → Outcome β} {f : α → β} {ws : List (List ω)} {ls : List (List α)}
    (h : List.Forall₂ (List.Forall₂ (fun w l => deser w = .ok (f l))) ws ls) :
    deserNodes deser ws = .ok ((ls.map fun l => (⟨l.length, l⟩ : Node α)).map (mapNode f)) := by
  induction h with
  | nil => rfl
  | @cons w l _ _ h1 _ ih =>
    rw [deserNodes, deserElems_map h1, Outcome.bind_ok, ih, Outcome.bind_ok]
    simp [mapNode]

/-- A copy that receives an encoded update is the relabelled copy that receives the labels. -/
theorem recvUpdate_map {deser : ω → Outcome β} {f : α → β} {t t' : Upsi.Tree.Tree α} {m : Msg ω} {m' : Msg α} (hh : m.hashes = m'.hashes)
    (h : List.Forall₂ (List.Forall₂ (fun w l => deser w = .ok (f l))) m.nodes m'.nodes) (hr : recvUpdate .ok t m' = .ok t') :
    recvUpdate deser (mapTree f t) m = .ok (mapTree f t') := by
  rw [recvUpdate, deserNodes_id, Outcome.bind_ok] at hr
  rw [recvUpdate, deserNodes_map h, Outcome.bind_ok, hh]
  exact replaceNodes_map f hr

/-- Encoding labels never fails. -/
theorem forIdx_pure {f : Nat → α → β} : ∀ (l : List α) (k : Nat), forIdx (fun i a => .ok (f i a)) k l = .ok (l.mapIdx fun i a => f (k + i) a)
  | [], _ => rfl
  | a :: l, k => by
    rw [forIdx, Outcome.bind_ok, forIdx_pure l (k + 1), Outcome.bind_ok, List.mapIdx_cons]
    show Outcome.ok _ = _
    congr 1
    simp only [Nat.add_zero]
    congr 2
    funext i a
    rw [show k + (i + 1) = k + 1 + i by omega]

theorem forIdx_rel {γ : Type} {f : Nat → α → Outcome ω} {f' : Nat → α → γ} {R : ω → γ → Prop} (h : ∀ i a w, f i a = .ok w → R w (f' i a)) :
    ∀ (l : List α) (k : Nat) (ws : List ω), forIdx f k l = .ok ws → List.Forall₂ R ws (l.mapIdx fun i a => f' (k + i) a)
  | [], k, ws, hw => by simp only [forIdx, Outcome.ok.injEq] at hw; subst hw; exact .nil
  | a :: l, k, ws, hw => by
    simp only [forIdx, Outcome.bind_eq_ok, Outcome.pure_eq, Outcome.ok.injEq] at hw
    obtain ⟨w, h1, ws', h2, rfl⟩ := hw
    rw [List.mapIdx_cons]
    refine .cons (h k a w h1) ?_
    have := forIdx_rel h l (k + 1) ws' h2
    have e : (fun i a => f' (k + (i + 1)) a) = fun i a => f' (k + 1 + i) a := by
      funext i a; rw [show k + (i + 1) = k + 1 + i by omega]
    rw [e]
    exact this

/-- The labels of an update. -/
def labelNodes (lab : Nat → Nat → α → β) (pads : Nat → Nat → α) (ns : List (Node α)) : List (List β) :=
  ns.mapIdx fun i n => (padNode n (pads i)).elems.mapIdx fun j a => lab i j a

theorem encNodes_label {lab : Nat → Nat → α → β} {pads : Nat → Nat → α} {ns : List (Node α)} (hcap : ∀ n ∈ ns, n.elems.length ≤ n.cap) :
    encNodes (fun i j a => .ok (lab i j a)) pads 0 ns = .ok (labelNodes lab pads ns) := by
  rw [encNodes_forIdx _ hcap]
  have : (fun i n => forIdx (fun j a => Outcome.ok (lab i j a)) 0 (padNode n (pads i)).elems) =
      fun i n => Outcome.ok ((padNode n (pads i)).elems.mapIdx fun j a => lab i j a) := by
    funext i n
    rw [forIdx_pure]
    simp only [Nat.zero_add]
  rw [this, forIdx_pure]
  simp only [Nat.zero_add]
  rfl

theorem encNodes_rel {enc : Nat → Nat → α → Outcome ω} {lab : Nat → Nat → α → β} {pads : Nat → Nat → α} {R : ω → β → Prop}
    (h : ∀ i j a w, enc i j a = .ok w → R w (lab i j a)) {ns : List (Node α)} (hcap : ∀ n ∈ ns, n.elems.length ≤ n.cap) {ws : List (List ω)}
    (hw : encNodes enc pads 0 ns = .ok ws) : List.Forall₂ (List.Forall₂ R) ws (labelNodes lab pads ns) := by
  rw [encNodes_forIdx _ hcap] at hw
  have := forIdx_rel (R := List.Forall₂ R) (f' := fun i n => (padNode n (pads i)).elems.mapIdx fun j a => lab i j a)
    (fun i n w hw => by
      have := forIdx_rel (R := R) (f' := lab i) (h i) _ 0 w hw
      simpa only [Nat.zero_add] using this) ns 0 ws hw
  simp only [Nat.zero_add] at this
  exact this

/-- Everything stored in a copy after an update was stored before or came with the update. -/
theorem assignNodes_mem {Q : α → Prop} : ∀ (us : List Nat) (news ns ns' : List (Node α)), assignNodes us news ns = .ok ns' →
    (∀ n ∈ news, ∀ a ∈ n.elems, Q a) → (∀ n ∈ ns, ∀ a ∈ n.elems, Q a) → ∀ n ∈ ns', ∀ a ∈ n.elems, Q a
  | _, [], ns, ns', h, _, h2 => by simp only [assignNodes, Outcome.ok.injEq] at h; subst h; exact h2
  | [], _ :: _, _, _, h, _, _ => by simp [assignNodes] at h
  | u :: us, n :: news, ns, ns', h, h1, h2 => by
    rw [assignNodes] at h
    split at h
    · refine assignNodes_mem us news _ _ h (fun m hm => h1 m (by simp [hm])) ?_
      intro m hm
      rcases List.mem_or_eq_of_mem_set hm with hm | rfl
      · exact h2 m hm
      · exact h1 m (by simp)
    · simp at h

theorem growGo_mem {Q : α → Prop} {total : Nat} : ∀ (k : Nat) (t t' : Upsi.Tree.Tree α), growGo total k t = .ok t' →
    (∀ n ∈ t.nodes, ∀ a ∈ n.elems, Q a) → ∀ n ∈ t'.nodes, ∀ a ∈ n.elems, Q a
  | 0, _, _, h, _ => by simp [growGo] at h
  | k + 1, t, t', h, hQ => by
    rw [growGo] at h
    split at h
    · simp at h
    · split at h
      · split at h
        · simp at h
        · refine growGo_mem k _ _ h ?_
          intro n hn
          simp only [Tree.addNewLayer, List.mem_append, List.mem_replicate] at hn
          rcases hn with hn | ⟨-, rfl⟩
          · exact hQ n hn
          · simp
      · simp only [Outcome.ok.injEq] at h
        subst h; exact hQ

theorem recvUpdate_mem {Q : α → Prop} {t t' : Upsi.Tree.Tree α} {m : Msg α} (h : recvUpdate .ok t m = .ok t')
    (h1 : ∀ n ∈ t.nodes, ∀ a ∈ n.elems, Q a) (h2 : ∀ l ∈ m.nodes, ∀ a ∈ l, Q a) : ∀ n ∈ t'.nodes, ∀ a ∈ n.elems, Q a := by
  simp only [recvUpdate, deserNodes_id, replaceNodes, Outcome.bind_eq_ok, Outcome.pure_eq, Outcome.ok.injEq] at h
  obtain ⟨ns, rfl, t1, h3, leaves, -, ns', h4, rfl⟩ := h
  refine assignNodes_mem _ _ _ _ h4 ?_ (growGo_mem _ _ _ h3 h1)
  intro n hn
  obtain ⟨l, hl, rfl⟩ := List.mem_map.1 hn
  exact h2 l hl

theorem readPath_mem {Q : α → Prop} {ns : List (Node α)} (hQ : ∀ n ∈ ns, ∀ a ∈ n.elems, Q a) : ∀ us p, readPath ns us = .ok p → ∀ a ∈ p, Q a
  | [], p, h => by simp only [readPath, Outcome.ok.injEq] at h; subst h; simp
  | u :: us, p, h => by
    simp only [readPath, Outcome.bind_eq_ok, Outcome.pure_eq, Outcome.ok.injEq] at h
    obtain ⟨n, hn, r, hr, rfl⟩ := h
    intro a ha
    rcases List.mem_append.1 ha with ha | ha
    · refine hQ n ?_ a ha
      unfold getNode at hn
      cases hu : ns[u]? with
      | none => rw [hu] at hn; simp at hn
      | some m => rw [hu] at hn; simp only [Outcome.ok.injEq] at hn; subst hn; exact List.mem_of_getElem? hu
    · exact readPath_mem hQ us r hr a ha

theorem getPath_mem {Q : α → Prop} {t : Upsi.Tree.Tree α} (hQ : ∀ n ∈ t.nodes, ∀ a ∈ n.elems, Q a) {h : List Bool} {p : List α}
    (hp : getPath t h = .ok p) : ∀ a ∈ p, Q a := by
  simp only [getPath, Outcome.bind_eq_ok] at hp
  obtain ⟨leaf, -, hp⟩ := hp
  exact readPath_mem hQ _ _ hp

end Upsi.Hide
