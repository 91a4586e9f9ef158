import Verif.Tree.SyncSpec
import Verif.Tree.WF
/- Helper lemmas for the sender/receiver simulation. -/
namespace Upsi.Tree
open Upsi

variable {α γ ω : Type}

theorem addNewLayer_len (t : Tree α) (h : t.nodes.length = 2 ^ (t.depth + 1)) :
    t.addNewLayer.nodes.length = 2 ^ (t.addNewLayer.depth + 1) := by
  simp only [Tree.addNewLayer, List.length_append, List.length_replicate, h]
  rw [Nat.pow_succ 2 (t.depth + 1)]; omega

/-- Growth depends only on depth and total; it appends empty nodes. -/
theorem growGo_shape {total : Nat} (f : Nat) : ∀ (s s' : Tree α) (r : Tree γ),
    growGo total f s = .ok s' → r.depth = s.depth → s.nodes.length = 2 ^ (s.depth + 1) →
    r.nodes.length = 2 ^ (r.depth + 1) →
    ∃ r', growGo total f r = .ok r' ∧ r'.depth = s'.depth ∧ r'.actualSize = r.actualSize ∧
      s.depth ≤ s'.depth ∧
      r'.nodeSize = r.nodeSize ∧ r'.stashSize = r.stashSize ∧
      r'.nodes = r.nodes ++ List.replicate (2 ^ (s'.depth + 1) - 2 ^ (s.depth + 1)) ⟨r.nodeSize, []⟩ := by
  induction f with
  | zero => intro s s' r h; simp [growGo] at h
  | succ f ih =>
    intro s s' r h hd hl hr
    unfold growGo at h ⊢
    rw [hd]
    by_cases h1 : s.depth + 1 > 30
    · simp [h1] at h
    · rw [if_neg h1] at h ⊢
      by_cases h2 : total ≥ 2 ^ (s.depth + 1)
      · rw [if_pos h2] at h ⊢
        by_cases h3 : s.depth + 2 > 30
        · simp [h3] at h
        · rw [if_neg h3] at h ⊢
          obtain ⟨r', e1, e2, e3, e4, e5, e6, e7⟩ := ih s.addNewLayer s' r.addNewLayer h
            (by simp [Tree.addNewLayer, hd]) (addNewLayer_len s hl) (addNewLayer_len r hr)
          refine ⟨r', e1, e2, by simp [e3, Tree.addNewLayer], ?_, e5, e6, ?_⟩
          · simp [Tree.addNewLayer] at e4; omega
          · rw [e7]
            simp only [Tree.addNewLayer] at e4 ⊢
            rw [List.append_assoc, List.replicate_append_replicate, hr, hd]
            congr 2
            have i1 : 2 ^ (s.depth + 1) ≤ 2 ^ (s.depth + 1 + 1) := Nat.pow_le_pow_right (by omega) (by omega)
            have i2 : 2 ^ (s.depth + 1 + 1) ≤ 2 ^ (s'.depth + 1) := Nat.pow_le_pow_right (by omega) (by omega)
            omega
      · rw [if_neg h2] at h ⊢
        simp only [Outcome.ok.injEq] at h
        subst h
        exact ⟨r, rfl, hd, rfl, Nat.le_refl _, rfl, rfl, by simp⟩

theorem getElem?_append_replicate_elems (ns : List (Node α)) (k c u : Nat) :
    ((ns ++ List.replicate k (⟨c, []⟩ : Node α))[u]?.map Node.elems).getD [] =
      (ns[u]?.map Node.elems).getD [] := by
  by_cases hu : u < ns.length
  · rw [List.getElem?_append_left hu]
  · rw [List.getElem?_append_right (by omega), List.getElem?_replicate,
      List.getElem?_eq_none (by omega)]
    split <;> simp

theorem assignNodes_spec (ind : List Nat) : ∀ (news ns : List (Node γ)),
    news.length = ind.length → ind.Nodup → (∀ u ∈ ind, u < ns.length) →
    ∃ ns', assignNodes ind news ns = .ok ns' ∧ ns'.length = ns.length ∧
      (∀ u : Nat, u ∉ ind → ns'[u]? = ns[u]?) ∧
      (∀ i u : Nat, ind[i]? = some u → ns'[u]? = news[i]?) := by
  induction ind with
  | nil =>
    intro news ns h1 h2 h3
    have : news = [] := by simpa using h1
    subst this
    exact ⟨ns, by simp [assignNodes], rfl, fun _ _ => rfl, by simp⟩
  | cons v ind ih =>
    intro news ns h1 h2 h3
    match news, h1 with
    | n :: news, h1 =>
      have hv := h3 v (by simp)
      have hnd := List.nodup_cons.1 h2
      obtain ⟨ns', e1, e2, e3, e4⟩ := ih news (ns.set v n) (by simpa using h1) hnd.2
        (by intro u hu; simpa using h3 u (by simp [hu]))
      refine ⟨ns', ?_, by simpa using e2, ?_, ?_⟩
      · simp only [assignNodes, if_pos hv, e1]
      · intro u hu
        simp only [List.mem_cons, not_or] at hu
        rw [e3 u hu.2, List.getElem?_set_ne (Ne.symm hu.1)]
      · intro i u hi
        cases i with
        | zero =>
          simp only [List.getElem?_cons_zero, Option.some.injEq] at hi ⊢
          subst hi
          rw [e3 v hnd.1, List.getElem?_set_self hv]
        | succ i =>
          simp only [List.getElem?_cons_succ] at hi ⊢
          exact e4 i u hi

theorem encNodes_spec {enc : Nat → Nat → α → Outcome ω} {pads : Nat → Nat → α} (ns : List (Node α)) :
    ∀ (k : Nat) (ws : List (List ω)), encNodes enc pads k ns = .ok ws →
    ws.length = ns.length ∧
    ∀ (i : Nat) (n : Node α), ns[i]? = some n →
      ∃ w, ws[i]? = some w ∧ encNode (enc (k + i)) (pads (k + i)) n = .ok w := by
  induction ns with
  | nil => intro k ws h; simp [encNodes] at h; subst h; simp
  | cons n ns ih =>
    intro k ws h
    simp only [encNodes, Outcome.bind_eq_ok, Outcome.pure_eq, Outcome.ok.injEq] at h
    obtain ⟨w, hw, ws', hws, rfl⟩ := h
    obtain ⟨l1, l2⟩ := ih (k + 1) ws' hws
    refine ⟨by simp [l1], ?_⟩
    intro i m hm
    cases i with
    | zero =>
      simp only [List.getElem?_cons_zero, Option.some.injEq] at hm
      subst hm
      exact ⟨w, by simp, by simpa using hw⟩
    | succ i =>
      simp only [List.getElem?_cons_succ] at hm
      obtain ⟨w', h1, h2⟩ := l2 i m hm
      exact ⟨w', by simpa using h1, by rw [← h2]; congr 1 <;> congr 1 <;> omega⟩

theorem deserNodes_spec {deser : ω → Outcome γ} (ws : List (List ω)) :
    ∀ (cs : List (Node γ)), deserNodes deser ws = .ok cs →
    cs.length = ws.length ∧
    ∀ (i : Nat) (w : List ω), ws[i]? = some w →
      ∃ c, cs[i]? = some ⟨c.length, c⟩ ∧ deserElems deser w = .ok c := by
  induction ws with
  | nil => intro cs h; simp [deserNodes] at h; subst h; simp
  | cons w ws ih =>
    intro cs h
    simp only [deserNodes, Outcome.bind_eq_ok, Outcome.pure_eq, Outcome.ok.injEq] at h
    obtain ⟨c, hc, cs', hcs, rfl⟩ := h
    obtain ⟨l1, l2⟩ := ih cs' hcs
    refine ⟨by simp [l1], ?_⟩
    intro i m hm
    cases i with
    | zero =>
      simp only [List.getElem?_cons_zero, Option.some.injEq] at hm
      subst hm
      exact ⟨c, by simp, hc⟩
    | succ i =>
      simp only [List.getElem?_cons_succ] at hm
      obtain ⟨c', h1, h2⟩ := l2 i m hm
      exact ⟨c', by simpa using h1, h2⟩

theorem encElems_length {enc : Nat → α → Outcome ω} (as : List α) : ∀ (j : Nat) (ws : List ω),
    encElems enc j as = .ok ws → ws.length = as.length := by
  induction as with
  | nil => intro j ws h; simp [encElems] at h; subst h; rfl
  | cons a as ih =>
    intro j ws h
    simp only [encElems, Outcome.bind_eq_ok, Outcome.pure_eq, Outcome.ok.injEq] at h
    obtain ⟨w, hw, ws', hws, rfl⟩ := h
    simp [ih _ _ hws]

theorem enc_deser_elems {enc : Nat → α → Outcome ω} {deser : ω → Outcome γ} {Enc : α → γ → Prop}
    (as : List α) (hE : ∀ j, ∀ a ∈ as, ∀ w c, enc j a = .ok w → deser w = .ok c → Enc a c) :
    ∀ (j : Nat) (ws : List ω) (cs : List γ), encElems enc j as = .ok ws →
    deserElems deser ws = .ok cs → List.Forall₂ Enc as cs := by
  induction as with
  | nil =>
    intro j ws cs h1 h2
    simp [encElems] at h1; subst h1
    simp [deserElems] at h2; subst h2
    exact List.Forall₂.nil
  | cons a as ih =>
    intro j ws cs h1 h2
    simp only [encElems, Outcome.bind_eq_ok, Outcome.pure_eq, Outcome.ok.injEq] at h1
    obtain ⟨w, hw, ws', hws, rfl⟩ := h1
    simp only [deserElems, Outcome.bind_eq_ok, Outcome.pure_eq, Outcome.ok.injEq] at h2
    obtain ⟨c, hc, cs', hcs, rfl⟩ := h2
    exact List.Forall₂.cons (hE j a (by simp) w c hw hc)
      (ih (fun j a ha => hE j a (by simp [ha])) (j + 1) ws' cs' hws hcs)

theorem encNode_mirror {enc : Nat → α → Outcome ω} {deser : ω → Outcome γ} {pads : Nat → α}
    {Enc : α → γ → Prop} {isPad : α → Prop} {n : Node α}
    (hcap : n.elems.length ≤ n.cap) (hp : ∀ i, isPad (pads i))
    (hE : ∀ j a, (a ∈ n.elems ∨ isPad a) → ∀ w c, enc j a = .ok w → deser w = .ok c → Enc a c)
    {w : List ω} {c : List γ} (h1 : encNode enc pads n = .ok w) (h2 : deserElems deser w = .ok c) :
    NodeMirror Enc isPad n.elems c := by
  simp only [encNode, Outcome.bind_eq_ok, Outcome.pure_eq, Outcome.ok.injEq] at h1
  obtain ⟨ws, hws, rfl⟩ := h1
  have hlen := encElems_length _ _ _ hws
  have hlen2 : (padNode n pads).elems.length = n.cap := by
    simp [padNode]; omega
  rw [List.take_of_length_le (by omega)] at h2
  refine ⟨(List.range (n.cap - n.elems.length)).map pads, ?_, ?_⟩
  · intro p hpm
    obtain ⟨i, _, rfl⟩ := List.mem_map.1 hpm
    exact hp i
  · refine enc_deser_elems _ ?_ 0 ws c hws h2
    intro j a ha
    apply hE
    simp only [List.mem_append, List.mem_map] at ha
    rcases ha with ha | ⟨i, _, rfl⟩
    · exact Or.inl ha
    · exact Or.inr (hp i)

/-- One update keeps the receiver a mirror of the sender. -/
theorem mirror_step {hashOf : α → List Bool} {post : List α → List α}
    (hpost : PostOK hashOf post) (hh : ∀ e, 256 ≤ (hashOf e).length)
    {enc : Nat → Nat → α → Outcome ω} {pads : Nat → Nat → α} {deser : ω → Outcome γ}
    {Enc : α → γ → Prop} {isPad : α → Prop}
    (hp : ∀ i j, isPad (pads i j))
    {s : Tree α} {r : Tree γ} (hs : TWF hashOf s) (hm : Mirror Enc isPad s r)
    {es : List α} {hsh : List (List Bool)} (hb : Batch.WF (es, hsh))
    (htot : es.length + s.actualSize < 2 ^ 30)
    {x : SendResult α ω} {r' : Tree γ}
    (hE : ∀ i j a, (a ∈ x.tree.contents ∨ isPad a) →
      ∀ w c, enc i j a = .ok w → deser w = .ok c → Enc a c)
    (hx : sendUpdate hashOf post enc pads s es hsh = .ok x)
    (hr : recvUpdate deser r x.msg = .ok r') :
    TWF hashOf x.tree ∧ x.tree.actualSize = s.actualSize + es.length ∧ Mirror Enc isPad x.tree r' := by
  simp only [sendUpdate, Outcome.bind_eq_ok, Outcome.pure_eq, Outcome.ok.injEq] at hx
  obtain ⟨ri, hri, ws, hws, rfl⟩ := hx
  -- sender facts
  obtain ⟨ri', k1, k2, k3, k4, k5, k6, k7, k8, k9, k10, k11⟩ :=
    insertWith_spec (M := Nat) hpost hh (fun _ => 0) (fun b => by simp [wsum]) hs hb htot
  rw [hri] at k1
  simp only [Outcome.ok.injEq] at k1
  subst k1
  refine ⟨k2, k5, ?_⟩
  -- receiver
  simp only [recvUpdate, Outcome.bind_eq_ok] at hr
  obtain ⟨cs, hcs, hrep⟩ := hr
  obtain ⟨gs, g1, g2⟩ : ∃ gs, grow es.length s = .ok gs ∧ gs.depth = ri.tree.depth := by
    simp only [insertWith, Outcome.bind_eq_ok, Outcome.pure_eq, Outcome.ok.injEq] at hri
    obtain ⟨t1, e1, l, _, nl, _, rs, _, rfl⟩ := hri
    exact ⟨t1, e1, rfl⟩
  have hrlen : r.nodes.length = 2 ^ (r.depth + 1) := by rw [hm.count, hs.nodes.len, hm.depth]
  have hgr : growGo (hsh.length + r.actualSize) 32 s = .ok gs := by
    unfold grow at g1
    rw [hm.size, hb.1]; exact g1
  obtain ⟨gr, r1, r2, r3, r3', r4, r5, r6⟩ := growGo_shape 32 s gs r hgr hm.depth hs.nodes.len hrlen
  have hd : ∀ y ∈ hsh, gr.depth ≤ y.length := by
    intro y hy; have := hb.2 y hy; have := k2.depth; omega
  simp only [replaceNodes, grow, r1, Outcome.bind_ok, leafIndices_ok hd] at hrep
  have haddr : extractPathIndices (hsh.map (leafAddr gr.depth)) = updateAddrs ri.tree.depth hsh := by
    rw [updateAddrs, r2, g2]
  rw [haddr] at hrep
  have hd' : ∀ y ∈ hsh, ri.tree.depth ≤ y.length := by rw [← g2, ← r2]; exact hd
  obtain ⟨s1, s2⟩ := updateAddrs_spec hd'
  obtain ⟨w1, w2⟩ := encNodes_spec _ _ _ hws
  obtain ⟨c1, c2⟩ := deserNodes_spec _ _ hcs
  have hgrlen : gr.nodes.length = 2 ^ (ri.tree.depth + 1) := by
    rw [r6]; simp only [List.length_append, List.length_replicate, hrlen, hm.depth, ← g2]
    have : 2 ^ (s.depth + 1) ≤ 2 ^ (gs.depth + 1) := Nat.pow_le_pow_right (by omega) (by omega)
    omega
  obtain ⟨ns', a1, a2, a3, a4⟩ := assignNodes_spec (updateAddrs ri.tree.depth hsh) cs gr.nodes
    (by rw [c1, w1, k9]) (s1.imp (fun h => by omega)) (by
      intro u hu
      obtain ⟨y, hy, ha⟩ := (s2 u).1 hu
      have := ha.le
      have := (leafAddr_bounds (hd' y hy)).2
      omega)
  simp only [a1, Outcome.bind_ok, Outcome.pure_eq, Outcome.ok.injEq] at hrep
  subst hrep
  refine ⟨by simp [r2, g2], by simp [r3, hm.size, k5, hb.1], by rw [a2, hgrlen, k2.nodes.len], ?_⟩
  intro u
  by_cases hu : u ∈ updateAddrs ri.tree.depth hsh
  · obtain ⟨i, hi⟩ := List.mem_iff_getElem?.1 hu
    have hns := a4 i u hi
    have hup := k10 i
    rw [hi] at hup
    simp only [Option.bind_some] at hup
    have hulen : u < ri.tree.nodes.length := by
      obtain ⟨y, hy, ha⟩ := (s2 u).1 hu
      have := ha.le
      have := (leafAddr_bounds (hd' y hy)).2
      rw [k2.nodes.len]; omega
    have hn : ri.tree.nodes[u]? = some ri.tree.nodes[u] := List.getElem?_eq_getElem hulen
    generalize ri.tree.nodes[u] = n at hn
    rw [hn] at hup
    obtain ⟨w, hw, hwn⟩ := w2 i n hup
    obtain ⟨c, hc, hcn⟩ := c2 i w hw
    have e1 : ri.tree.at u = n.elems := by simp [Tree.at, hn]
    have e2 : (Tree.at { gr with nodes := ns', actualSize := gr.actualSize + hsh.length } u) = c := by
      simp [Tree.at, hns, hc]
    rw [e1, e2]
    refine encNode_mirror (k2.nodes.room u n hn) (hp _) ?_ hwn hcn
    intro j a ha
    apply hE
    rcases ha with ha | ha
    · left
      simp only [Tree.contents, List.mem_flatMap]
      exact ⟨n, List.mem_of_getElem? hn, ha⟩
    · right; exact ha
  · have e1 : ri.tree.at u = s.at u := by
      simp only [Tree.at, k11 u hu, getElem?_append_replicate_elems]
    have e2 : (Tree.at { gr with nodes := ns', actualSize := gr.actualSize + hsh.length } u) =
        r.at u := by
      simp only [Tree.at, a3 u hu, r6, getElem?_append_replicate_elems]
    rw [e1, e2]
    exact hm.node u

end Upsi.Tree
