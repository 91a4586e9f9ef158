import Verif.Main.TreeSizes
import Verif.Setup.GenProgress
import Verif.Setup.KeySuccess
/- The sizes in bytes of the files of generated trees (helper lemmas for C86). -/
namespace Upsi.Main
open Upsi Upsi.Rec Upsi.Setup Upsi.Tree Upsi.Wire Upsi.Proto

theorem lenField_length {k : Nat} {b : Rec.Bytes} (hk : k < 15) (hb : b.length < 2 ^ 35) : (encField (k, .len b)).length ≤ b.length + 6 := by
  have h1 := writeVarint_length 1 (8 * k + 2) (by norm_num) (by norm_num; omega)
  have h2 := writeVarint_length 5 b.length (by norm_num) (by norm_num; omega)
  simp only [encField, List.length_append]
  omega

theorem varField_length {k n : Nat} (hk : k < 15) : (encField (k, .varint (enc32 n))).length ≤ 11 := by
  have h1 := writeVarint_length 1 (8 * k) (by norm_num) (by norm_num; omega)
  have h2 := writeVarint_length 10 (enc32 n) (by norm_num) (by unfold enc32; norm_num; omega)
  simp only [encField, List.length_append]
  omega

theorem repField_length {k M : Nat} (hk : k < 15) (hM : M < 2 ^ 35) : ∀ (l : List Rec.Bytes), (∀ b ∈ l, b.length ≤ M) →
    (encFields (repField k l)).length ≤ l.length * (M + 6)
  | [], _ => by simp [encFields, repField]
  | b :: l, h => by
    have h1 := repField_length hk hM l (fun x hx => h x (by simp [hx]))
    have h2 := lenField_length hk (b := b) (lt_of_le_of_lt (h b (by simp)) hM)
    have h3 := h b (by simp)
    simp only [encFields, repField, List.map_cons, List.flatMap_cons, List.length_append, List.length_cons] at h1 ⊢
    rw [Nat.add_mul]
    omega

theorem encFields_append (a b : List (Nat × WVal)) : encFields (a ++ b) = encFields a ++ encFields b := by
  simp [encFields]

theorem sizeFields_length (a b c d : Nat) : (encFields (sizeFields a b c d)).length ≤ 44 := by
  have h2 := varField_length (k := 2) (n := a) (by norm_num)
  have h3 := varField_length (k := 3) (n := b) (by norm_num)
  have h4 := varField_length (k := 4) (n := c) (by norm_num)
  have h5 := varField_length (k := 5) (n := d) (by norm_num)
  simp only [encFields, sizeFields, List.flatMap_cons, List.flatMap_nil, List.length_append, List.length_nil]
  omega

/-- The first string may be longer than the others. -/
theorem repField_length_head {k A M : Nat} (hk : k < 15) (hA : A < 2 ^ 35) (hM : M < 2 ^ 35) (l : List Rec.Bytes)
    (h : ∀ u b, l[u]? = some b → b.length ≤ if u = 0 then A else M) : (encFields (repField k l)).length ≤ A + 6 + l.length * (M + 6) := by
  cases l with
  | nil => simp [encFields, repField]
  | cons b l =>
    have h0 := h 0 b rfl
    rw [if_pos rfl] at h0
    have h1 := lenField_length hk (b := b) (lt_of_le_of_lt h0 hA)
    have h2 := repField_length hk hM l (fun x hx => by
      obtain ⟨i, hi⟩ := List.mem_iff_getElem?.1 hx
      have := h (i + 1) x hi
      rwa [if_neg (by omega)] at this)
    simp only [encFields, repField, List.map_cons, List.flatMap_cons, List.length_append, List.length_cons] at h1 h2 ⊢
    rw [Nat.add_mul]
    omega

/-- `K` nodes of at most `M` entries (the first one at most `S`) of at most `P` bytes. -/
theorem serPTree_length {t : PTree} {K M S P : Nat} (hK : t.nodes.length ≤ K)
    (hM : ∀ u n, t.nodes[u]? = some n → n.elements.length ≤ if u = 0 then S else M)
    (hP : ∀ n ∈ t.nodes, ∀ e ∈ n.elements, (serPElem e).length ≤ P) (hP35 : P < 2 ^ 35) (hN : M * (P + 6) + 11 < 2 ^ 35)
    (hS : S * (P + 6) + 11 < 2 ^ 35) :
    (serPTree t).length ≤ K * (M * (P + 6) + 17) + S * (P + 6) + 61 := by
  have hn : ∀ (u : Nat) b, (t.nodes.map serPNode)[u]? = some b → b.length ≤ if u = 0 then S * (P + 6) + 11 else M * (P + 6) + 11 := by
    intro u b hb
    rw [List.getElem?_map, Option.map_eq_some_iff] at hb
    obtain ⟨n, hn, rfl⟩ := hb
    have h1 := repField_length (k := 1) (by norm_num) hP35 (n.elements.map serPElem) (fun b hb => by
      obtain ⟨e, he, rfl⟩ := List.mem_map.1 hb
      exact hP n (List.mem_of_getElem? hn) e he)
    rw [List.length_map] at h1
    have h2 := varField_length (k := 2) (n := n.nodeSize) (by norm_num)
    have h3 := Nat.mul_le_mul_right (P + 6) (hM u n hn)
    rw [serPNode, encFields_append, List.length_append]
    have h4 : (encFields [(2, WVal.varint (enc32 n.nodeSize))]).length ≤ 11 := by simpa [encFields] using h2
    split at h3 <;> rename_i hu <;> simp only [hu, if_true, if_false] <;> omega
  have h1 := repField_length_head (k := 1) (by norm_num) hS hN _ hn
  rw [List.length_map] at h1
  have h2 := sizeFields_length t.stashSize t.nodeSize t.actualSize t.depth
  have h3 := Nat.mul_le_mul_right (M * (P + 6) + 11 + 6) hK
  have e : M * (P + 6) + 11 + 6 = M * (P + 6) + 17 := by omega
  rw [e] at h1 h3
  rw [serPTree, encFields_append, List.length_append]
  omega

theorem serETree_length {t : ETree} {K M S P : Nat} (hK : t.nodes.length ≤ K)
    (hM : ∀ u n, t.nodes[u]? = some n → n.length ≤ if u = 0 then S else M)
    (hP : ∀ n ∈ t.nodes, ∀ e ∈ n, (serElem e).length ≤ P) (hP35 : P < 2 ^ 35) (hN : M * (P + 6) + 11 < 2 ^ 35)
    (hS : S * (P + 6) + 11 < 2 ^ 35) :
    (serETree t).length ≤ K * (M * (P + 6) + 17) + S * (P + 6) + 61 := by
  have hn : ∀ (u : Nat) b, (t.nodes.map serTreeNode)[u]? = some b → b.length ≤ if u = 0 then S * (P + 6) + 11 else M * (P + 6) + 11 := by
    intro u b hb
    rw [List.getElem?_map, Option.map_eq_some_iff] at hb
    obtain ⟨n, hn, rfl⟩ := hb
    have h1 := repField_length (k := 2) (by norm_num) hP35 (n.map serElem) (fun b hb => by
      obtain ⟨e, he, rfl⟩ := List.mem_map.1 hb
      exact hP n (List.mem_of_getElem? hn) e he)
    rw [List.length_map] at h1
    have h3 := Nat.mul_le_mul_right (P + 6) (hM u n hn)
    rw [serTreeNode]
    split at h3 <;> rename_i hu <;> simp only [hu, if_true, if_false] <;> omega
  have h1 := repField_length_head (k := 1) (by norm_num) hS hN _ hn
  rw [List.length_map] at h1
  have h2 := sizeFields_length t.stashSize t.nodeSize t.actualSize t.depth
  have h3 := Nat.mul_le_mul_right (M * (P + 6) + 11 + 6) hK
  have e : M * (P + 6) + 11 + 6 = M * (P + 6) + 17 := by omega
  rw [e] at h1 h3
  rw [serETree, encFields_append, List.length_append]
  omega

/-! ### the nodes of generated trees -/

theorem serElems_mem {enc : α → Outcome PElem} : ∀ {es : List α} {ps : List PElem}, serElems enc es = .ok ps →
    ps.length = es.length ∧ ∀ p ∈ ps, ∃ a ∈ es, enc a = .ok p := by
  intro es
  induction es with
  | nil => intro ps h; simp only [serElems, Outcome.ok.injEq] at h; subst h; simp
  | cons a es ih =>
    intro ps h
    simp only [serElems, Outcome.bind_eq_ok, Outcome.pure_eq, Outcome.ok.injEq] at h
    obtain ⟨p, hp, r, hr, rfl⟩ := h
    obtain ⟨h1, h2⟩ := ih hr
    refine ⟨by simp [h1], fun x hx => ?_⟩
    rcases List.mem_cons.1 hx with rfl | hx
    · exact ⟨a, by simp, hp⟩
    · obtain ⟨b, hb, e⟩ := h2 x hx
      exact ⟨b, by simp [hb], e⟩

theorem serNodes_get {enc : α → Outcome PElem} : ∀ {ns : List (Node α)} {ps : List PNode}, serNodes enc ns = .ok ps →
    ps.length = ns.length ∧ ∀ (u : Nat) p, ps[u]? = some p → ∃ n, ns[u]? = some n ∧ serElems enc n.elems = .ok p.elements := by
  intro ns
  induction ns with
  | nil => intro ps h; simp only [serNodes, Outcome.ok.injEq] at h; subst h; simp
  | cons n ns ih =>
    intro ps h
    simp only [serNodes, serNode, Outcome.bind_eq_ok, Outcome.pure_eq, Outcome.ok.injEq] at h
    obtain ⟨x, ⟨es, he, rfl⟩, r, hr, rfl⟩ := h
    obtain ⟨h1, h2⟩ := ih hr
    refine ⟨by simp [h1], fun u p hp => ?_⟩
    cases u with
    | zero => obtain rfl := Option.some.inj hp; exact ⟨n, rfl, he⟩
    | succ u => exact h2 u p hp

theorem serEncElems_mem {ser : γ → Outcome EncElem} : ∀ {es : List γ} {ps : List EncElem}, serEncElems ser es = .ok ps →
    ps.length = es.length ∧ ∀ p ∈ ps, ∃ a ∈ es, ser a = .ok p := by
  intro es
  induction es with
  | nil => intro ps h; simp only [serEncElems, Outcome.ok.injEq] at h; subst h; simp
  | cons a es ih =>
    intro ps h
    simp only [serEncElems, Outcome.bind_eq_ok, Outcome.pure_eq, Outcome.ok.injEq] at h
    obtain ⟨p, hp, r, hr, rfl⟩ := h
    obtain ⟨h1, h2⟩ := ih hr
    refine ⟨by simp [h1], fun x hx => ?_⟩
    rcases List.mem_cons.1 hx with rfl | hx
    · exact ⟨a, by simp, hp⟩
    · obtain ⟨b, hb, e⟩ := h2 x hx
      exact ⟨b, by simp [hb], e⟩

theorem serEncNodes_get {ser : γ → Outcome EncElem} : ∀ {ns : List (Node γ)} {ps : List (List EncElem)}, serEncNodes ser ns = .ok ps →
    ps.length = ns.length ∧ ∀ (u : Nat) p, ps[u]? = some p → ∃ n, ns[u]? = some n ∧ serEncElems ser n.elems = .ok p := by
  intro ns
  induction ns with
  | nil => intro ps h; simp only [serEncNodes, Outcome.ok.injEq] at h; subst h; simp
  | cons n ns ih =>
    intro ps h
    simp only [serEncNodes, Outcome.bind_eq_ok, Outcome.pure_eq, Outcome.ok.injEq] at h
    obtain ⟨es, he, r, hr, rfl⟩ := h
    obtain ⟨h1, h2⟩ := ih hr
    refine ⟨by simp [h1], fun u p hp => ?_⟩
    cases u with
    | zero => obtain rfl := Option.some.inj hp; exact ⟨n, rfl, he⟩
    | succ u => exact h2 u p hp

theorem deserElems_len {deser : ω → Outcome γ} : ∀ {ws : List ω} {cs : List γ}, deserElems deser ws = .ok cs → cs.length = ws.length := by
  intro ws
  induction ws with
  | nil => intro cs h; simp only [deserElems, Outcome.ok.injEq] at h; subst h; rfl
  | cons w ws ih =>
    intro cs h
    simp only [deserElems, Outcome.bind_eq_ok, Outcome.pure_eq, Outcome.ok.injEq] at h
    obtain ⟨c, _, r, hr, rfl⟩ := h
    simp [ih hr]

theorem deserNodes_get {deser : ω → Outcome γ} : ∀ {ws : List (List ω)} {ns : List (Node γ)}, deserNodes deser ws = .ok ns →
    ns.length = ws.length ∧ ∀ (u : Nat) n, ns[u]? = some n → ∃ w, ws[u]? = some w ∧ n.elems.length = w.length := by
  intro ws
  induction ws with
  | nil => intro ns h; simp only [deserNodes, Outcome.ok.injEq] at h; subst h; simp
  | cons w ws ih =>
    intro ns h
    simp only [deserNodes, Outcome.bind_eq_ok, Outcome.pure_eq, Outcome.ok.injEq] at h
    obtain ⟨c, hc, r, hr, rfl⟩ := h
    obtain ⟨h1, h2⟩ := ih hr
    refine ⟨by simp [h1], fun u n hn => ?_⟩
    cases u with
    | zero => obtain rfl := Option.some.inj hn; exact ⟨w, rfl, deserElems_len hc⟩
    | succ u => exact h2 u n hn

/-- What a copy holds at a node fits the node of the tree. -/
theorem recv_room {hashOf : α → List Bool} {post : List α → List α}
    (hpost : PostOK hashOf post) (hh : ∀ e, 256 ≤ (hashOf e).length)
    {enc : Nat → Nat → α → Outcome ω} {pads : Nat → Nat → α} {deser : ω → Outcome γ}
    {s : Upsi.Tree.Tree α} {r : Upsi.Tree.Tree γ} (hs : TWF hashOf s) (hm : Props.SameShape s r)
    (hroom : ∀ u, (r.at u).length ≤ if u = 0 then s.stashSize else s.nodeSize)
    {es : List α} {hsh : List (List Bool)} (hb : Batch.WF (es, hsh))
    (htot : es.length + s.actualSize < 2 ^ 30)
    {x : SendResult α ω} {r' : Upsi.Tree.Tree γ}
    (hx : sendUpdate hashOf post enc pads s es hsh = .ok x)
    (hr : recvUpdate deser r x.msg = .ok r') : r'.nodes.length = x.tree.nodes.length ∧
    ∀ u, (r'.at u).length ≤ if u = 0 then s.stashSize else s.nodeSize := by
  simp only [sendUpdate, Outcome.bind_eq_ok, Outcome.pure_eq, Outcome.ok.injEq] at hx
  obtain ⟨ri, hri, ws, hws, rfl⟩ := hx
  -- sender facts
  obtain ⟨ri', k1, k2, k3, k4, k5, k6, k7, k8, k9, k10, k11⟩ :=
    insertWith_spec (M := Nat) hpost hh (fun _ => 0) (fun b => by simp [wsum]) hs hb htot
  rw [hri] at k1
  simp only [Outcome.ok.injEq] at k1
  subst k1
  -- receiver
  simp only [recvUpdate, Outcome.bind_eq_ok] at hr
  obtain ⟨cs, hcs, hrep⟩ := hr
  obtain ⟨gs, g1, g2⟩ : ∃ gs, grow es.length s = .ok gs ∧ gs.depth = ri.tree.depth := by
    simp only [insertWith, Outcome.bind_eq_ok, Outcome.pure_eq, Outcome.ok.injEq] at hri
    obtain ⟨t1, e1, l, _, nl, _, rs, _, rfl⟩ := hri
    exact ⟨t1, e1, rfl⟩
  have hrlen : r.nodes.length = 2 ^ (r.depth + 1) := by rw [hm.count, hs.nodes.len, hm.depth]
  have hgr : growGo (hsh.length + r.actualSize) 32 s = .ok gs := by
    unfold grow at g1
    rw [hm.size, hb.1]; exact g1
  obtain ⟨gr, r1, r2, r3, r3', r4, r5, r6⟩ := growGo_shape 32 s gs r hgr hm.depth hs.nodes.len hrlen
  have hd : ∀ y ∈ hsh, gr.depth ≤ y.length := by
    intro y hy; have := hb.2 y hy; have := k2.depth; omega
  simp only [replaceNodes, grow, r1, Outcome.bind_ok, leafIndices_ok hd] at hrep
  have haddr : extractPathIndices (hsh.map (leafAddr gr.depth)) = updateAddrs ri.tree.depth hsh := by
    rw [updateAddrs, r2, g2]
  rw [haddr] at hrep
  have hd' : ∀ y ∈ hsh, ri.tree.depth ≤ y.length := by rw [← g2, ← r2]; exact hd
  obtain ⟨s1, s2⟩ := updateAddrs_spec hd'
  obtain ⟨w1, w2⟩ := encNodes_spec _ _ _ hws
  obtain ⟨c1, c2⟩ := deserNodes_spec _ _ hcs
  have hgrlen : gr.nodes.length = 2 ^ (ri.tree.depth + 1) := by
    rw [r6]; simp only [List.length_append, List.length_replicate, hrlen, hm.depth, ← g2]
    have : 2 ^ (s.depth + 1) ≤ 2 ^ (gs.depth + 1) := Nat.pow_le_pow_right (by omega) (by omega)
    omega
  obtain ⟨ns', a1, a2, a3, a4⟩ := assignNodes_spec (updateAddrs ri.tree.depth hsh) cs gr.nodes
    (by rw [c1, w1, k9]) (s1.imp (fun h => by omega)) (by
      intro u hu
      obtain ⟨y, hy, ha⟩ := (s2 u).1 hu
      have := ha.le
      have := (leafAddr_bounds (hd' y hy)).2
      omega)
  simp only [a1, Outcome.bind_ok, Outcome.pure_eq, Outcome.ok.injEq] at hrep
  subst hrep
  refine ⟨by rw [a2, hgrlen, k2.nodes.len], fun u => ?_⟩
  by_cases hu : u ∈ updateAddrs ri.tree.depth hsh
  · obtain ⟨i, hi⟩ := List.mem_iff_getElem?.1 hu
    have hns := a4 i u hi
    have hup := k10 i
    rw [hi] at hup
    simp only [Option.bind_some] at hup
    have hulen : u < ri.tree.nodes.length := by
      obtain ⟨y, hy, ha⟩ := (s2 u).1 hu
      have := ha.le
      have := (leafAddr_bounds (hd' y hy)).2
      rw [k2.nodes.len]; omega
    have hn : ri.tree.nodes[u]? = some ri.tree.nodes[u] := List.getElem?_eq_getElem hulen
    generalize ri.tree.nodes[u] = n at hn
    rw [hn] at hup
    obtain ⟨w, hw, hwn⟩ := w2 i n hup
    obtain ⟨c, hc, hcn⟩ := c2 i w hw
    have e2 : (Tree.at { gr with nodes := ns', actualSize := gr.actualSize + hsh.length } u) = c := by
      simp [Tree.at, hns, hc]
    rw [e2]
    have hl := deserElems_len hcn
    have hcap := k2.nodes.caps u n hn
    rw [k3, k4] at hcap
    simp only [encNode, Outcome.bind_eq_ok, Outcome.pure_eq, Outcome.ok.injEq] at hwn
    obtain ⟨v, _, rfl⟩ := hwn
    rw [← hcap, hl]
    exact List.length_take_le _ _
  · have e2 : (Tree.at { gr with nodes := ns', actualSize := gr.actualSize + hsh.length } u) = r.at u := by
      simp only [Tree.at, a3 u hu, r6, getElem?_append_replicate_elems]
    rw [e2]
    exact hroom u

/-- The files of generated trees: at most `2 n` nodes for `n > 0` elements. -/
theorem generateTrees_bytes {hashOf : α → List Bool} (hh : ∀ e, (hashOf e).length = 256)
    {enc : Tape → α → Outcome EncElem} {deser : EncElem → Outcome γ} {ser : γ → Outcome EncElem}
    {encP : α → Outcome PElem} {stash node P : Nat} {data : List α} {ρ : TreeCoins α} (hb : Batch.WF (data, ρ.hsh))
    (hsz : data.length < 2 ^ 30) (hpos : 0 < data.length)
    (hP : ∀ a ∈ data, ∀ p, encP a = .ok p → (serPElem p).length ≤ P) (hE : ∀ x w, ser x = .ok w → (serElem w).length ≤ P)
    (hP35 : P < 2 ^ 35) (hlim : 2 * data.length * (node * (P + 6) + 17) + stash * (P + 6) + 61 < 2 ^ 31) {t : TreeFiles} {lost : List α}
    (h : generateTrees hashOf id enc deser ser encP stash node data ρ = .ok (t, lost)) :
    (serPTree t.plain).length < 2 ^ 31 ∧ (serETree t.enc).length < 2 ^ 31 := by
  simp only [generateTrees, Outcome.bind_eq_ok, Outcome.pure_eq, Outcome.ok.injEq, Prod.mk.injEq] at h
  obtain ⟨x, hx, r, hr, p, hp, e, he, rfl, rfl⟩ := h
  have hh' : ∀ a, 256 ≤ (hashOf a).length := fun a => by rw [hh]
  simp only [sendUpdate, Outcome.bind_eq_ok, Outcome.pure_eq, Outcome.ok.injEq] at hx
  obtain ⟨ri, hri, ws, hws, rfl⟩ := hx
  have hs : data.length + (Tree.empty stash node : Upsi.Tree.Tree α).actualSize < 2 ^ 30 := by simpa [Tree.empty] using hsz
  obtain ⟨ri', k1, k2, k3, k4, k5, k6, k7, -, k9, k10, -⟩ :=
    insertWith_spec (M := Nat) (PostOK.id _) hh' (fun _ => 0) (fun b => by simp [wsum]) (empty_wf hashOf stash node) hb hs
  obtain rfl := Outcome.ok.inj (hri.symm.trans k1)
  have hmem := stored_mem hh hb hsz hri
  simp only [Tree.empty] at k3 k4 k5 k6 k7
  -- the number of nodes
  have hK : ∀ d, d ≤ Nat.log2 data.length → 2 ^ (d + 1) ≤ 2 * data.length := by
    intro d hd
    have h1 : 2 ^ d ≤ 2 ^ Nat.log2 data.length := Nat.pow_le_pow_right (by norm_num) hd
    have h2 := Nat.log2_self_le (n := data.length) (by omega)
    rw [pow_succ]; omega
  have hlog : data.length + 0 < 2 ^ (Nat.log2 data.length + 1) := by
    have := Nat.lt_log2_self (n := data.length); simpa using this
  have hN1 : node * (P + 6) + 17 ≤ 2 * data.length * (node * (P + 6) + 17) := Nat.le_mul_of_pos_left _ (by omega)
  simp only [serialize, Outcome.bind_eq_ok, Outcome.pure_eq, Outcome.ok.injEq] at hp
  obtain ⟨ps, hps, rfl⟩ := hp
  simp only [serializeEnc, Outcome.bind_eq_ok, Outcome.pure_eq, Outcome.ok.injEq] at he
  obtain ⟨es, hes, rfl⟩ := he
  obtain ⟨a1, a2⟩ := serNodes_get hps
  obtain ⟨b1, b2⟩ := serEncNodes_get hes
  have capsOK : ∀ (u : Nat) (n : Node α), ri.tree.nodes[u]? = some n → n.cap = if u = 0 then stash else node := by
    intro u n hn
    have := k2.nodes.caps u n hn
    rwa [k3, k4] at this
  constructor
  · refine lt_of_le_of_lt (serPTree_length (K := 2 * data.length) (M := node) (S := stash) (P := P) ?_ (fun u p hp => ?_) (fun p hp e he => ?_) hP35
      (by omega) (by omega)) hlim
    · rw [a1, k2.nodes.len]; exact hK _ (k7 _ (by simp) hlog)
    · obtain ⟨n, hn, he⟩ := a2 u p hp
      rw [(serElems_mem he).1, ← capsOK u n hn]
      exact k2.nodes.room u n hn
    · obtain ⟨u, hu⟩ := List.mem_iff_getElem?.1 hp
      obtain ⟨n, hn, hs⟩ := a2 u p hu
      obtain ⟨a, ha, h2⟩ := (serElems_mem hs).2 e he
      exact hP a (hmem a (List.mem_flatMap.2 ⟨n, List.mem_of_getElem? hn, ha⟩)) e h2
  · have hx : sendUpdate hashOf id (fun i j => enc (ρ.enc i j)) ρ.pads (Tree.empty stash node) data ρ.hsh =
        .ok { tree := ri.tree, msg := { hashes := ρ.hsh, nodes := ws }, lost := ri.lost } := by
      simp only [sendUpdate, hri, hws, Outcome.bind_ok, Outcome.pure_eq]
    obtain ⟨q1, q2⟩ := recv_room (PostOK.id _) hh' (empty_wf hashOf stash node)
      (mirror_shape (mirror_empty (fun (_ : α) (_ : γ) => True) (fun _ => True) stash node stash node))
      (fun u => by
        have : (Tree.empty stash node : Upsi.Tree.Tree γ).at u = [] := by
          match u with
          | 0 => rfl
          | 1 => rfl
          | u + 2 => rfl
        rw [this]; simp) hb hs hx hr
    refine lt_of_le_of_lt (serETree_length (K := 2 * data.length) (M := node) (S := stash) (P := P) ?_ (fun u p hp => ?_) (fun p hp e he => ?_) hP35
      (by omega) (by omega)) hlim
    · rw [b1, q1, k2.nodes.len]; exact hK _ (k7 _ (by simp) hlog)
    · obtain ⟨n, hn, he⟩ := b2 u p hp
      rw [(serEncElems_mem he).1]
      have := q2 u
      simpa [Tree.at, hn, Tree.empty] using this
    · obtain ⟨u, hu⟩ := List.mem_iff_getElem?.1 hp
      obtain ⟨n, hn, hs⟩ := b2 u p hu
      obtain ⟨a, ha, h2⟩ := (serEncElems_mem hs).2 e he
      exact hE a e h2

end Upsi.Main
