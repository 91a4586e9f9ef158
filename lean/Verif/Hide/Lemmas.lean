import Verif.Hide.Model
/- Lemmas for C79: a conversation is a function of its ciphertexts and of public data. -/
namespace Upsi.Hide
open Upsi Upsi.ElGamal Upsi.Tree Upsi.Num Upsi.Proto Upsi.View Upsi.Tree.Props

theorem forIdx_congr2 {α α' β : Type} {f : Nat → α → Outcome β} {f' : Nat → α' → Outcome β} :
    ∀ (l : List α) (l' : List α') (k : Nat), l.length = l'.length →
    (∀ i a a', l[i]? = some a → l'[i]? = some a' → f (k + i) a = f' (k + i) a') → forIdx f k l = forIdx f' k l'
  | [], [], _, _, _ => rfl
  | [], _ :: _, _, h, _ => by simp at h
  | _ :: _, [], _, h, _ => by simp at h
  | a :: l, a' :: l', k, h, hf => by
    have h0 : f k a = f' k a' := hf 0 a a' rfl rfl
    rw [forIdx, forIdx, h0, forIdx_congr2 l l' (k + 1) (by simpa using h)
      (fun i b b' hb hb' => by
        have := hf (i + 1) b b' (by simpa using hb) (by simpa using hb')
        rwa [show k + (i + 1) = k + 1 + i by omega] at this)]

theorem encElems_forIdx {α ω : Type} (enc : Nat → α → Outcome ω) (l : List α) : ∀ j, encElems enc j l = forIdx enc j l := by
  induction l with
  | nil => intro j; rfl
  | cons a l ih => intro j; rw [encElems, forIdx, ih]

theorem encNode_forIdx {α ω : Type} {enc : Nat → α → Outcome ω} {pads : Nat → α} {n : Node α} (hcap : n.elems.length ≤ n.cap) :
    encNode enc pads n = forIdx enc 0 (padNode n pads).elems := by
  rw [encNode, encElems_forIdx]
  cases h : forIdx enc 0 (padNode n pads).elems with
  | ok ws =>
    have hl : ws.length = n.cap := by
      have := encElems_length _ _ _ ((encElems_forIdx enc _ 0).trans h)
      rw [this]; simp [padNode]; omega
    rw [Outcome.bind_ok, Outcome.pure_eq, List.take_of_length_le (by omega)]
  | err e => rfl
  | abort => rfl
  | ub => rfl

theorem padNode_length {α : Type} {pads : Nat → α} {n : Node α} (hcap : n.elems.length ≤ n.cap) : (padNode n pads).elems.length = n.cap := by
  simp [padNode]; omega

theorem encNodes_forIdx {α ω : Type} {enc : Nat → Nat → α → Outcome ω} {pads : Nat → Nat → α} (ns : List (Node α))
    (h : ∀ n ∈ ns, n.elems.length ≤ n.cap) : ∀ i, encNodes enc pads i ns = forIdx (fun i n => forIdx (enc i) 0 (padNode n (pads i)).elems) i ns := by
  induction ns with
  | nil => intro i; rfl
  | cons n ns ih =>
    intro i
    rw [encNodes, forIdx, encNode_forIdx (h n (by simp)), ih (fun m hm => h m (by simp [hm]))]

theorem growGo_depth {α : Type} {total : Nat} : ∀ (f : Nat) (t t' : Upsi.Tree.Tree α), growGo total f t = .ok t' → t'.depth ≤ 29
  | 0, t, t', h => by simp [growGo] at h
  | f + 1, t, t', h => by
    rw [growGo] at h
    split at h
    · simp at h
    · split at h
      · split at h
        · simp at h
        · exact growGo_depth f _ _ h
      · rename_i h1 h2
        simp only [Outcome.ok.injEq] at h
        subst h; omega

theorem recvUpdate_depth {ω γ : Type} {deser : ω → Outcome γ} {t t' : Upsi.Tree.Tree γ} {m : Msg ω} (h : recvUpdate deser t m = .ok t') :
    t'.depth ≤ 29 := by
  simp only [recvUpdate, replaceNodes, Outcome.bind_eq_ok, Outcome.pure_eq, Outcome.ok.injEq] at h
  obtain ⟨ns, -, t1, h1, -, -, -, -, rfl⟩ := h
  show t1.depth ≤ 29
  exact growGo_depth _ _ t1 h1

theorem growGo_count {α : Type} {total : Nat} : ∀ (f : Nat) (t t' : Upsi.Tree.Tree α), t.nodes.length = 2 ^ (t.depth + 1) →
    growGo total f t = .ok t' → t'.nodes.length = 2 ^ (t'.depth + 1)
  | 0, t, t', _, h => by simp [growGo] at h
  | f + 1, t, t', hc, h => by
    rw [growGo] at h
    split at h
    · simp at h
    · split at h
      · split at h
        · simp at h
        · refine growGo_count f _ _ ?_ h
          simp only [Tree.addNewLayer, List.length_append, List.length_replicate, hc]
          rw [Nat.pow_succ 2 (t.depth + 1)]; omega
      · simp only [Outcome.ok.injEq] at h
        subst h; exact hc

theorem assignNodes_count {α : Type} : ∀ (us : List Nat) (news ns ns' : List (Node α)), assignNodes us news ns = .ok ns' → ns'.length = ns.length
  | _, [], ns, ns', h => by simp only [assignNodes, Outcome.ok.injEq] at h; rw [h]
  | [], _ :: _, _, _, h => by simp [assignNodes] at h
  | u :: us, n :: news, ns, ns', h => by
    rw [assignNodes] at h
    split at h
    · have := assignNodes_count us news _ _ h
      simpa using this
    · simp at h

theorem recvUpdate_count {ω γ : Type} {deser : ω → Outcome γ} {t t' : Upsi.Tree.Tree γ} {m : Msg ω} (hc : t.nodes.length = 2 ^ (t.depth + 1))
    (h : recvUpdate deser t m = .ok t') : t'.nodes.length = 2 ^ (t'.depth + 1) := by
  simp only [recvUpdate, replaceNodes, Outcome.bind_eq_ok, Outcome.pure_eq, Outcome.ok.injEq] at h
  obtain ⟨ns, -, t1, h1, leaves, -, ns', h2, rfl⟩ := h
  have := growGo_count _ _ t1 hc h1
  rw [assignNodes_count _ _ _ _ h2]
  exact this

/-- A copy of a tree in which every path can be read. -/
structure Whole {α : Type} (o : Upsi.Tree.Tree α) : Prop where
  count : o.nodes.length = 2 ^ (o.depth + 1)
  depth : o.depth ≤ 29

theorem Whole.path {α : Type} {o : Upsi.Tree.Tree α} (h : Whole o) {b : List Bool} (hb : b.length = 256) :
    ∃ p, getPath o b = .ok p ∧ p.length = lenAt o b := by
  have := getPath_ok h.count (h := b) (by have := h.depth; omega)
  exact ⟨_, this, by rw [lenAt, this]⟩

variable {G : Type} [AddCommGroup G] [DecidableEq G] {P γ κ : Type} {F : Func G P γ κ} {g : G} {T : Nat}

theorem after_bind {α β : Type} (sent : List ProtoMsg) (o : Outcome α) (f : α → Outcome β) (k : β → Transcript) :
    after sent (o >>= f) k = after sent o (fun a => after sent (f a) k) := by cases o <;> rfl

theorem after_congr {α : Type} (sent : List ProtoMsg) (o : Outcome α) {f f' : α → Transcript} (h : ∀ a, o = .ok a → f a = f' a) :
    after sent o f = after sent o f' := by
  cases o with
  | ok a => exact h a rfl
  | err e => rfl
  | abort => rfl
  | ub => rfl

theorem recvC_whole {c : Codec G} {o o' : Upsi.Tree.Tree (Ct G)} {r : ProtoMsg} (ho : Whole o) (h : recvC F c o r = .ok o') : Whole o' := by
  simp only [recvC, Outcome.bind_eq_ok, Outcome.pure_eq, Outcome.ok.injEq] at h
  obtain ⟨o1, h, -, -, rfl⟩ := h
  exact ⟨recvUpdate_count ho.count h, recvUpdate_depth h⟩

/-- Message I is made of its ciphertexts. -/
theorem genI_msgC (L : Plain F g T) {hashOf : Nat → List Bool} {pk : PK G} (hpk : pk.g = g) {s : St0 G P}
    {es : List P} (hgood : ∀ p ∈ es, L.good p) {ρ : Coins G P κ} {r : InsertResult P}
    (hr : insertWith (fun p => hashOf (F.key p)) id s.my es ρ.hsh0 = .ok r) (hcap : ∀ n ∈ r.update, n.elems.length ≤ n.cap)
    {p : PubDay} (hp1 : p.hsh = ρ.hsh0) (hp4 : p.sizes = r.update.map Node.cap) {ct : Slot → Ct G}
    (hT : ∀ (i j k : Nat) n e, r.update[i]? = some n → (padNode n (ρ.pads0 i)).elems[j]? = some e →
      ct (.tree 0 i j k) = encrypt pk (ρ.enc0 i j k) (L.plain e k))
    (hX : ∀ (i k : Nat) e, es[i]? = some e → ct (.elem 0 i k) = encrypt pk (ρ.x0 i k) (L.plain e k))
    (hC : ∀ i j : Nat, ct (.cand 0 i j) = encrypt pk (ρ.rr i j) 0) :
    genI F hashOf pk s es ρ = (msgC L s.other (es.map (fun e => hashOf (F.key e))) p ct >>= fun m => .ok (⟨r.tree, s.other, s.lost ++ r.lost⟩, m)) := by
  have h1 : encNodes (fun i j => F.encTree pk (ρ.enc0 i j)) ρ.pads0 0 r.update =
      forIdx (fun i n => forIdx (fun j (_ : Nat) => L.entry (fun k => ct (.tree 0 i j k))) 0 (List.range n)) 0 p.sizes := by
    rw [encNodes_forIdx _ hcap, hp4]
    refine forIdx_congr2 _ _ 0 (by simp) fun i n n' hn hn' => ?_
    rw [List.getElem?_map, hn] at hn'
    simp only [Option.map_some, Option.some.injEq] at hn'
    subst hn'
    have hc := hcap n (List.mem_of_getElem? hn)
    refine forIdx_congr2 _ _ 0 (by rw [padNode_length hc, List.length_range]) fun j e _ he _ => ?_
    rw [Nat.zero_add] at he
    simp only [Nat.zero_add] at he ⊢
    rw [L.enc pk _ _ hpk]
    congr 1
    funext k
    exact (hT i j k n e hn he).symm
  have h2 : forIdx (candI F hashOf pk s.other ρ) 0 es = forIdx (fun i h => do
      let path ← getPath s.other h
      let pay ← L.pay (fun k => ct (.elem 0 i k))
      forIdx (fun j y => F.ser (mul (mul y (invert (ct (.elem 0 i 0)))) (ct (.cand 0 i j))) pay) 0 path) 0 (es.map (fun e => hashOf (F.key e))) := by
    refine forIdx_congr2 _ _ 0 (by simp) fun i e h he hh' => ?_
    rw [List.getElem?_map, he] at hh'
    simp only [Option.map_some, Option.some.injEq] at hh'
    subst hh'
    simp only [Nat.zero_add]
    rw [candI, L.payload pk _ _ hpk (hgood e (List.mem_of_getElem? he))]
    have hc : (fun k => encrypt pk (ρ.x0 i k) (L.plain e k)) = fun k => ct (.elem 0 i k) := by
      funext k; exact (hX i k e he).symm
    rw [hc]
    have h0 : encrypt pk (ρ.x0 i 0) (F.key e : Int) = ct (.elem 0 i 0) := by rw [hX i 0 e he, L.key]
    rw [h0]
    have h3 : ∀ j y, reRandomize pk (ρ.rr i j) (mul y (invert (ct (.elem 0 i 0)))) = mul (mul y (invert (ct (.elem 0 i 0)))) (ct (.cand 0 i j)) := by
      intro j y
      rw [hC, encrypt, encryptPoint, reRandomize]
      simp [mul]
    simp only [h3]
  rw [genI, sendUpdate, hr, Outcome.bind_ok, h1, h2, msgC, hp1]
  cases forIdx (fun i n => forIdx (fun j (_ : Nat) => L.entry (fun k => ct (.tree 0 i j k))) 0 (List.range n)) 0 p.sizes with
  | ok ns =>
    simp only [Outcome.bind_ok, Outcome.pure_eq]
    generalize forIdx _ 0 (es.map (fun e => hashOf (F.key e))) = o
    cases o <;> rfl
  | err e => rfl
  | abort => rfl
  | ub => rfl

theorem recvII_recvC (c : Codec G) (s : St0 G P) (m : ProtoMsg) (sent : List ProtoMsg) (k : St0 G P → Transcript) :
    after sent (recvII F c s m) (fun x => k x.1) = after sent (recvC F c s.other m) (fun o => k { s with other := o }) := by
  rw [recvII, recvC]
  cases recvUpdate (deserTreeCt c) s.other m.updates with
  | ok o =>
    simp only [Outcome.bind_ok]
    cases forIdx (fun _ w => F.deser w) 0 m.candidates <;> rfl
  | err e => rfl
  | abort => rfl
  | ub => rfl

/-- The ciphertexts of a history. -/
def cts (L : Plain F g T) (hashOf : Nat → List Bool) (pk : PK G) (t : Upsi.Tree.Tree P) (days : List (DayIn G P κ)) (coin : Slot → Int) (s : Slot) :
    Ct G := encrypt pk (coin s) (plains L hashOf t days s)

/-- The batches of a history fit the tree: one identifier of 256 bits per element, fewer than `2^30` elements. -/
def Fits (days : List (DayIn G P κ)) (n : Nat) : Prop :=
  (∀ d ∈ days, Batch.WF (d.xs, d.coins.hsh0)) ∧ (days.map (fun d => d.xs.length)).sum + n < 2 ^ 30

theorem talk_eq (L : Plain F g T) (c : Codec G) {hashOf : Nat → List Bool} (hh : ∀ e, (hashOf e).length = 256) {pk : PK G} (hpk : pk.g = g)
    (A : List ProtoMsg → Option ProtoMsg) (days : List (DayIn G P κ)) : ∀ (s : St0 G P) (sent : List ProtoMsg) (coin : Slot → Int),
    TWF (fun p => hashOf (F.key p)) s.my → Fits days s.my.actualSize → (∀ d ∈ days, ∀ p ∈ d.xs, L.good p) →
    talk F c hashOf pk A sent s (drawDays coin days) =
      talkC L c A (cts L hashOf pk s.my days coin) sent s.other (hashes F hashOf days) (pubOf s days) := by
  induction days with
  | nil => intros; rfl
  | cons d ds ih =>
    intro s sent coin ht hf hgood
    have hb : Batch.WF (d.xs, d.coins.hsh0) := hf.1 d (by simp)
    have htot : d.xs.length + s.my.actualSize < 2 ^ 30 := by
      have := hf.2
      simp only [List.map_cons, List.sum_cons] at this
      omega
    obtain ⟨r, k1, k2, k3, k4, k5, k6, k7, -, k9, k10, -⟩ := insertWith_spec (M := Nat) (PostOK.id (fun p => hashOf (F.key p)))
      (fun e => by rw [hh]) (fun _ => 0) (fun b => by simp [wsum]) ht hb htot
    have hdep : r.tree.depth = max s.my.depth (Nat.log2 (s.my.actualSize + d.coins.hsh0.length)) := by
      have hb1 : d.coins.hsh0.length = d.xs.length := hb.1
      rw [hb1, Nat.add_comm]
      refine depth_eq k6 ?_ k7
      have := k2.size
      rw [k5, Nat.add_comm] at this
      exact this
    have hnode : ∀ (i : Nat) n, r.update[i]? = some n → ∃ u, (updateAddrs r.tree.depth d.coins.hsh0)[i]? = some u ∧ r.tree.nodes[u]? = some n := by
      intro i n hn
      have := k10 i
      rw [hn] at this
      cases hu : (updateAddrs r.tree.depth d.coins.hsh0)[i]? with
      | none => rw [hu] at this; simp at this
      | some u => rw [hu] at this; exact ⟨u, rfl, this.symm⟩
    have hcap : ∀ n ∈ r.update, n.elems.length ≤ n.cap := by
      intro n hn
      obtain ⟨i, hi⟩ := List.getElem?_of_mem hn
      obtain ⟨u, -, hu⟩ := hnode i n hi
      exact k2.nodes.room u n hu
    have hsizes : (updateAddrs (max s.my.depth (Nat.log2 (s.my.actualSize + d.coins.hsh0.length))) d.coins.hsh0).map
        (fun u => if u = 0 then s.my.stashSize else s.my.nodeSize) = r.update.map Node.cap := by
      rw [← hdep]
      refine List.ext_getElem (by simp [k9]) fun i hi hi' => ?_
      simp only [List.length_map] at hi'
      obtain ⟨u, hu1, hu2⟩ := hnode i _ (List.getElem?_eq_getElem hi')
      have hl : i < (updateAddrs r.tree.depth d.coins.hsh0).length := by omega
      rw [List.getElem?_eq_getElem hl, Option.some.injEq] at hu1
      rw [List.getElem_map, List.getElem_map, hu1, k2.nodes.caps u _ hu2, k3, k4]
    rw [drawDays, talk, pubOf, hashes, idsOf, List.map_cons, List.map_cons, pubDays, talkC]
    have hg := genI_msgC (s := s) (es := d.xs) (r := r) (pk := pk)
      (ρ := { d.coins with enc0 := fun i j k => coin (.tree 0 i j k), x0 := fun i k => coin (.elem 0 i k), rr := fun i j => coin (.cand 0 i j) })
      (p := ⟨d.coins.hsh0, (updateAddrs (max s.my.depth (Nat.log2 (s.my.actualSize + d.coins.hsh0.length))) d.coins.hsh0).map
        (fun u => if u = 0 then s.my.stashSize else s.my.nodeSize)⟩)
      (ct := cts L hashOf pk s.my (d :: ds) coin) L hpk (hgood d (by simp)) k1 hcap rfl hsizes
      (fun i j k n e hn he => by
        simp only [cts, plains, k1, hn, Option.bind_some]
        rw [he]; rfl)
      (fun i k e he => by
        simp only [cts, plains, k1, he, Option.map_some, Option.getD_some])
      (fun i j => by simp only [cts, plains, k1])
    simp only [hg, after_bind]
    refine after_congr _ _ fun m _ => ?_
    show (match A (sent ++ [m]) with | none => _ | some r => _) = _
    cases A (sent ++ [m]) with
    | none => rfl
    | some rep =>
    simp only
    have h2 := recvII_recvC (F := F) c ⟨r.tree, s.other, s.lost ++ r.lost⟩ rep (sent ++ [m])
      (fun x => talk F c hashOf pk A (sent ++ [m]) x (drawDays (fun s => coin s.next) ds))
    refine h2.trans (after_congr _ _ fun o' ho' => ?_)
    have hf' : Fits ds r.tree.actualSize := by
      refine ⟨fun d' hd' => hf.1 d' (by simp [hd']), ?_⟩
      have := hf.2
      simp only [List.map_cons, List.sum_cons] at this
      rw [k5]; omega
    have := ih ⟨r.tree, o', s.lost ++ r.lost⟩ (sent ++ [m]) (fun s => coin s.next) k2 hf' (fun d' hd' => hgood d' (by simp [hd']))
    refine this.trans ?_
    have e1 : cts L hashOf pk r.tree ds (fun s => coin s.next) = fun sl => cts L hashOf pk s.my (d :: ds) coin sl.next := by
      funext sl
      cases sl <;> simp only [cts, Slot.next, plains, k1]
    rw [e1, pubOf, idsOf, k3, k4, hdep, k5]
    have hb1 : d.coins.hsh0.length = d.xs.length := hb.1
    simp only [hashes, hb1]

/-- The ciphertexts of the first day that are used. -/
theorem mem_tree {B : Nat} {p : PubDay} {ps : List PubDay} {i j k : Nat} (hi : i < p.sizes.length) (hj : j < p.sizes.getD i 0) (hk : k < T) :
    Slot.tree 0 i j k ∈ usedSlots T B 0 (p :: ps) := by
  simp only [usedSlots, List.mem_append, List.mem_flatMap, List.mem_map, List.mem_range]
  exact Or.inl ⟨i, hi, j, hj, k, hk, rfl⟩

theorem mem_elem {B : Nat} {p : PubDay} {ps : List PubDay} {i k : Nat} (hi : i < p.hsh.length) (hk : k < T) :
    Slot.elem 0 i k ∈ usedSlots T B 0 (p :: ps) := by
  simp only [usedSlots, List.mem_append, List.mem_flatMap, List.mem_map, List.mem_range]
  exact Or.inr (Or.inl ⟨i, hi, k, hk, rfl⟩)

theorem mem_cand {B : Nat} {p : PubDay} {ps : List PubDay} {i j : Nat} (hi : i < p.hsh.length) (hj : j < B) :
    Slot.cand 0 i j ∈ usedSlots T B 0 (p :: ps) := by
  simp only [usedSlots, List.mem_append, List.mem_flatMap, List.mem_map, List.mem_range]
  exact Or.inr (Or.inr (Or.inl ⟨i, hi, j, hj, rfl⟩))

theorem usedSlots_next (T B : Nat) (ps : List PubDay) : ∀ d, usedSlots T B (d + 1) ps = (usedSlots T B d ps).map Slot.next := by
  induction ps with
  | nil => intro d; rfl
  | cons p ps ih =>
    intro d
    simp only [usedSlots, ih, List.map_append, List.map_flatMap, List.map_map]
    rfl

theorem mem_next {B : Nat} {p : PubDay} {ps : List PubDay} {s : Slot} (h : s ∈ usedSlots T B 0 ps) : s.next ∈ usedSlots T B 0 (p :: ps) := by
  rw [usedSlots, usedSlots_next]
  exact List.mem_append_right _ (List.mem_append_right _ (List.mem_append_right _ (List.mem_map_of_mem h)))

/-- Every used place is of one of these kinds. -/
theorem used_cases {B : Nat} {p : PubDay} {ps : List PubDay} {s : Slot} (h : s ∈ usedSlots T B 0 (p :: ps)) :
    (∃ i j k, s = .tree 0 i j k) ∨ (∃ i k, s = .elem 0 i k) ∨ (∃ i j, s = .cand 0 i j ∧ i < p.hsh.length ∧ j < B) ∨
      ∃ s' ∈ usedSlots T B 0 ps, s = s'.next := by
  rw [usedSlots, usedSlots_next] at h
  simp only [List.mem_append, List.mem_flatMap, List.mem_map, List.mem_range] at h
  rcases h with ⟨i, -, j, -, k, -, rfl⟩ | ⟨i, -, k, -, rfl⟩ | ⟨i, hi, j, hj, rfl⟩ | ⟨s', h, rfl⟩
  · exact .inl ⟨i, j, k, rfl⟩
  · exact .inr (.inl ⟨i, k, rfl⟩)
  · exact .inr (.inr (.inl ⟨i, j, rfl, hi, hj⟩))
  · exact .inr (.inr (.inr ⟨s', h, rfl⟩))

end Upsi.Hide
