import Verif.Tree.Lemmas
/- Helper lemmas about the collect / refill loops of `insert`. -/
namespace Upsi.Tree
open Upsi

variable {α : Type}

/-! ### lists of lists -/

theorem flatten_set_perm {bs : List (List α)} {s : Nat} {b b' : List α} (h : bs[s]? = some b) :
    ((bs.set s b').flatten ++ b).Perm (bs.flatten ++ b') := by
  induction bs generalizing s with
  | nil => simp at h
  | cons c cs ih =>
    cases s with
    | zero =>
      simp only [List.getElem?_cons_zero, Option.some.injEq] at h
      subst h
      simp only [List.set_cons_zero, List.flatten_cons, List.append_assoc]
      refine List.perm_append_comm.trans ?_
      rw [List.append_assoc]
      exact List.perm_append_comm_assoc _ _ _
    | succ s =>
      simp only [List.getElem?_cons_succ] at h
      simp only [List.set_cons_succ, List.flatten_cons, List.append_assoc]
      exact (ih h).append_left c

theorem flatMap_set_perm {ns : List (Node α)} {u : Nat} {n : Node α} {n' : Node α}
    (h : ns[u]? = some n) :
    ((ns.set u n').flatMap Node.elems ++ n.elems).Perm (ns.flatMap Node.elems ++ n'.elems) := by
  have h' : (ns.map Node.elems)[u]? = some n.elems := by simp [h]
  have := flatten_set_perm (b' := n'.elems) h'
  rw [List.flatMap_def, List.flatMap_def]
  rwa [← List.map_set] at this

/-- Every element of bucket `s` has distance `s` from the leaf. -/
def BOK (hashOf : α → List Bool) (d leaf : Nat) (bs : List (List α)) : Prop :=
  ∀ s b, bs[s]? = some b → ∀ e ∈ b, stepsOf (leafAddr d (hashOf e)) leaf = s

theorem getElem?_set_some {bs : List α} {s i : Nat} {b c : α} (h : (bs.set s b)[i]? = some c) :
    (i = s ∧ c = b) ∨ (i ≠ s ∧ bs[i]? = some c) := by
  by_cases hi : s = i
  · subst hi
    rw [List.getElem?_set_self'] at h
    cases hb : bs[s]? <;> simp [hb] at h
    exact Or.inl ⟨rfl, h.symm⟩
  · rw [List.getElem?_set_ne hi] at h
    exact Or.inr ⟨fun h => hi h.symm, h⟩

theorem pushAll_spec {hashOf : α → List Bool} {d leaf : Nat} (hh : ∀ e, d ≤ (hashOf e).length)
    (hl : leaf < 2 ^ (d + 1)) (es : List α) : ∀ (bs : List (List α)), bs.length = d + 2 →
    BOK hashOf d leaf bs →
    ∃ bs', pushAll hashOf d leaf es bs = .ok bs' ∧ bs'.length = d + 2 ∧ BOK hashOf d leaf bs' ∧
      bs'.flatten.Perm (bs.flatten ++ es) := by
  induction es with
  | nil => intro bs h1 h2; exact ⟨bs, rfl, h1, h2, by simp⟩
  | cons e es ih =>
    intro bs h1 h2
    have hs : stepsOf (leafAddr d (hashOf e)) leaf < bs.length := by
      rw [h1]; exact stepsOf_lt (leafAddr_bounds (hh e)).2 hl
    have hget : bs[stepsOf (leafAddr d (hashOf e)) leaf]? =
      some (bs[stepsOf (leafAddr d (hashOf e)) leaf]) := List.getElem?_eq_getElem hs
    generalize bs[stepsOf (leafAddr d (hashOf e)) leaf] = b at hget
    obtain ⟨bs', r1, r2, r3, r4⟩ := ih
      (bs.set (stepsOf (leafAddr d (hashOf e)) leaf) (b ++ [e])) (by simpa using h1) (by
        intro s c hc x hx
        rcases getElem?_set_some hc with ⟨rfl, rfl⟩ | ⟨_, h⟩
        · rcases List.mem_append.1 hx with hx | hx
          · exact h2 _ _ hget _ hx
          · simp at hx; rw [hx]
        · exact h2 _ _ h _ hx)
    refine ⟨bs', ?_, r2, r3, ?_⟩
    · simp only [pushAll, computeIndex_ok (hh e), Outcome.bind_ok, hget, r1]
    · have := flatten_set_perm (b' := b ++ [e]) hget
      have h3 : (bs.set (stepsOf (leafAddr d (hashOf e)) leaf) (b ++ [e])).flatten.Perm
          (bs.flatten ++ [e]) := by
        rw [← List.perm_append_right_iff b]
        refine this.trans ?_
        rw [List.append_assoc]
        exact List.Perm.append_left _ List.perm_append_comm
      refine r4.trans ((h3.append_right es).trans ?_)
      simp

/-- Elements at node `u` of a node array. -/
def nodeAt (ns : List (Node α)) (u : Nat) : List α := (ns[u]?.map Node.elems).getD []

theorem nodeAt_of {ns : List (Node α)} {u : Nat} {n : Node α} (h : ns[u]? = some n) :
    nodeAt ns u = n.elems := by simp [nodeAt, h]

theorem nodeAt_set_ne {ns : List (Node α)} {u v : Nat} {n : Node α} (h : u ≠ v) :
    nodeAt (ns.set u n) v = nodeAt ns v := by
  simp [nodeAt, List.getElem?_set_ne h]

theorem flatMap_congr' {us : List Nat} {f g : Nat → List α} (h : ∀ u ∈ us, f u = g u) :
    us.flatMap f = us.flatMap g := by
  induction us with
  | nil => rfl
  | cons a us ih =>
    simp only [List.flatMap_cons]
    rw [h a (by simp), ih (fun u hu => h u (by simp [hu]))]

theorem collectPath_spec {hashOf : α → List Bool} {d leaf : Nat}
    (hh : ∀ e, d ≤ (hashOf e).length) (hl : leaf < 2 ^ (d + 1)) (new : α) (us : List Nat) :
    ∀ (ns : List (Node α)) (bs : List (List α)),
    us.Nodup → (∀ u ∈ us, u < ns.length) → bs.length = d + 2 → BOK hashOf d leaf bs →
    ∃ ns' bs', collectPath hashOf d leaf new us ns bs = .ok (ns', bs') ∧
      ns'.length = ns.length ∧
      (∀ u n', ns'[u]? = some n' → ∃ n, ns[u]? = some n ∧ n'.cap = n.cap ∧
          (u ∈ us → n'.elems = []) ∧ (u ∉ us → n' = n)) ∧
      bs'.length = d + 2 ∧ BOK hashOf d leaf bs' ∧
      (bs'.flatten).Perm (bs.flatten ++ us.flatMap (nodeAt ns) ++ (if 0 ∈ us then [new] else [])) ∧
      (bs'.flatten ++ ns'.flatMap Node.elems).Perm
        (bs.flatten ++ ns.flatMap Node.elems ++ (if 0 ∈ us then [new] else [])) := by
  induction us with
  | nil =>
    intro ns bs h1 h2 h3 h4
    refine ⟨ns, bs, rfl, rfl, ?_, h3, h4, by simp, by simp⟩
    intro u n' hn
    exact ⟨n', hn, rfl, by simp, fun _ => rfl⟩
  | cons u us ih =>
    intro ns bs h1 h2 h3 h4
    have hu : u < ns.length := h2 u (by simp)
    have hget : ns[u]? = some ns[u] := List.getElem?_eq_getElem hu
    generalize ns[u] = n at hget
    have hnd := List.nodup_cons.1 h1
    obtain ⟨bs1, p1, p2, p3, p4⟩ := pushAll_spec hh hl
      (if u = 0 then n.elems ++ [new] else n.elems) bs h3 h4
    obtain ⟨ns', bs', q1, q2, q3, q4, q5, q6, q7⟩ := ih (ns.set u { n with elems := [] }) bs1
      hnd.2 (by intro v hv; simpa using h2 v (by simp [hv])) p2 p3
    refine ⟨ns', bs', ?_, by simpa using q2, ?_, q4, q5, ?_, ?_⟩
    · simp only [collectPath, getNode, hget, Outcome.bind_ok, p1, q1]
    · intro v n' hn
      obtain ⟨m, hm, c1, c2, c3⟩ := q3 v n' hn
      rcases getElem?_set_some hm with ⟨rfl, rfl⟩ | ⟨hne, h⟩
      · refine ⟨n, hget, c1, ?_, ?_⟩
        · intro _; rw [c3 hnd.1]
        · intro h; simp at h
      · refine ⟨m, h, c1, ?_, ?_⟩
        · intro hv; exact c2 (by simpa [hne] using hv)
        · intro hv; exact c3 (by simp at hv; exact hv.2)
    · have hc : us.flatMap (nodeAt (ns.set u { n with elems := [] })) = us.flatMap (nodeAt ns) := by
        apply flatMap_congr'
        intro v hv
        exact nodeAt_set_ne (fun h => hnd.1 (h ▸ hv))
      rw [hc] at q6
      simp only [List.flatMap_cons, nodeAt_of hget]
      refine q6.trans ?_
      by_cases h0 : u = 0
      · subst h0
        rw [if_neg hnd.1]
        simp only [if_pos, List.mem_cons, true_or, List.append_nil] at p4 ⊢
        refine (p4.append_right _).trans ?_
        simp only [List.append_assoc]
        refine List.Perm.append_left _ (List.Perm.append_left _ List.perm_append_comm)
      · rw [if_neg h0] at p4
        have : (0 ∈ u :: us) = (0 ∈ us) := by
          simp [Ne.symm h0]
        simp only [this]
        refine (p4.append_right _ |>.append_right _).trans ?_
        simp only [List.append_assoc]
        exact List.Perm.refl _
    · have hset := flatMap_set_perm (n' := { n with elems := [] }) hget
      simp only [List.append_nil] at hset
      refine q7.trans ?_
      by_cases h0 : u = 0
      · subst h0
        rw [if_neg hnd.1]
        simp only [if_pos, List.mem_cons, true_or, List.append_nil] at p4 ⊢
        refine (p4.append_right _).trans ?_
        simp only [List.append_assoc]
        refine List.Perm.append_left _ ?_
        refine (List.perm_append_comm_assoc _ _ _).trans ?_
        refine List.perm_append_comm.trans ?_
        refine List.Perm.trans ?_ (hset.append_right _)
        simp only [List.append_assoc]
        refine List.perm_append_comm.trans ?_
        refine List.perm_append_comm.trans ?_
        refine (List.perm_append_comm_assoc _ _ _).trans ?_
        exact List.Perm.refl _
      · rw [if_neg h0] at p4
        have : (0 ∈ u :: us) = (0 ∈ us) := by
          simp [Ne.symm h0]
        simp only [this]
        refine (p4.append_right _ |>.append_right _).trans ?_
        refine List.Perm.append_right _ ?_
        rw [List.append_assoc]
        exact List.Perm.append_left _ (List.perm_append_comm.trans hset)

/-! ### refilling -/

/-- All buckets below `st` are empty. -/
def Below (bs : List (List α)) (st : Nat) : Prop := ∀ j, j < st → bs[j]? = some []

theorem advance_spec (k : Nat) : ∀ (bs : List (List α)) (st : Nat), st + k ≤ bs.length →
    Below bs st →
    ∃ st', advance bs st k = .ok st' ∧ st ≤ st' ∧ st' ≤ st + k ∧ Below bs st' ∧
      (st' = st + k ∨ ∃ x b, bs[st']? = some (x :: b)) := by
  induction k with
  | zero => intro bs st h1 h2; exact ⟨st, rfl, by omega, by omega, h2, Or.inl rfl⟩
  | succ k ih =>
    intro bs st h1 h2
    have hst : st < bs.length := by omega
    have hget : bs[st]? = some bs[st] := List.getElem?_eq_getElem hst
    generalize bs[st] = b at hget
    cases b with
    | nil =>
      obtain ⟨st', a1, a2, a3, a4, a5⟩ := ih bs (st + 1) (by omega) (by
        intro j hj
        by_cases h : j = st
        · rw [h, hget]
        · exact h2 j (by omega))
      refine ⟨st', by simp only [advance, hget, a1], by omega, by omega, a4, ?_⟩
      rcases a5 with h | h
      · left; omega
      · right; exact h
    | cons x b =>
      exact ⟨st, by simp only [advance, hget], by omega, by omega, h2, Or.inr ⟨x, b, hget⟩⟩

theorem fillNode_spec (steps r : Nat) : ∀ (acc : List α) (st : Nat) (bs : List (List α)),
    steps < bs.length → st ≤ steps + 1 → Below bs st →
    (st = steps + 1 ∨ ∃ x b, bs[st]? = some (x :: b)) →
    ∃ taken st' bs', fillNode steps r acc st bs = .ok (acc ++ taken, st', bs') ∧
      taken.length ≤ r ∧ bs'.length = bs.length ∧ st' ≤ steps + 1 ∧ Below bs' st' ∧
      (taken ++ bs'.flatten).Perm bs.flatten ∧
      (∀ x ∈ taken, ∃ j b, j ≤ steps ∧ bs[j]? = some b ∧ x ∈ b) ∧
      (∀ (j : Nat) (b' : List α), bs'[j]? = some b' → ∃ b, bs[j]? = some b ∧ b' ⊆ b) ∧
      (st' = steps + 1 ∨ taken.length = r) := by
  induction r with
  | zero =>
    intro acc st bs h1 h2 h3 h4
    refine ⟨[], st, bs, by simp [fillNode], by simp, rfl, h2, h3, by simp, by simp, ?_, Or.inr rfl⟩
    intro j b' hb; exact ⟨b', hb, fun _ h => h⟩
  | succ r ih =>
    intro acc st bs h1 h2 h3 h4
    by_cases hst : st ≤ steps
    · rcases h4 with h4 | ⟨y, b0, hget⟩
      · omega
      · have hb0 : (y :: b0) ≠ [] := by simp
        have hlast : (y :: b0).getLast? = some ((y :: b0).getLast hb0) := List.getLast?_eq_some_getLast hb0
        have hsplit : (y :: b0).dropLast ++ [(y :: b0).getLast hb0] = y :: b0 :=
          List.dropLast_concat_getLast hb0
        generalize hxe : (y :: b0).getLast hb0 = x at *
        generalize hb : (y :: b0) = b at *
        have hbelow : Below (bs.set st b.dropLast) st := by
          intro j hj
          rw [List.getElem?_set_ne (by omega)]
          exact h3 j hj
        obtain ⟨st1, a1, a2, a3, a4, a5⟩ := advance_spec (steps + 1 - st) (bs.set st b.dropLast) st
          (by simp; omega) hbelow
        obtain ⟨taken, st', bs', f1, f2, f3, f4, f5, f6, f7, f8, f9⟩ := ih (acc ++ [x]) st1
          (bs.set st b.dropLast) (by simpa using h1) (by omega) a4
          (by rcases a5 with h | h
              · left; omega
              · right; exact h)
        refine ⟨x :: taken, st', bs', ?_, by simp; omega, by simpa using f3, f4, f5, ?_, ?_, ?_, ?_⟩
        · simp only [fillNode, if_pos hst, hget, hlast, a1, Outcome.bind_ok, f1,
            List.append_assoc, List.singleton_append]
        · have hp := flatten_set_perm (b' := b.dropLast) hget
          have : ([x] ++ (bs.set st b.dropLast).flatten).Perm bs.flatten := by
            rw [← List.perm_append_right_iff b.dropLast]
            refine List.Perm.trans ?_ hp
            simp only [List.append_assoc]
            refine (List.perm_append_comm).trans ?_
            simp only [List.append_assoc]
            rw [hsplit]
          refine List.Perm.trans ?_ this
          simp only [List.cons_append, List.nil_append]
          exact f6.cons x
        · intro z hz
          rcases List.mem_cons.1 hz with rfl | hz
          · exact ⟨st, b, hst, hget, by rw [← hsplit]; simp⟩
          · obtain ⟨j, c, hj, hc, hm⟩ := f7 z hz
            rcases getElem?_set_some hc with ⟨rfl, rfl⟩ | ⟨_, h⟩
            · exact ⟨j, b, hj, hget, List.dropLast_subset _ hm⟩
            · exact ⟨j, c, hj, h, hm⟩
        · intro j c hc
          obtain ⟨c', h, hs⟩ := f8 j c hc
          rcases getElem?_set_some h with ⟨rfl, rfl⟩ | ⟨_, h⟩
          · exact ⟨b, hget, fun z hz => List.dropLast_subset _ (hs hz)⟩
          · exact ⟨c', h, hs⟩
        · rcases f9 with h | h
          · left; exact h
          · right; simp [h]
    · refine ⟨[], st, bs, by simp [fillNode, hst], by simp, rfl, h2, h3, by simp, by simp, ?_,
        Or.inl (by omega)⟩
      intro j b' hb; exact ⟨b', hb, fun _ h => h⟩

theorem fillPath_spec {hashOf : α → List Bool} {d leaf : Nat} (us : List Nat) :
    ∀ (steps st : Nat) (ns : List (Node α)) (bs : List (List α)),
    us.Nodup → (∀ u ∈ us, u < ns.length) → bs.length = d + 2 → BOK hashOf d leaf bs →
    (∀ i u, us[i]? = some u → u = leaf / 2 ^ (steps + i)) → steps + us.length = d + 2 →
    st ≤ steps + 1 → Below bs st →
    (∀ (u : Nat) (n : Node α), ns[u]? = some n → n.elems.length ≤ n.cap) →
    ∃ ns' bs', fillPath us steps st ns bs = .ok (ns', bs') ∧
      ns'.length = ns.length ∧ bs'.length = d + 2 ∧ BOK hashOf d leaf bs' ∧
      (∀ u n', ns'[u]? = some n' → ∃ n, ns[u]? = some n ∧ n'.cap = n.cap ∧
        n'.elems.length ≤ n'.cap ∧ (u ∉ us → n' = n) ∧
        (∀ e ∈ n'.elems, e ∈ n.elems ∨ Anc u (leafAddr d (hashOf e)))) ∧
      (us.flatMap (nodeAt ns') ++ bs'.flatten).Perm (us.flatMap (nodeAt ns) ++ bs.flatten) ∧
      (ns'.flatMap Node.elems ++ bs'.flatten).Perm (ns.flatMap Node.elems ++ bs.flatten) ∧
      (us ≠ [] → bs'.flatten = [] ∨ ∃ u n', us.getLast? = some u ∧ ns'[u]? = some n' ∧
        n'.elems.length = n'.cap) := by
  induction us with
  | nil =>
    intro steps st ns bs h1 h2 h3 h4 h5 h6 h7 h8 h9
    refine ⟨ns, bs, rfl, rfl, h3, h4, ?_, by simp, by simp, by simp⟩
    intro u n' hn
    exact ⟨n', hn, rfl, h9 u n' hn, fun _ => rfl, fun e he => Or.inl he⟩
  | cons u us ih =>
    intro steps st ns bs h1 h2 h3 h4 h5 h6 h7 h8 h9
    have hu : u < ns.length := h2 u (by simp)
    have hget : ns[u]? = some ns[u] := List.getElem?_eq_getElem hu
    generalize ns[u] = n at hget
    have hnd := List.nodup_cons.1 h1
    have hu0 : u = leaf / 2 ^ steps := by simpa using h5 0 u (by simp)
    simp only [List.length_cons] at h6
    obtain ⟨st1, a1, a2, a3, a4, a5⟩ := advance_spec (steps + 1 - st) bs st (by omega) h8
    obtain ⟨taken, st2, bs1, f1, f2, f3, f4, f5, f6, f7, f8, f9⟩ :=
      fillNode_spec steps (n.cap - n.elems.length) n.elems st1 bs (by omega) (by omega) a4
        (by rcases a5 with h | h
            · left; omega
            · right; exact h)
    have hcap := h9 u n hget
    have hlen1 : (n.elems ++ taken).length ≤ n.cap := by simp; omega
    have hb1 : BOK hashOf d leaf bs1 := by
      intro s b hb e he
      obtain ⟨b0, hb0, hs⟩ := f8 s b hb
      exact h4 s b0 hb0 e (hs he)
    have hanc : ∀ e ∈ taken, Anc u (leafAddr d (hashOf e)) := by
      intro e he
      obtain ⟨j, b, hj, hb, hm⟩ := f7 e he
      have h := h4 j b hb e hm
      have : stepsOf (leafAddr d (hashOf e)) leaf ≤ steps := by omega
      rw [stepsOf_le_iff] at this
      rw [hu0, ← this]
      exact ⟨steps, rfl⟩
    obtain ⟨ns', bs', q1, q2, q3, q4, q5, q6, q7, q8⟩ := ih (steps + 1) st2
      (ns.set u { n with elems := n.elems ++ taken }) bs1 hnd.2
      (by intro v hv; simpa using h2 v (by simp [hv])) (by omega) hb1
      (by intro i v hv
          have := h5 (i + 1) v (by simpa using hv)
          rw [this]; congr 2; omega) (by omega) (by omega) f5
      (by intro v m hm
          rcases getElem?_set_some hm with ⟨rfl, rfl⟩ | ⟨_, h⟩
          · exact hlen1
          · exact h9 v m h)
    have hns'u : ns'[u]? = some { n with elems := n.elems ++ taken } := by
      have : u < ns'.length := by rw [q2]; simpa using hu
      obtain ⟨m, hm, _, _, c3, _⟩ := q5 u _ (List.getElem?_eq_getElem this)
      rw [List.getElem?_eq_getElem this, c3 hnd.1]
      rcases getElem?_set_some hm with ⟨_, rfl⟩ | ⟨h, _⟩
      · rfl
      · exact absurd rfl h
    refine ⟨ns', bs', ?_, by simpa using q2, q3, q4, ?_, ?_, ?_, ?_⟩
    · simp only [fillPath, getNode, hget, Outcome.bind_ok, a1, f1, q1]
    · intro v n' hn
      obtain ⟨m, hm, c1, c2, c3, c4⟩ := q5 v n' hn
      rcases getElem?_set_some hm with ⟨rfl, rfl⟩ | ⟨hne, h⟩
      · refine ⟨n, hget, c1, c2, by simp, ?_⟩
        intro e he
        rcases c4 e he with h | h
        · rcases List.mem_append.1 h with h | h
          · left; exact h
          · right; exact hanc e h
        · right; exact h
      · refine ⟨m, h, c1, c2, ?_, c4⟩
        intro hv; exact c3 (by simp at hv; exact hv.2)
    · have hc : us.flatMap (nodeAt (ns.set u { n with elems := n.elems ++ taken })) =
          us.flatMap (nodeAt ns) := by
        apply flatMap_congr'
        intro v hv
        exact nodeAt_set_ne (fun h => hnd.1 (h ▸ hv))
      rw [hc] at q6
      simp only [List.flatMap_cons, nodeAt_of hget, nodeAt_of hns'u, List.append_assoc]
      refine List.Perm.append_left _ ?_
      refine (q6.append_left taken).trans ?_
      refine (List.perm_append_comm_assoc _ _ _).trans ?_
      exact f6.append_left _
    · refine q7.trans ?_
      have hset := flatMap_set_perm (n' := { n with elems := n.elems ++ taken }) hget
      have hset2 : ((ns.set u { n with elems := n.elems ++ taken }).flatMap Node.elems).Perm
          (ns.flatMap Node.elems ++ taken) := by
        rw [← List.perm_append_right_iff n.elems]
        refine hset.trans ?_
        rw [List.append_assoc]
        exact List.Perm.append_left _ List.perm_append_comm
      refine (hset2.append_right _).trans ?_
      rw [List.append_assoc]
      exact f6.append_left _
    · intro _
      cases us with
      | nil =>
        simp only [fillPath, Outcome.ok.injEq, Prod.mk.injEq] at q1
        obtain ⟨rfl, rfl⟩ := q1
        rcases f9 with h | h
        · left
          have hst : st2 = d + 2 := by simp at h6; omega
          rw [List.flatten_eq_nil_iff]
          intro b hb
          obtain ⟨i, hi, hbi⟩ := List.mem_iff_getElem.1 hb
          have h1 := f5 i (by omega)
          rw [List.getElem?_eq_getElem hi, hbi] at h1
          simpa using h1
        · right
          refine ⟨u, _, by simp, hns'u, ?_⟩
          simp only [List.length_append]
          omega
      | cons v us =>
        rcases q8 (by simp) with h | ⟨w, n', h1, h2, h3⟩
        · left; exact h
        · right; exact ⟨w, n', by simpa using h1, h2, h3⟩

end Upsi.Tree
