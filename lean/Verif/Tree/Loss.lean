import Verif.Tree.Props2
import Mathlib.Data.List.Perm.Subperm
/-
Exact conditions for the loss of elements (C08): one insertion along a path keeps as many elements as any
arrangement of that path can hold.
-/
namespace Upsi.Tree
open Upsi

/-- The first level from which on all nodes of the path are full after the refill, and below which nothing
that is stored at or above it could have been stored. -/
theorem fillPath_tight {hashOf : α → List Bool} {d leaf : Nat} (us : List Nat) :
    ∀ (steps st : Nat) (ns : List (Node α)) (bs : List (List α)) (ns' : List (Node α)) (bs' : List (List α)),
    us.Nodup → (∀ u ∈ us, u < ns.length) → bs.length = d + 2 → BOK hashOf d leaf bs →
    (∀ i u, us[i]? = some u → u = leaf / 2 ^ (steps + i)) → steps + us.length = d + 2 →
    st ≤ steps + 1 → Below bs st →
    (∀ (u : Nat) (n : Node α), ns[u]? = some n → n.elems.length ≤ n.cap) →
    (∀ u ∈ us, nodeAt ns u = []) → fillPath us steps st ns bs = .ok (ns', bs') →
    ∃ k ≤ us.length,
      (∀ i u, k ≤ i → us[i]? = some u → ∃ n, ns'[u]? = some n ∧ n.elems.length = n.cap) ∧
      (k = 0 ∨ ((∀ i u, k ≤ i → us[i]? = some u → ∀ e ∈ nodeAt ns' u,
          steps + k ≤ stepsOf (leafAddr d (hashOf e)) leaf) ∧
        ∀ e ∈ bs'.flatten, steps + k ≤ stepsOf (leafAddr d (hashOf e)) leaf)) := by
  induction us with
  | nil =>
    intro steps st ns bs ns' bs' h1 h2 h3 h4 h5 h6 h7 h8 h9 h10 h11
    exact ⟨0, by simp, by simp, Or.inl rfl⟩
  | cons u us ih =>
    intro steps st ns bs ns' bs' h1 h2 h3 h4 h5 h6 h7 h8 h9 h10 h11
    have hu : u < ns.length := h2 u (by simp)
    have hget : ns[u]? = some ns[u] := List.getElem?_eq_getElem hu
    generalize ns[u] = n at hget
    have hnd := List.nodup_cons.1 h1
    simp only [List.length_cons] at h6
    have hne : n.elems = [] := by have := h10 u (by simp); rwa [nodeAt_of hget] at this
    obtain ⟨st1, a1, a2, a3, a4, a5⟩ := advance_spec (steps + 1 - st) bs st (by omega) h8
    obtain ⟨taken, st2, bs1, f1, f2, f3, f4, f5, f6, f7, f8, f9⟩ :=
      fillNode_spec steps (n.cap - n.elems.length) n.elems st1 bs (by omega) (by omega) a4
        (by rcases a5 with h | h
            · left; omega
            · right; exact h)
    have hcap := h9 u n hget
    have hb1 : BOK hashOf d leaf bs1 := by
      intro s b hb e he
      obtain ⟨b0, hb0, hs⟩ := f8 s b hb
      exact h4 s b0 hb0 e (hs he)
    simp only [fillPath, getNode, hget, Outcome.bind_ok, a1, f1] at h11
    have hA : ∀ v ∈ us, v < (ns.set u { n with elems := n.elems ++ taken }).length := by
      intro v hv; simpa using h2 v (by simp [hv])
    have hB : ∀ (i v : Nat), us[i]? = some v → v = leaf / 2 ^ (steps + 1 + i) := by
      intro i v hv
      have := h5 (i + 1) v (by simpa using hv)
      rw [this]; congr 2; omega
    have hC : ∀ (v : Nat) (m : Node α), (ns.set u { n with elems := n.elems ++ taken })[v]? = some m →
        m.elems.length ≤ m.cap := by
      intro v m hm
      rcases getElem?_set_some hm with ⟨rfl, rfl⟩ | ⟨_, h⟩
      · simp; omega
      · exact h9 v m h
    have hD : ∀ v ∈ us, nodeAt (ns.set u { n with elems := n.elems ++ taken }) v = [] := by
      intro v hv
      have huv : u ≠ v := by rintro rfl; exact hnd.1 hv
      rw [nodeAt_set_ne huv]
      exact h10 v (by simp [hv])
    obtain ⟨ns2, bs2, q1, q2, q3, q4, q5, q6, q7, q8⟩ := fillPath_spec (hashOf := hashOf) (d := d) (leaf := leaf) us
      (steps + 1) st2 _ bs1 hnd.2 hA (by omega) hb1 hB (by omega) (by omega) f5 hC
    have hE := q1
    rw [h11] at q1
    simp only [Outcome.ok.injEq, Prod.mk.injEq] at q1
    obtain ⟨rfl, rfl⟩ := q1
    obtain ⟨k, k1, k2, k3⟩ := ih (steps + 1) st2 _ bs1 ns' bs' hnd.2 hA (by omega) hb1 hB (by omega) (by omega) f5 hC
      hD hE
    have hns'u : ns'[u]? = some { n with elems := n.elems ++ taken } := by
      have : u < ns'.length := by rw [q2]; simpa using hu
      obtain ⟨m, hm, _, _, c3, _⟩ := q5 u _ (List.getElem?_eq_getElem this)
      rw [List.getElem?_eq_getElem this, c3 hnd.1]
      rcases getElem?_set_some hm with ⟨_, rfl⟩ | ⟨h, _⟩
      · rfl
      · exact absurd rfl h
    rcases Nat.eq_zero_or_pos k with rfl | hk
    · rcases f9 with h | h
      · -- the level is not (necessarily) full: everything placed later comes from later buckets
        have hcl : us.flatMap (nodeAt (ns.set u { n with elems := n.elems ++ taken })) = [] := by
          rw [List.flatMap_eq_nil_iff]; exact hD
        rw [hcl, List.nil_append] at q6
        have hall : ∀ e ∈ bs1.flatten, steps + 1 ≤ stepsOf (leafAddr d (hashOf e)) leaf := by
          intro e he
          obtain ⟨b, hb, heb⟩ := List.mem_flatten.1 he
          obtain ⟨i, hi, hbi⟩ := List.mem_iff_getElem.1 hb
          have hbi' : bs1[i]? = some b := by rw [List.getElem?_eq_getElem hi, hbi]
          rw [hb1 i b hbi' e heb]
          by_contra hlt
          have := f5 i (by omega)
          rw [hbi'] at this
          simp only [Option.some.injEq] at this
          subst this
          simp at heb
        refine ⟨1, by simp, ?_, Or.inr ⟨?_, ?_⟩⟩
        · intro i v hi hv
          exact k2 (i - 1) v (by omega) (by
            obtain ⟨j, rfl⟩ : ∃ j, i = j + 1 := ⟨i - 1, by omega⟩
            simpa using hv)
        · intro i v hi hv e he
          apply hall
          apply q6.subset
          apply List.mem_append_left
          obtain ⟨j, rfl⟩ : ∃ j, i = j + 1 := ⟨i - 1, by omega⟩
          exact List.mem_flatMap.2 ⟨v, List.mem_of_getElem? (by simpa using hv), he⟩
        · intro e he
          exact hall e (q6.subset (List.mem_append_right _ he))
      · refine ⟨0, by simp, ?_, Or.inl rfl⟩
        intro i v hi hv
        cases i with
        | zero =>
          simp only [List.getElem?_cons_zero, Option.some.injEq] at hv
          subst hv
          exact ⟨_, hns'u, by simp only [List.length_append]; omega⟩
        | succ i => exact k2 i v (by omega) (by simpa using hv)
    · refine ⟨k + 1, by simpa using k1, ?_, Or.inr ?_⟩
      · intro i v hi hv
        obtain ⟨j, rfl⟩ : ∃ j, i = j + 1 := ⟨i - 1, by omega⟩
        exact k2 j v (by omega) (by simpa using hv)
      · rcases k3 with h | ⟨k3, k4⟩
        · omega
        · refine ⟨?_, fun e he => by have := k4 e he; omega⟩
          intro i v hi hv e he
          obtain ⟨j, rfl⟩ : ∃ j, i = j + 1 := ⟨i - 1, by omega⟩
          have := k3 j v (by omega) (by simpa using hv) e he
          omega

/-- The level of one insertion above which the path is full, see `fillPath_tight`. -/
theorem insertOne_tight {hashOf : α → List Bool} {post : List α → List α}
    (hpost : PostOK hashOf post) {d c s leaf : Nat} (hh : ∀ e, d ≤ (hashOf e).length)
    (h1 : 2 ^ d ≤ leaf) (h2 : leaf < 2 ^ (d + 1)) (new : α) {ns : List (Node α)}
    (hw : NodesWF hashOf d c s ns) {ns' : List (Node α)} {lost : List α}
    (hi : insertOne hashOf post d leaf new ns = .ok (ns', lost)) :
    ∃ k ≤ d + 2, (∀ i, k ≤ i → i < d + 2 → (nodeAt ns' (leaf / 2 ^ i)).length =
        if leaf / 2 ^ i = 0 then s else c) ∧
      (∀ i, k ≤ i → i < d + 2 → ∀ e ∈ nodeAt ns' (leaf / 2 ^ i), k ≤ stepsOf (leafAddr d (hashOf e)) leaf) ∧
      (∀ e ∈ lost, k ≤ stepsOf (leafAddr d (hashOf e)) leaf) := by
  have hlt : ∀ u ∈ pathUp leaf, u < ns.length := by
    intro u hu
    have := (mem_pathUp.1 hu).le
    rw [hw.len]; omega
  obtain ⟨ns1, bs, q1, q2, q3, q4, q5, q6, q7⟩ := collectPath_spec hh h2 new (pathUp leaf) ns
    (List.replicate (d + 2) []) (pathUp_nodup leaf) hlt (by simp) (by
      intro i b hb e he
      rw [List.getElem?_replicate] at hb
      split at hb
      · simp at hb; subst hb; simp at he
      · simp at hb)
  have hbok : BOK hashOf d leaf (bs.map post) := by
    intro i b hb e he
    rw [List.getElem?_map] at hb
    cases hbi : bs[i]? with
    | none => simp [hbi] at hb
    | some b0 =>
      simp [hbi] at hb; subst hb
      obtain ⟨e', he', hhe⟩ := hpost b0 e he
      rw [hhe]
      exact q5 i b0 hbi e' he'
  have hidx : ∀ (i u : Nat), (pathUp leaf)[i]? = some u → u = leaf / 2 ^ (0 + i) := by
    intro i u hu
    rw [pathUp_eq h1 h2, List.getElem?_map] at hu
    by_cases hi : i < d + 2
    · rw [List.getElem?_range hi] at hu; simp at hu; simp [hu]
    · rw [List.getElem?_eq_none (by simp; omega)] at hu; simp at hu
  have hroom : ∀ (u : Nat) (n : Node α), ns1[u]? = some n → n.elems.length ≤ n.cap := by
    intro u n hn
    obtain ⟨m, hm, c1, c2, c3⟩ := q3 u n hn
    by_cases hu : u ∈ pathUp leaf
    · rw [c2 hu]; simp
    · rw [c3 hu]; exact hw.room u m hm
  have hempty : ∀ u ∈ pathUp leaf, nodeAt ns1 u = [] := by
    intro u hu
    have hu' : u < ns1.length := by rw [q2]; exact hlt u hu
    obtain ⟨m, hm, c1, c2, c3⟩ := q3 u _ (List.getElem?_eq_getElem hu')
    rw [nodeAt_of (List.getElem?_eq_getElem hu')]
    exact c2 hu
  simp only [insertOne, q1, Outcome.bind_ok, Outcome.bind_eq_ok, Outcome.pure_eq, Outcome.ok.injEq,
    Prod.mk.injEq] at hi
  obtain ⟨⟨ns2, bs'⟩, f1, rfl, rfl⟩ := hi
  obtain ⟨k, k1, k2, k3⟩ := fillPath_tight (hashOf := hashOf) (d := d) (leaf := leaf) (pathUp leaf) 0 0 ns1
    (bs.map post) ns2 bs' (pathUp_nodup leaf)
    (by intro u hu; rw [q2]; exact hlt u hu) (by simpa using q4) hbok hidx
    (by rw [pathUp_eq h1 h2]; simp) (by omega) (by intro j hj; omega) hroom hempty f1
  have hlev : ∀ i, i < d + 2 → (pathUp leaf)[i]? = some (leaf / 2 ^ i) := by
    intro i hi
    rw [pathUp_eq h1 h2, List.getElem?_map, List.getElem?_range hi]
    rfl
  refine ⟨k, by rw [pathUp_eq h1 h2] at k1; simpa using k1, ?_, ?_, ?_⟩
  · intro i hi hi2
    obtain ⟨n, hn, hl⟩ := k2 i _ hi (hlev i hi2)
    obtain ⟨ns3, lost3, bs3, rest, g1, g2, _⟩ := insertOne_spec hpost hh h1 h2 new hw
    simp only [insertOne, q1, Outcome.bind_ok, f1, Outcome.pure_eq, Outcome.ok.injEq, Prod.mk.injEq] at g1
    obtain ⟨rfl, rfl⟩ := g1
    rw [nodeAt_of hn, hl, g2.caps _ n hn]
  · intro i hi hi2 e he
    rcases k3 with rfl | ⟨k3, _⟩
    · omega
    · simpa using k3 i _ hi (hlev i hi2) e he
  · intro e he
    rcases k3 with rfl | ⟨_, k3⟩
    · omega
    · simpa using k3 e he

/-! ### counting along a path -/

theorem length_flatMap_le {m k : Nat} {f : Nat → List β} {g : Nat → Nat} (h : ∀ i, k ≤ i → i < k + m → (f i).length ≤ g i) :
    (((List.range m).map (k + ·)).flatMap f).length ≤ (((List.range m).map (k + ·)).map g).sum := by
  induction m with
  | zero => simp
  | succ m ih =>
    rw [List.range_succ, List.map_append, List.flatMap_append, List.length_append, List.map_append, List.sum_append]
    have h1 := ih (fun i hi hi2 => h i hi (by omega))
    have h2 := h (k + m) (by omega) (by omega)
    simp
    simp at h1
    omega

theorem length_flatMap_eq {m k : Nat} {f : Nat → List β} {g : Nat → Nat} (h : ∀ i, k ≤ i → i < k + m → (f i).length = g i) :
    (((List.range m).map (k + ·)).flatMap f).length = (((List.range m).map (k + ·)).map g).sum := by
  induction m with
  | zero => simp
  | succ m ih =>
    rw [List.range_succ, List.map_append, List.flatMap_append, List.length_append, List.map_append, List.sum_append]
    have h1 := ih (fun i hi hi2 => h i hi (by omega))
    have h2 := h (k + m) (by omega) (by omega)
    simp
    simp at h1
    omega

/-- The contents of the levels of a path, split at level `k`. -/
theorem path_split {d k leaf : Nat} (hk : k ≤ d + 2) (h1 : 2 ^ d ≤ leaf) (h2 : leaf < 2 ^ (d + 1)) (f : Nat → List β) :
    (pathUp leaf).flatMap f = (List.range k).flatMap (fun i => f (leaf / 2 ^ i)) ++
      ((List.range (d + 2 - k)).map (k + ·)).flatMap (fun i => f (leaf / 2 ^ i)) := by
  rw [pathUp_eq h1 h2]
  conv_lhs => rw [show d + 2 = k + (d + 2 - k) by omega, List.range_add]
  rw [List.map_append, List.flatMap_append, List.flatMap_map, List.flatMap_map]

/-- Capacity of the node at level `i` of a path. -/
def levelCap (leaf c s i : Nat) : Nat := if leaf / 2 ^ i = 0 then s else c

theorem nodeAt_cap {hashOf : α → List Bool} {d c s : Nat} {ns : List (Node α)} (hw : NodesWF hashOf d c s ns) (u : Nat) :
    (nodeAt ns u).length ≤ if u = 0 then s else c := by
  cases hu : ns[u]? with
  | none => simp [nodeAt, hu]
  | some n => rw [nodeAt_of hu, ← hw.caps u n hu]; exact hw.room u n hu

theorem nodeAt_pos {hashOf : α → List Bool} {d c s : Nat} {ns : List (Node α)} (hw : NodesWF hashOf d c s ns) {u : Nat}
    {e : α} (he : e ∈ nodeAt ns u) : Anc u (leafAddr d (hashOf e)) := by
  cases hu : ns[u]? with
  | none => simp [nodeAt, hu] at he
  | some n => rw [nodeAt_of hu] at he; exact hw.pos u n hu e he

/-- Two leaves sharing the node at level `i` of the first one's path are at distance at most `i`. -/
theorem steps_of_anc {d leaf x i : Nat} (h1 : 2 ^ d ≤ leaf) (h2 : leaf < 2 ^ (d + 1)) (x1 : 2 ^ d ≤ x)
    (x2 : x < 2 ^ (d + 1)) (h : Anc (leaf / 2 ^ i) x) : stepsOf x leaf ≤ i := by
  rw [stepsOf_le_iff]
  obtain ⟨k, hk⟩ := h
  rcases Nat.lt_or_ge d i with hi | hi
  · have hp : 2 ^ (d + 1) ≤ 2 ^ i := Nat.pow_le_pow_right (by omega) (by omega)
    rw [Nat.div_eq_of_lt (by omega), Nat.div_eq_of_lt (by omega)]
  · have : k = i := by
      have a1 : 2 ^ (d - i) ≤ leaf / 2 ^ i := by
        rw [Nat.le_div_iff_mul_le (Nat.pow_pos (by omega)), ← Nat.pow_add, Nat.sub_add_cancel hi]; exact h1
      have a2 : leaf / 2 ^ i < 2 ^ (d - i + 1) := by
        rw [Nat.div_lt_iff_lt_mul (Nat.pow_pos (by omega)), ← Nat.pow_add]
        rw [show d - i + 1 + i = d + 1 by omega]; exact h2
      rcases Nat.lt_or_ge d k with hkd | hkd
      · have : x / 2 ^ k = 0 := Nat.div_eq_of_lt (lt_of_lt_of_le x2 (Nat.pow_le_pow_right (by omega) (by omega)))
        have : 0 < 2 ^ (d - i) := Nat.pow_pos (by omega)
        omega
      · have b1 : 2 ^ (d - k) ≤ x / 2 ^ k := by
          rw [Nat.le_div_iff_mul_le (Nat.pow_pos (by omega)), ← Nat.pow_add, Nat.sub_add_cancel hkd]; exact x1
        have b2 : x / 2 ^ k < 2 ^ (d - k + 1) := by
          rw [Nat.div_lt_iff_lt_mul (Nat.pow_pos (by omega)), ← Nat.pow_add]
          rw [show d - k + 1 + k = d + 1 by omega]; exact x2
        have c1 : d - i < d - k + 1 := (Nat.pow_lt_pow_iff_right (by omega : 1 < 2)).1 (by omega)
        have c2 : d - k < d - i + 1 := (Nat.pow_lt_pow_iff_right (by omega : 1 < 2)).1 (by omega)
        omega
    rw [hk, this]

/-- On any correctly placed path, the elements that share only levels `≥ k` with the path fit into these levels. -/
theorem far_le_cap {hashOf : α → List Bool} {d c s leaf k : Nat} (hh : ∀ e, d ≤ (hashOf e).length)
    (h1 : 2 ^ d ≤ leaf) (h2 : leaf < 2 ^ (d + 1)) {f : Nat → List α} (hc : ∀ u, (f u).length ≤ if u = 0 then s else c)
    (hp : ∀ u, ∀ e ∈ f u, Anc u (leafAddr d (hashOf e))) (hk : k ≤ d + 2) :
    (((pathUp leaf).flatMap f).filter (fun e => k ≤ stepsOf (leafAddr d (hashOf e)) leaf)).length ≤
      (((List.range (d + 2 - k)).map (k + ·)).map (levelCap leaf c s)).sum := by
  rw [path_split hk h1 h2, List.filter_append, List.length_append]
  have hz : ((List.range k).flatMap (fun i => f (leaf / 2 ^ i))).filter
      (fun e => k ≤ stepsOf (leafAddr d (hashOf e)) leaf) = [] := by
    rw [List.filter_eq_nil_iff]
    intro e he
    obtain ⟨i, hi, hei⟩ := List.mem_flatMap.1 he
    obtain ⟨b1, b2⟩ := leafAddr_bounds (hh e)
    have := steps_of_anc h1 h2 b1 b2 (hp _ _ hei)
    have := List.mem_range.1 hi
    simp only [decide_eq_true_eq]
    omega
  rw [hz]
  simp only [List.length_nil, Nat.zero_add]
  refine (List.length_filter_le _ _).trans (length_flatMap_le fun i _ _ => hc _)

/-- The capacity of the levels `≥ k` of a path. -/
theorem levelCap_sum {d leaf c s k : Nat} (hk : k ≤ d + 1) (h1 : 2 ^ d ≤ leaf) (h2 : leaf < 2 ^ (d + 1)) :
    (((List.range (d + 2 - k)).map (k + ·)).map (levelCap leaf c s)).sum = s + (d + 1 - k) * c := by
  rw [show d + 2 - k = (d + 1 - k) + 1 by omega, List.range_succ, List.map_append, List.map_append, List.sum_append]
  have hlast : levelCap leaf c s (k + (d + 1 - k)) = s := by
    rw [show k + (d + 1 - k) = d + 1 by omega, levelCap, if_pos (Nat.div_eq_of_lt h2)]
  have hmain : ∀ m, m ≤ d + 1 - k → (((List.range m).map (k + ·)).map (levelCap leaf c s)).sum = m * c := by
    intro m
    induction m with
    | zero => simp
    | succ m ih =>
      intro hm
      rw [List.range_succ, List.map_append, List.map_append, List.sum_append, ih (by omega)]
      have : 2 ^ (k + m) ≤ 2 ^ d := Nat.pow_le_pow_right (by omega) (by omega)
      have : 0 < leaf / 2 ^ (k + m) := Nat.div_pos (by omega) (Nat.pow_pos (by omega))
      simp [levelCap, Nat.succ_mul]
      omega
  rw [hmain _ (Nat.le_refl _)]
  simp [hlast]
  omega

/-- After an insertion there is a level `k` such that the path holds, from `k` on, only elements that share no
lower node with the path, fills all that capacity, and everything lost is of that kind too. -/
theorem insertOne_count {hashOf : α → List Bool} {post : List α → List α}
    (hpost : PostOK hashOf post) {d c s leaf : Nat} (hh : ∀ e, d ≤ (hashOf e).length)
    (h1 : 2 ^ d ≤ leaf) (h2 : leaf < 2 ^ (d + 1)) (new : α) {ns : List (Node α)}
    (hw : NodesWF hashOf d c s ns) {ns' : List (Node α)} {lost : List α}
    (hi : insertOne hashOf post d leaf new ns = .ok (ns', lost)) :
    ∃ k ≤ d + 2, (((List.range (d + 2 - k)).map (k + ·)).map (levelCap leaf c s)).sum ≤
        (((pathUp leaf).flatMap (nodeAt ns')).filter (fun e => k ≤ stepsOf (leafAddr d (hashOf e)) leaf)).length ∧
      ∀ e ∈ lost, k ≤ stepsOf (leafAddr d (hashOf e)) leaf := by
  obtain ⟨k, k1, k2, k3, k4⟩ := insertOne_tight hpost hh h1 h2 new hw hi
  refine ⟨k, k1, ?_, k4⟩
  rw [path_split k1 h1 h2, List.filter_append, List.length_append]
  have hf : (((List.range (d + 2 - k)).map (k + ·)).flatMap (fun i => nodeAt ns' (leaf / 2 ^ i))).filter
      (fun e => decide (k ≤ stepsOf (leafAddr d (hashOf e)) leaf)) =
      ((List.range (d + 2 - k)).map (k + ·)).flatMap (fun i => nodeAt ns' (leaf / 2 ^ i)) := by
    rw [List.filter_eq_self]
    intro e he
    obtain ⟨i, hi, hei⟩ := List.mem_flatMap.1 he
    obtain ⟨j, hj, rfl⟩ := List.mem_map.1 hi
    have := List.mem_range.1 hj
    simpa using k3 (k + j) (by omega) (by omega) e hei
  rw [hf, length_flatMap_eq (g := levelCap leaf c s) (fun i hi hi2 => k2 i hi (by omega))]
  omega

theorem filter_not_length (p : α → Bool) (l : List α) :
    l.length = (l.filter p).length + (l.filter (fun e => !p e)).length := by
  induction l with
  | nil => rfl
  | cons a l ih => cases h : p a <;> simp [h, ih] <;> omega

/-- No correctly placed arrangement of the path holds more of the path's elements. -/
theorem insertOne_best {hashOf : α → List Bool} {post : List α → List α}
    (hpost : PostOK hashOf post) {d c s leaf : Nat} (hh : ∀ e, d ≤ (hashOf e).length)
    (h1 : 2 ^ d ≤ leaf) (h2 : leaf < 2 ^ (d + 1)) (new : α) {ns : List (Node α)}
    (hw : NodesWF hashOf d c s ns) {ns' : List (Node α)} {lost : List α}
    (hi : insertOne hashOf post d leaf new ns = .ok (ns', lost)) {f : Nat → List α}
    (hc : ∀ u, (f u).length ≤ if u = 0 then s else c) (hp : ∀ u, ∀ e ∈ f u, Anc u (leafAddr d (hashOf e)))
    (hsub : List.Subperm ((pathUp leaf).flatMap f) ((pathUp leaf).flatMap (nodeAt ns') ++ lost)) :
    ((pathUp leaf).flatMap f).length ≤ ((pathUp leaf).flatMap (nodeAt ns')).length := by
  obtain ⟨k, k1, k2, k3⟩ := insertOne_count hpost hh h1 h2 new hw hi
  have hb := far_le_cap (k := k) hh h1 h2 hc hp k1
  rw [filter_not_length (fun e => decide (k ≤ stepsOf (leafAddr d (hashOf e)) leaf)),
    filter_not_length (fun e => decide (k ≤ stepsOf (leafAddr d (hashOf e)) leaf)) ((pathUp leaf).flatMap (nodeAt ns'))]
  have hl := (hsub.filter (fun e => !decide (k ≤ stepsOf (leafAddr d (hashOf e)) leaf))).length_le
  rw [List.filter_append, List.length_append] at hl
  have hz : lost.filter (fun e => !decide (k ≤ stepsOf (leafAddr d (hashOf e)) leaf)) = [] := by
    rw [List.filter_eq_nil_iff]
    intro e he
    simpa using k3 e he
  rw [hz] at hl
  simp only [List.length_nil, Nat.add_zero] at hl
  omega

/-- Nothing is lost iff, for every level, the elements that must be stored at or above it fit there. -/
theorem insertOne_hall {hashOf : α → List Bool} {post : List α → List α}
    (hpost : PostOK hashOf post) {d c s leaf : Nat} (hh : ∀ e, d ≤ (hashOf e).length)
    (h1 : 2 ^ d ≤ leaf) (h2 : leaf < 2 ^ (d + 1)) (new : α) {ns : List (Node α)}
    (hw : NodesWF hashOf d c s ns) {ns' : List (Node α)} {lost : List α}
    (hi : insertOne hashOf post d leaf new ns = .ok (ns', lost)) :
    lost = [] ↔ ∀ j ≤ d + 1, (((pathUp leaf).flatMap (nodeAt ns') ++ lost).filter
      (fun e => j ≤ stepsOf (leafAddr d (hashOf e)) leaf)).length ≤ s + (d + 1 - j) * c := by
  constructor
  · rintro rfl j hj
    obtain ⟨ns3, lost3, bs3, rest, g1, g2, _⟩ := insertOne_spec hpost hh h1 h2 new hw
    rw [hi] at g1
    simp only [Outcome.ok.injEq, Prod.mk.injEq] at g1
    obtain ⟨rfl, rfl⟩ := g1
    rw [List.append_nil, ← levelCap_sum hj h1 h2]
    exact far_le_cap hh h1 h2 (nodeAt_cap g2) (fun u e he => nodeAt_pos g2 he) (by omega)
  · intro h
    obtain ⟨k, k1, k2, k3⟩ := insertOne_count hpost hh h1 h2 new hw hi
    rcases Nat.lt_or_ge k (d + 2) with hk | hk
    · have := h k (by omega)
      rw [List.filter_append, List.length_append, ← levelCap_sum (c := c) (s := s) (by omega) h1 h2] at this
      have hz : lost.filter (fun e => decide (k ≤ stepsOf (leafAddr d (hashOf e)) leaf)) = lost := by
        rw [List.filter_eq_self]
        intro e he
        simpa using k3 e he
      rw [hz] at this
      exact List.eq_nil_of_length_eq_zero (by omega)
    · rw [List.eq_nil_iff_forall_not_mem]
      intro e he
      have := k3 e he
      obtain ⟨b1, b2⟩ := leafAddr_bounds (hh e)
      have := stepsOf_lt b2 h2
      omega

end Upsi.Tree
