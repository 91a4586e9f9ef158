import Verif.Data.GenProps
/-
C54: the values of generated deletion data sets, and the map the generator keeps its elements in.
-/
namespace Upsi.Data
open Upsi

/-- The entry of a key: `map.find`. -/
def EMap.get (m : EMap) (k : Bytes) : Option Int := (m.find? (fun e => e.1 = k)).map Prod.snd

/-- **C54** `map[k] = v` on the generator's maps: afterwards `k` has the value `v`, every other key has the entry it had, and
keys stay distinct. -/
theorem C54_map_assign (m : EMap) (k : Bytes) (v : Int) :
    (m.assign k v).get k = some v ∧ (∀ k', k' ≠ k → (m.assign k v).get k' = m.get k') ∧
    ((m.map Prod.fst).Nodup → ((m.assign k v).map Prod.fst).Nodup) := by
  have hmap : ∀ (m : EMap), (m.map (fun e => if e.1 = k then (k, v) else e)).map Prod.fst = m.map Prod.fst := by
    intro m
    rw [List.map_map]
    refine List.map_congr_left (fun e _ => ?_)
    simp only [Function.comp]
    split
    · rename_i h; exact h.symm
    · rfl
  have hself : ∀ (m : EMap), k ∈ m.map Prod.fst → EMap.get (m.map (fun e => if e.1 = k then (k, v) else e)) k = some v := by
    intro m
    induction m with
    | nil => intro h; simp at h
    | cons e m ih =>
      intro h
      unfold EMap.get at *
      rw [List.map_cons, List.find?_cons]
      by_cases he : e.1 = k
      · simp [he]
      · have hk : k ∈ m.map Prod.fst := by
          rw [List.map_cons, List.mem_cons] at h
          rcases h with h | h
          · exact absurd h.symm he
          · exact h
        simp only [he, if_false, decide_false]
        exact ih hk
  have hother : ∀ (m : EMap) (k' : Bytes), k' ≠ k → EMap.get (m.map (fun e => if e.1 = k then (k, v) else e)) k' = EMap.get m k' := by
    intro m k' hk
    induction m with
    | nil => rfl
    | cons e m ih =>
      unfold EMap.get at *
      rw [List.map_cons, List.find?_cons, List.find?_cons]
      by_cases he : e.1 = k
      · have h1 : ¬ k = k' := fun h => hk h.symm
        simp only [he, if_true, h1, decide_false]
        exact ih
      · simp only [he, if_false]
        by_cases h2 : e.1 = k'
        · simp [h2]
        · simp only [h2, decide_false]; exact ih
  unfold EMap.assign
  by_cases hk : k ∈ m.map Prod.fst
  · simp only [if_pos hk]
    exact ⟨hself m hk, hother m, fun h => by rw [hmap]; exact h⟩
  · simp only [if_neg hk]
    have hn : m.find? (fun e => decide (e.1 = k)) = none := by
      rw [List.find?_eq_none]
      intro e he
      have : e.1 ≠ k := fun h => hk (h ▸ List.mem_map_of_mem he)
      simp [this]
    refine ⟨?_, fun k' hk' => ?_, fun h => ?_⟩
    · unfold EMap.get
      rw [List.find?_append, hn]
      simp
    · unfold EMap.get
      rw [List.find?_append]
      have : ¬ k = k' := fun h => hk' h.symm
      simp [this]
    · rw [List.map_append, List.nodup_append]
      refine ⟨h, by simp, ?_⟩
      intro a ha b hb
      simp only [List.map_cons, List.map_nil, List.mem_singleton] at hb
      rintro rfl
      exact hk (hb ▸ ha)

theorem mem_assign {m : EMap} {k : Bytes} {v : Int} {e : Bytes × Int} (h : e ∈ m.assign k v) : e = (k, v) ∨ e ∈ m := by
  unfold EMap.assign at h
  split at h
  · obtain ⟨x, hx, rfl⟩ := List.mem_map.1 h
    split
    · exact Or.inl rfl
    · exact Or.inr hx
  · rcases List.mem_append.1 h with h | h
    · exact Or.inr h
    · exact Or.inl (List.mem_singleton.1 h)

theorem mem_sample {r : Nat} {m m' : EMap} {e : Bytes × Int} (h : sample r m = .ok (e, m')) : e ∈ m ∧ ∀ x ∈ m', x ∈ m := by
  unfold sample at h
  split at h
  · simp at h
  · rename_i x hx
    simp only [Outcome.ok.injEq, Prod.mk.injEq] at h
    obtain ⟨rfl, rfl⟩ := h
    exact ⟨List.mem_of_getElem? hx, fun y hy => (List.eraseIdx_sublist _ _).subset hy⟩

/-! Every recorded row is an entry of the universe, with the sign of the operation. -/

theorem delGo_mem (rnd : Nat → Nat) (U : EMap) : ∀ (n : Nat) (s s' : DelSt) (es : List (Bytes × Int)),
    delGo rnd n s = .ok (es, s') → (∀ e ∈ s.pool, e ∈ U) → (∀ e ∈ s.current, e ∈ U) →
    (∀ e ∈ es, (e.1, -e.2) ∈ U) ∧ (∀ e ∈ s'.pool, e ∈ U) ∧ (∀ e ∈ s'.current, e ∈ U) := by
  intro n
  induction n with
  | zero =>
    intro s s' es h h1 h2
    simp only [delGo, Outcome.ok.injEq, Prod.mk.injEq] at h
    obtain ⟨rfl, rfl⟩ := h
    exact ⟨by simp, h1, h2⟩
  | succ n ih =>
    intro s s' es h h1 h2
    rw [delGo] at h
    split at h
    · simp only [Outcome.ok.injEq, Prod.mk.injEq] at h
      obtain ⟨rfl, rfl⟩ := h
      exact ⟨by simp, h1, h2⟩
    · simp only [Outcome.bind_eq_ok, Outcome.pure_eq, Outcome.ok.injEq, Prod.mk.injEq] at h
      obtain ⟨⟨e, cur⟩, he, ⟨es', s2⟩, hs, rfl, rfl⟩ := h
      obtain ⟨m1, m2⟩ := mem_sample he
      obtain ⟨i1, i2, i3⟩ := ih _ _ _ hs h1 (fun x hx => h2 x (m2 x hx))
      refine ⟨?_, i2, i3⟩
      intro x hx
      rcases List.mem_cons.1 hx with rfl | hx
      · simpa using h2 e m1
      · exact i1 x hx

theorem addGo_mem (rnd : Nat → Nat) (U : EMap) : ∀ (n : Nat) (s s' : DelSt) (es : List (Bytes × Int)),
    addGo rnd n s = .ok (es, s') → (∀ e ∈ s.pool, e ∈ U) → (∀ e ∈ s.current, e ∈ U) →
    (∀ e ∈ es, e ∈ U) ∧ (∀ e ∈ s'.pool, e ∈ U) ∧ (∀ e ∈ s'.current, e ∈ U) := by
  intro n
  induction n with
  | zero =>
    intro s s' es h h1 h2
    simp only [addGo, Outcome.ok.injEq, Prod.mk.injEq] at h
    obtain ⟨rfl, rfl⟩ := h
    exact ⟨by simp, h1, h2⟩
  | succ n ih =>
    intro s s' es h h1 h2
    rw [addGo] at h
    simp only [Outcome.bind_eq_ok, Outcome.pure_eq, Outcome.ok.injEq, Prod.mk.injEq] at h
    obtain ⟨⟨e, uni⟩, he, ⟨es', s2⟩, hs, rfl, rfl⟩ := h
    obtain ⟨m1, m2⟩ := mem_sample he
    obtain ⟨i1, i2, i3⟩ := ih _ _ _ hs (fun x hx => h1 x (m2 x hx)) (fun x hx => by
      rcases mem_assign hx with rfl | hx
      · exact h1 _ m1
      · exact h2 x hx)
    refine ⟨?_, i2, i3⟩
    intro x hx
    rcases List.mem_cons.1 hx with rfl | hx
    · exact h1 _ m1
    · exact i1 x hx

/-- A row of a day: an entry of the universe, added or removed. -/
def RowOf (U : EMap) (e : Bytes × Int) : Prop := e ∈ U ∨ (e.1, -e.2) ∈ U

theorem delDays_mem (rnd : Nat → Nat) (daily dailyDel : Nat) (U : EMap) : ∀ (k : Nat) (s s' : DelSt) (days : List (List (Bytes × Int))),
    delDays rnd daily dailyDel k s = .ok (days, s') → (∀ e ∈ s.pool, e ∈ U) → (∀ e ∈ s.current, e ∈ U) →
    (∀ d ∈ days, ∀ e ∈ d, RowOf U e) ∧ (∀ e ∈ s'.pool, e ∈ U) ∧ (∀ e ∈ s'.current, e ∈ U) := by
  intro k
  induction k with
  | zero =>
    intro s s' days h h1 h2
    simp only [delDays, Outcome.ok.injEq, Prod.mk.injEq] at h
    obtain ⟨rfl, rfl⟩ := h
    exact ⟨by simp, h1, h2⟩
  | succ k ih =>
    intro s s' days h h1 h2
    rw [delDays] at h
    simp only [Outcome.bind_eq_ok, Outcome.pure_eq, Outcome.ok.injEq, Prod.mk.injEq] at h
    obtain ⟨⟨ds, s1⟩, a, ⟨as, s2⟩, b, ⟨rest, s3⟩, c, rfl, rfl⟩ := h
    obtain ⟨a1, a2, a3⟩ := delGo_mem rnd U _ _ _ _ a h1 h2
    obtain ⟨b1, b2, b3⟩ := addGo_mem rnd U _ _ _ _ b a2 a3
    obtain ⟨c1, c2, c3⟩ := ih _ _ _ c b2 b3
    refine ⟨fun d hd e he => ?_, c2, c3⟩
    rcases List.mem_cons.1 hd with rfl | hd
    · rcases List.mem_append.1 he with he | he
      · exact Or.inr (a1 e he)
      · exact Or.inl (b1 e he)
    · exact c1 d hd e he

theorem genDays_mem (rnd : Nat → Nat) (daily dailyDel total : Nat) (U : EMap) {pool cur : EMap} {days : List (List (Bytes × Int))}
    {s' : DelSt} (h : genDeletionDays rnd daily dailyDel total pool cur = .ok (days, s')) (h1 : ∀ e ∈ pool, e ∈ U)
    (h2 : ∀ e ∈ cur, e ∈ U) : ∀ d ∈ days, ∀ e ∈ d, RowOf U e := by
  unfold genDeletionDays at h
  split at h
  · simp at h
  · simp only [Outcome.bind_eq_ok, Outcome.pure_eq, Outcome.ok.injEq, Prod.mk.injEq] at h
    obtain ⟨⟨ds, s1⟩, a, ⟨extra, s2⟩, b, rfl, rfl⟩ := h
    obtain ⟨a1, a2, a3⟩ := delDays_mem rnd daily dailyDel U _ _ _ _ a h1 h2
    obtain ⟨b1, _, _⟩ := addGo_mem rnd U _ _ _ _ b a2 a3
    intro d hd e he
    cases ds with
    | nil =>
      simp only [extendFirst, List.mem_singleton] at hd
      subst hd
      exact Or.inl (b1 e he)
    | cons x xs =>
      simp only [extendFirst, List.mem_cons] at hd
      rcases hd with rfl | hd
      · rcases List.mem_append.1 he with he | he
        · exact a1 x (by simp) e he
        · exact Or.inl (b1 e he)
      · exact a1 d (by simp [hd]) e he

theorem fillGo_mem (func : Functionality) (payload : Nat → Int) : ∀ (es : List (Bytes × Bytes)) (i : Nat) (u0 u1 w0 w1 : EMap),
    fillGo func payload i es u0 u1 = .ok (w0, w1) →
    (∀ e ∈ w0, e ∈ u0 ∨ e.1 ∈ es.map Prod.fst ∧ ∃ j, delValue func (payload j) e.1 = .ok e.2) ∧
    (∀ e ∈ w1, e ∈ u1 ∨ e.1 ∈ es.map Prod.snd ∧ e.2 = 1) ∧
    ((u0.map Prod.fst).Nodup → (w0.map Prod.fst).Nodup) ∧ ((u1.map Prod.fst).Nodup → (w1.map Prod.fst).Nodup) := by
  intro es
  induction es with
  | nil =>
    intro i u0 u1 w0 w1 h
    simp only [fillGo, Outcome.ok.injEq, Prod.mk.injEq] at h
    obtain ⟨rfl, rfl⟩ := h
    exact ⟨fun e he => Or.inl he, fun e he => Or.inl he, id, id⟩
  | cons x es ih =>
    intro i u0 u1 w0 w1 h
    obtain ⟨a, b⟩ := x
    simp only [fillGo, Outcome.bind_eq_ok] at h
    obtain ⟨v, hv, h⟩ := h
    obtain ⟨i1, i2, i3, i4⟩ := ih _ _ _ _ _ h
    refine ⟨fun e he => ?_, fun e he => ?_, fun hn => i3 ((C54_map_assign u0 a v).2.2 hn), fun hn => i4 ((C54_map_assign u1 b 1).2.2 hn)⟩
    · rcases i1 e he with h | ⟨h1, h2⟩
      · rcases mem_assign h with rfl | h
        · exact Or.inr ⟨by simp, i, hv⟩
        · exact Or.inl h
      · exact Or.inr ⟨by simp only [List.map_cons, List.mem_cons]; exact Or.inr h1, h2⟩
    · rcases i2 e he with h | ⟨h1, h2⟩
      · rcases mem_assign h with rfl | h
        · exact Or.inr ⟨by simp, rfl⟩
        · exact Or.inl h
      · exact Or.inr ⟨by simp only [List.map_cons, List.mem_cons]; exact Or.inr h1, h2⟩

theorem ofRows_inj {a b : List (Bytes × Int)} (h : Dataset.ofRows a = Dataset.ofRows b) : a = b := by
  simp only [Dataset.ofRows, Dataset.mk.injEq] at h
  obtain ⟨h1, h2⟩ := h
  rw [← List.zip_unzip a, ← List.zip_unzip b, List.unzip_eq_map, List.unzip_eq_map, h1, h2]

/-- The value party zero gives an element: one for cardinality, its number for intersection, one of the drawn payloads for sum. -/
def ValueOK (func : Functionality) (R : DelRand) (e : Bytes) (v : Int) : Prop :=
  match func with
  | .CA => v = 1
  | .PSI => stoll e = .ok v
  | .SUM => ∃ j, v = R.payload j
  | _ => False

/-- **C54** (values) The rows of a generated history: every row of party zero is an element drawn for it, with plus or minus *the*
value of that element – one for cardinality, its number for intersection, one of the drawn payloads for sum –, the same value in
every row of the element; every row of party one is an element drawn for it with plus or minus one. -/
theorem C54_deletion_values (days daily start maxValue : Nat) (func : Functionality) (R : DelRand) (g : GenSets)
    (h : genDeletionSets days daily start maxValue func R = .ok g) :
    ∃ (t0 t1 : List (Bytes × Int)) (ds0 ds1 : List (List (Bytes × Int))) (val : Bytes → Int),
      g.tree0 = .ofRows t0 ∧ g.days0 = ds0.map .ofRows ∧ g.tree1 = .ofRows t1 ∧ g.days1 = ds1.map .ofRows ∧
      (∀ r ∈ t0 ++ ds0.flatten, r.1 ∈ R.shared ++ R.diff0 ∧ (r.2 = val r.1 ∨ r.2 = -val r.1) ∧
        ValueOK func R r.1 (val r.1)) ∧
      (∀ r ∈ t1 ++ ds1.flatten, r.1 ∈ R.shared ++ R.diff1 ∧ (r.2 = 1 ∨ r.2 = -1)) := by
  unfold genDeletionSets at h
  simp only at h
  split at h
  · simp at h
  split at h
  · simp at h
  simp only [Outcome.bind_eq_ok, Outcome.pure_eq, Outcome.ok.injEq] at h
  obtain ⟨⟨u0, u1⟩, hf, ⟨t0, u0', c0⟩, ht0, ⟨t1, u1', c1⟩, ht1, ⟨d0, s0⟩, hd0, ⟨d1, s1⟩, hd1, rfl⟩ := h
  obtain ⟨f1, f2, f3, f4⟩ := fillGo_mem func R.payload _ _ _ _ _ _ hf
  have hfst : ∀ k ∈ (R.shared.map (fun e => (e, e)) ++ R.diff0.zip R.diff1).map Prod.fst, k ∈ R.shared ++ R.diff0 := by
    intro k hk
    obtain ⟨x, hx, rfl⟩ := List.mem_map.1 hk
    rcases List.mem_append.1 hx with hx | hx
    · obtain ⟨e, he, rfl⟩ := List.mem_map.1 hx
      exact List.mem_append_left _ he
    · exact List.mem_append_right _ (List.of_mem_zip (a := x.1) (b := x.2) hx).1
  have hsnd : ∀ k ∈ (R.shared.map (fun e => (e, e)) ++ R.diff0.zip R.diff1).map Prod.snd, k ∈ R.shared ++ R.diff1 := by
    intro k hk
    obtain ⟨x, hx, rfl⟩ := List.mem_map.1 hk
    rcases List.mem_append.1 hx with hx | hx
    · obtain ⟨e, he, rfl⟩ := List.mem_map.1 hx
      exact List.mem_append_left _ he
    · exact List.mem_append_right _ (List.of_mem_zip (a := x.1) (b := x.2) hx).2
  rw [startGo_eq] at ht0 ht1
  simp only [Outcome.bind_eq_ok, Outcome.pure_eq, Outcome.ok.injEq, Prod.mk.injEq] at ht0 ht1
  obtain ⟨⟨e0, r0⟩, a0, rfl, rfl, rfl⟩ := ht0
  obtain ⟨⟨e1, r1⟩, a1, rfl, rfl, rfl⟩ := ht1
  obtain ⟨b1, b2, b3⟩ := addGo_mem _ u0 _ _ _ _ a0 (fun _ h => h) (by simp)
  obtain ⟨b1', b2', b3'⟩ := addGo_mem _ u1 _ _ _ _ a1 (fun _ h => h) (by simp)
  have q0 := genDays_mem _ _ _ _ u0 hd0 b2 b3
  have q1 := genDays_mem _ _ _ _ u1 hd1 b2' b3'
  have n0 := f3 (by simp)
  have hget : ∀ e ∈ u0, (EMap.get u0 e.1).getD 0 = e.2 := by
    intro e he
    obtain ⟨a, b, rfl⟩ := List.append_of_mem he
    rw [List.map_append, List.map_cons, List.nodup_append] at n0
    have hnone : a.find? (fun x => decide (x.1 = e.1)) = none := by
      rw [List.find?_eq_none]
      intro x hx
      have : x.1 ≠ e.1 := n0.2.2 x.1 (List.mem_map_of_mem hx) e.1 (by simp)
      simp [this]
    unfold EMap.get
    rw [List.find?_append, hnone]
    simp
  have hval : ∀ e ∈ u0, ValueOK func R e.1 ((EMap.get u0 e.1).getD 0) := by
    intro e he
    rcases f1 e he with h | ⟨_, j, hj⟩
    · simp at h
    · rw [hget e he]
      cases func with
      | CA => simp only [delValue, Outcome.ok.injEq] at hj; exact hj.symm
      | SUM => simp only [delValue, Outcome.ok.injEq] at hj; exact ⟨j, hj.symm⟩
      | PSI => exact hj
      | SS => simp [delValue] at hj
      | DEL => simp [delValue] at hj
  have row0 : ∀ r : Bytes × Int, RowOf u0 r → r.1 ∈ R.shared ++ R.diff0 ∧
      (r.2 = (EMap.get u0 r.1).getD 0 ∨ r.2 = -(EMap.get u0 r.1).getD 0) ∧ ValueOK func R r.1 ((EMap.get u0 r.1).getD 0) := by
    intro r hr
    rcases hr with hr | hr
    · refine ⟨?_, Or.inl (hget r hr).symm, hval r hr⟩
      rcases f1 r hr with h | ⟨h, _⟩
      · simp at h
      · exact hfst _ h
    · refine ⟨?_, Or.inr ?_, hval (r.1, -r.2) hr⟩
      · rcases f1 _ hr with h | ⟨h, _⟩
        · simp at h
        · exact hfst _ h
      · have := hget _ hr
        simp only at this
        omega
  have row1 : ∀ r : Bytes × Int, RowOf u1 r → r.1 ∈ R.shared ++ R.diff1 ∧ (r.2 = 1 ∨ r.2 = -1) := by
    intro r hr
    rcases hr with hr | hr
    · rcases f2 r hr with h | ⟨h, h'⟩
      · simp at h
      · exact ⟨hsnd _ h, Or.inl h'⟩
    · rcases f2 _ hr with h | ⟨h, h'⟩
      · simp at h
      · exact ⟨hsnd _ h, Or.inr (by simp only at h'; omega)⟩
  refine ⟨e0, e1, d0, d1, fun k => (EMap.get u0 k).getD 0, rfl, rfl, rfl, rfl, fun r hr => row0 r ?_, fun r hr => row1 r ?_⟩
  · rcases List.mem_append.1 hr with hr | hr
    · exact Or.inl (b1 r hr)
    · obtain ⟨d, hd, hr⟩ := List.mem_flatten.1 hr
      exact q0 d hd r hr
  · rcases List.mem_append.1 hr with hr | hr
    · exact Or.inl (b1' r hr)
    · obtain ⟨d, hd, hr⟩ := List.mem_flatten.1 hr
      exact q1 d hd r hr

/-- Non-vacuity: the generated history of `toyDelRand`, and an assignment to a present key. -/
example : ∃ g, genDeletionSets 2 4 1 9 .SUM toyDelRand = .ok g ∧ g.days0.length = 2 := ⟨_, rfl, rfl⟩

example : EMap.assign [([48], 3), ([49], 4)] [48] 7 = [([48], 7), ([49], 4)] := by decide

end Upsi.Data
