import Verif.Data.Gen
import Verif.Data.NamesProps
import Mathlib.Data.List.Nodup
import Mathlib.Data.List.Perm.Basic
import Mathlib.Algebra.BigOperators.Group.Finset.Basic
import Mathlib.Algebra.BigOperators.Group.List.Lemmas
/-
Property theorems C54: the mock data generators.
-/
namespace Upsi.Data
open Upsi

/-! ### addition only -/

theorem readRange_spec (l : List α) : ∀ (n i : Nat), i + n ≤ l.length → readRange l i n = .ok ((l.drop i).take n) := by
  intro n
  induction n with
  | zero => intro i _; simp [readRange]
  | succ n ih =>
    intro i h
    have hi : i < l.length := by omega
    rw [readRange, List.getElem?_eq_getElem hi]
    simp only [ih (i + 1) (by omega), Outcome.bind_ok, Outcome.pure_eq]
    rw [List.drop_eq_getElem_cons hi, List.take_succ_cons]

theorem cutDay_spec (p0 p1 : List Bytes) (vals : List Int) (i n : Nat) (h0 : i + n ≤ p0.length) (h1 : i + n ≤ p1.length)
    (h2 : i + n ≤ vals.length) : cutDay p0 p1 vals i n =
      .ok (⟨(p0.drop i).take n, (vals.drop i).take n⟩, ⟨(p1.drop i).take n, []⟩) := by
  simp [cutDay, readRange_spec _ _ _ h0, readRange_spec _ _ _ h1, readRange_spec _ _ _ h2]

theorem cutDays_spec (p0 p1 : List Bytes) (vals : List Int) (daily : Nat) : ∀ (k i : Nat),
    i + k * daily ≤ p0.length → i + k * daily ≤ p1.length → i + k * daily ≤ vals.length →
    ∃ as bs, cutDays p0 p1 vals daily k i = .ok (as, bs) ∧ as.length = k ∧ bs.length = k ∧
      (∀ a ∈ as, a.elements.length = daily ∧ a.values.length = daily) ∧
      (∀ b ∈ bs, b.elements.length = daily ∧ b.values = []) ∧
      as.flatMap (·.elements) = (p0.drop i).take (k * daily) ∧ bs.flatMap (·.elements) = (p1.drop i).take (k * daily) ∧
      as.flatMap (·.values) = (vals.drop i).take (k * daily) := by
  intro k
  induction k with
  | zero => intro i _ _ _; exact ⟨[], [], by simp [cutDays]⟩
  | succ k ih =>
    intro i h0 h1 h2
    rw [Nat.succ_mul] at h0 h1 h2
    obtain ⟨as, bs, e, l1, l2, a1, b1, f1, f2, f3⟩ := ih (i + daily) (by omega) (by omega) (by omega)
    refine ⟨_, _, by simp only [cutDays, cutDay_spec p0 p1 vals i daily (by omega) (by omega) (by omega), e, Outcome.bind_ok, Outcome.pure_eq]; rfl, by simp [l1], by simp [l2], ?_, ?_, ?_, ?_, ?_⟩
    · intro a ha
      rcases List.mem_cons.1 ha with rfl | ha
      · simp only [List.length_take, List.length_drop]; omega
      · exact a1 a ha
    · intro a ha
      rcases List.mem_cons.1 ha with rfl | ha
      · simp only [List.length_take, List.length_drop]; exact ⟨by omega, trivial⟩
      · exact b1 a ha
    all_goals
      simp only [List.flatMap_cons, f1, f2, f3]
      rw [Nat.succ_mul, Nat.add_comm (k * daily), List.take_add, List.drop_drop]

/-- The payloads of the pairs whose element is in the other set, added up. -/
def sharedSum (rows : List (Bytes × Int)) (other : List Bytes) : Int :=
  ((rows.filter (fun e => e.1 ∈ other)).map Prod.snd).sum

theorem sumGo_spec (p1 : List Bytes) : ∀ (es : List Bytes) (vs : List Int) (s B : Int), es.length = vs.length →
    (∀ v ∈ vs, 0 ≤ v ∧ v ≤ B) → 0 ≤ s → s + B * (es.filter (fun e => e ∈ p1)).length < 2 ^ 63 →
    sumGo p1 es vs s = .ok (s + sharedSum (es.zip vs) p1) := by
  intro es
  induction es with
  | nil => intro vs s B h _ _ _; simp [sumGo, sharedSum]
  | cons e es ih =>
    intro vs s B h hv hs hb
    cases vs with
    | nil => simp at h
    | cons v vs =>
      have hv0 := hv v (by simp)
      by_cases he : e ∈ p1
      · have hfe : ((e :: es).filter (fun e => e ∈ p1)) = e :: es.filter (fun e => e ∈ p1) := by simp [he]
        rw [hfe, List.length_cons] at hb
        have hB : 0 ≤ B * ((es.filter (fun e => e ∈ p1)).length : Int) := Int.mul_nonneg (by omega) (by omega)
        have hb2 : B * (((es.filter (fun e => e ∈ p1)).length + 1 : Nat) : Int) = B * ((es.filter (fun e => e ∈ p1)).length : Int) + B := by
          push_cast; rw [Int.mul_add, Int.mul_one]
        rw [hb2] at hb
        have := ih vs (s + v) B (by simpa using h) (fun x hx => hv x (by simp [hx])) (by omega) (by omega)
        simp only [sumGo, if_pos he, if_pos (show s + v < 2 ^ 63 by omega), this]
        simp [sharedSum, he]
        omega
      · have hfe : ((e :: es).filter (fun e => e ∈ p1)) = es.filter (fun e => e ∈ p1) := by simp [he]
        rw [hfe] at hb
        have := ih vs s B (by simpa using h) (fun x hx => hv x (by simp [hx])) hs hb
        simp only [sumGo, if_neg he, this]
        simp [sharedSum, he]

/-- All elements of a party, initial tree first, then day by day. -/
def allElements (tree : Dataset) (days : List Dataset) : List Bytes := tree.elements ++ days.flatMap (·.elements)

/-- All values in the same order. -/
def allValues (tree : Dataset) (days : List Dataset) : List Int := tree.values ++ days.flatMap (·.values)

/-- **C54** Addition-only data sets: when the drawn strings are pairwise distinct, generation succeeds; the
initial trees and the days have the requested sizes; over the whole history neither party has a duplicate;
exactly the requested number of elements is shared; the payloads of party zero are in range; and the
expected sum is the sum of party zero's payloads over the shared elements. -/
theorem C54_add_only (days daily start shared maxValue : Nat) (R : AddRand)
    (htot : start + days * daily < 2 ^ 32) (hsh : shared ≤ start + days * daily) (hmax : 0 < maxValue)
    (hov : shared ≤ (2 ^ 63 - 1) / maxValue)
    (hs : R.shared.length = shared) (h0 : R.fill0.length = start + days * daily - shared)
    (h1 : R.fill1.length = start + days * daily - shared)
    (hp0 : ∀ l, (R.shuffle0 l).Perm l) (hp1 : ∀ l, (R.shuffle1 l).Perm l)
    (hvl : R.vals.length = start + days * daily) (hv : ∀ v ∈ R.vals, 0 ≤ v ∧ v < maxValue)
    (hd : (R.shared ++ R.fill0 ++ R.fill1).Nodup) :
    ∃ g, genAddOnly days daily start shared maxValue R = .ok g ∧
      (g.tree0.elements.length = start ∧ g.tree1.elements.length = start ∧ g.days0.length = days ∧ g.days1.length = days ∧
        (∀ d ∈ g.days0, d.elements.length = daily ∧ d.values.length = daily) ∧
        (∀ d ∈ g.days1, d.elements.length = daily)) ∧
      (allElements g.tree0 g.days0).Nodup ∧ (allElements g.tree1 g.days1).Nodup ∧
      ((allElements g.tree0 g.days0).filter (fun e => e ∈ allElements g.tree1 g.days1)).length = shared ∧
      (allValues g.tree0 g.days0).length = start + days * daily ∧
      (∀ v ∈ allValues g.tree0 g.days0, 0 ≤ v ∧ v < maxValue) ∧
      g.sum = sharedSum ((allElements g.tree0 g.days0).zip (allValues g.tree0 g.days0)) (allElements g.tree1 g.days1) := by
  have hd' := hd
  rw [List.nodup_append] at hd
  obtain ⟨n0, nf1, hdis⟩ := hd
  rw [List.nodup_append] at n0
  obtain ⟨ns, nf0, hdis0⟩ := n0
  have hn0 : (R.shared ++ R.fill0).Nodup := List.nodup_append.2 ⟨ns, nf0, hdis0⟩
  have hn1 : (R.shared ++ R.fill1).Nodup :=
    List.nodup_append.2 ⟨ns, nf1, fun a ha b hb => hdis a (by simp [ha]) b hb⟩
  have hP0 := hp0 (R.shared ++ R.fill0)
  have hP1 := hp1 (R.shared ++ R.fill1)
  generalize hp0' : R.shuffle0 (R.shared ++ R.fill0) = p0 at hP0
  generalize hp1' : R.shuffle1 (R.shared ++ R.fill1) = p1 at hP1
  have l0 : p0.length = start + days * daily := by rw [hP0.length_eq, List.length_append, hs, h0]; omega
  have l1 : p1.length = start + days * daily := by rw [hP1.length_eq, List.length_append, hs, h1]; omega
  -- exactly the shared elements are common
  have hcommon : (p0.filter (fun e => e ∈ p1)).length = shared := by
    have e1 : (p0.filter (fun e => e ∈ p1)).Perm ((R.shared ++ R.fill0).filter (fun e => e ∈ p1)) := hP0.filter _
    rw [e1.length_eq, List.filter_append]
    have e2 : R.shared.filter (fun e => e ∈ p1) = R.shared := by
      rw [List.filter_eq_self]
      intro a ha
      simpa using hP1.mem_iff.2 (by simp [ha])
    have e3 : R.fill0.filter (fun e => e ∈ p1) = [] := by
      rw [List.filter_eq_nil_iff]
      intro a ha
      simp only [decide_eq_true_eq]
      intro hm
      rcases List.mem_append.1 (hP1.mem_iff.1 hm) with hm | hm
      · exact hdis0 a hm a ha rfl
      · exact hdis a (by simp [ha]) a hm rfl
    rw [e2, e3, List.append_nil, hs]
  have hbound : (0 : Int) + ((maxValue : Int) - 1) * (p0.filter (fun e => e ∈ p1)).length < 2 ^ 63 := by
    rw [hcommon]
    have h1 : shared * maxValue ≤ 2 ^ 63 - 1 := (Nat.le_div_iff_mul_le hmax).1 hov
    have h2 : ((maxValue : Int) - 1) * (shared : Int) ≤ (shared : Int) * maxValue := by
      rw [Int.sub_mul, Int.one_mul, Int.mul_comm]; omega
    have h3 : ((shared * maxValue : Nat) : Int) ≤ 2 ^ 63 - 1 := by omega
    rw [Int.natCast_mul] at h3
    omega
  have hsum := sumGo_spec p1 p0 R.vals 0 ((maxValue : Int) - 1) (by rw [l0, hvl]) (fun v hv' => by have := hv v hv'; omega)
    (Int.le_refl 0) hbound
  obtain ⟨as, bs, e, k1, k2, a1, b1, f1, f2, f3⟩ := cutDays_spec p0 p1 R.vals daily days start (by omega) (by omega) (by omega)
  have ht := cutDay_spec p0 p1 R.vals 0 start (by omega) (by omega) (by omega)
  have hall : ∀ {β : Type} (l : List β), l.length = start + days * daily →
      (l.drop 0).take start ++ (l.drop start).take (days * daily) = l := by
    intro β l hl
    rw [List.drop_zero, List.take_of_length_le (l := l.drop start) (by rw [List.length_drop]; omega), List.take_append_drop]
  refine ⟨⟨⟨(p0.drop 0).take start, (R.vals.drop 0).take start⟩, as, ⟨(p1.drop 0).take start, []⟩, bs, 0 + sharedSum (p0.zip R.vals) p1⟩, ?_, ?_, ?_⟩
  · unfold genAddOnly
    simp only [Nat.mod_eq_of_lt htot]
    rw [if_neg (by omega), if_neg (by omega), if_neg (by omega)]
    simp only [hp0', hp1', hsum, ht, e, Outcome.bind_ok, Outcome.pure_eq]
  · refine ⟨?_, ?_, k1, k2, a1, fun d hd => (b1 d hd).1⟩ <;> simp only [List.length_take, List.length_drop] <;> omega
  · simp only [allElements, allValues, f1, f2, f3, hall p0 l0, hall p1 l1, hall R.vals hvl]
    exact ⟨hP0.nodup_iff.2 hn0, hP1.nodup_iff.2 hn1, hcommon, hvl, hv, Int.zero_add _⟩

/-! ### with deletions -/

/-- The net payload of an element after the given rows. -/
def net (rows : List (Bytes × Int)) (k : Bytes) : Int := ((rows.filter (fun e => e.1 = k)).map Prod.snd).sum

/-- A row is legal after the rows `before`: it adds an absent element with a positive payload, or it removes
a present element by exactly its payload. -/
def ValidRow (before : List (Bytes × Int)) (r : Bytes × Int) : Prop :=
  (0 < r.2 ∧ net before r.1 = 0) ∨ (r.2 < 0 ∧ net before r.1 = -r.2)

/-- Every row is legal at its place. -/
def ValidHistory : List (Bytes × Int) → List (Bytes × Int) → Prop
  | _, [] => True
  | before, r :: rs => ValidRow before r ∧ ValidHistory (before ++ [r]) rs

theorem net_append (a b : List (Bytes × Int)) (k : Bytes) : net (a ++ b) k = net a k + net b k := by
  simp [net, List.filter_append]

theorem net_single (r : Bytes × Int) (k : Bytes) : net [r] k = if r.1 = k then r.2 else 0 := by
  unfold net; by_cases h : r.1 = k <;> simp [h]

theorem net_absent {m : List (Bytes × Int)} {k : Bytes} (h : k ∉ m.map Prod.fst) : net m k = 0 := by
  have : m.filter (fun e => e.1 = k) = [] := by
    rw [List.filter_eq_nil_iff]
    intro e he
    simp only [decide_eq_true_eq]
    rintro rfl
    exact h (List.mem_map.2 ⟨e, he, rfl⟩)
  simp [net, this]

theorem net_perm {a b : List (Bytes × Int)} (h : a.Perm b) (k : Bytes) : net a k = net b k :=
  ((h.filter _).map _).sum_eq

theorem ValidHistory.append {a b c : List (Bytes × Int)} (h1 : ValidHistory a b) (h2 : ValidHistory (a ++ b) c) :
    ValidHistory a (b ++ c) := by
  induction b generalizing a with
  | nil => simpa using h2
  | cons r b ih =>
    obtain ⟨x, y⟩ := h1
    exact ⟨x, ih y (by simpa using h2)⟩

/-- Legality only depends on the net payloads. -/
theorem ValidHistory.congr {a b c : List (Bytes × Int)} (h : ∀ k, net a k = net b k) (hv : ValidHistory a c) :
    ValidHistory b c := by
  induction c generalizing a b with
  | nil => trivial
  | cons r c ih =>
    obtain ⟨x, y⟩ := hv
    refine ⟨?_, ih (fun k => by rw [net_append, net_append, h]) y⟩
    unfold ValidRow at *
    rw [← h]; exact x

/-- The generator's state is sane. -/
structure GInv (s : DelSt) : Prop where
  pool : (s.pool.map Prod.fst).Nodup
  cur : (s.current.map Prod.fst).Nodup
  disj : ∀ k ∈ s.pool.map Prod.fst, k ∉ s.current.map Prod.fst
  posP : ∀ e ∈ s.pool, 0 < e.2
  posC : ∀ e ∈ s.current, 0 < e.2

theorem sample_spec (r : Nat) (m : EMap) (h : m ≠ []) :
    ∃ e m', sample r m = .ok (e, m') ∧ m.Perm (e :: m') ∧ m'.length + 1 = m.length := by
  have hl : r % m.length < m.length := Nat.mod_lt _ (List.length_pos_of_ne_nil h)
  refine ⟨m[r % m.length], m.eraseIdx (r % m.length), by simp [sample, List.getElem?_eq_getElem hl], ?_, ?_⟩
  · exact (List.getElem_cons_eraseIdx_perm hl).symm
  · rw [List.length_eraseIdx_of_lt hl]; omega

theorem assign_absent {m : EMap} {k : Bytes} (v : Int) (h : k ∉ m.map Prod.fst) : m.assign k v = m ++ [(k, v)] := by
  simp only [EMap.assign, if_neg h]

theorem delGo_spec (rnd : Nat → Nat) : ∀ (n : Nat) (s : DelSt), GInv s →
    ∃ es s', delGo rnd n s = .ok (es, s') ∧ GInv s' ∧ s'.pool = s.pool ∧ s'.ops = s.ops + es.length ∧
      es.length ≤ n ∧ (∀ e ∈ es, e.2 < 0) ∧ ValidHistory s.current es ∧ (∀ k, net (s.current ++ es) k = net s'.current k) ∧
      (es.map Prod.fst).Nodup ∧ (∀ k ∈ es.map Prod.fst, k ∈ s.current.map Prod.fst ∧ k ∉ s'.current.map Prod.fst) ∧
      (∀ k ∈ s'.current.map Prod.fst, k ∈ s.current.map Prod.fst) := by
  intro n
  induction n with
  | zero => intro s h; exact ⟨[], s, by simp [delGo], h, rfl, by simp, by simp, by simp, trivial, by simp, by simp, by simp, by simp⟩
  | succ n ih =>
    intro s h
    by_cases hc : s.current = []
    · exact ⟨[], s, by simp [delGo, hc], h, rfl, by simp, by simp, by simp, trivial, by simp, by simp, by simp, by simp⟩
    · have hce : s.current.isEmpty = false := by simpa using hc
      obtain ⟨e, m', e1, e2, _⟩ := sample_spec (rnd s.ops) s.current hc
      have hnd : ((e :: m').map Prod.fst).Nodup := ((e2.map Prod.fst).nodup_iff).1 h.cur
      rw [List.map_cons, List.nodup_cons] at hnd
      have hsub : ∀ k ∈ m'.map Prod.fst, k ∈ s.current.map Prod.fst := fun k hk =>
        (e2.map Prod.fst).mem_iff.2 (by rw [List.map_cons]; exact List.mem_cons_of_mem _ hk)
      have hek : e.1 ∈ s.current.map Prod.fst := (e2.map Prod.fst).mem_iff.2 (by simp)
      have hepos : 0 < e.2 := h.posC e (e2.mem_iff.2 (by simp))
      have hg : GInv { s with current := m', ops := s.ops + 1 } :=
        ⟨h.pool, hnd.2, fun k hk hk' => h.disj k hk (hsub k hk'), h.posP, fun x hx => h.posC x (e2.mem_iff.2 (by simp [hx]))⟩
      obtain ⟨es, s', f1, f2, f3, f4, f5, f6, f7, f8, f9, f10, f11⟩ := ih _ hg
      have hnet : net s.current e.1 = e.2 := by
        rw [net_perm e2, show e :: m' = [e] ++ m' from rfl, net_append, net_single, if_pos rfl, net_absent hnd.1]; omega
      have hrel : ∀ k, net (s.current ++ [(e.1, -e.2)]) k = net m' k := by
        intro k
        rw [net_append, net_perm e2, show e :: m' = [e] ++ m' from rfl, net_append, net_single, net_single]
        split <;> omega
      refine ⟨(e.1, -e.2) :: es, s', by simp [delGo, hce, e1, f1], f2, f3, by simp at f4 ⊢; omega, by simp; omega, ?_, ?_, ?_, ?_, ?_, ?_⟩
      · intro x hx
        rcases List.mem_cons.1 hx with rfl | hx
        · simp; exact hepos
        · exact f6 x hx
      · exact ⟨Or.inr ⟨by simpa using hepos, by simpa using hnet⟩, f7.congr (fun k => (hrel k).symm)⟩
      · intro k
        rw [← f8 k, show s.current ++ (e.1, -e.2) :: es = (s.current ++ [(e.1, -e.2)]) ++ es by simp, net_append, hrel, net_append]
      · rw [List.map_cons, List.nodup_cons]
        exact ⟨fun hm => hnd.1 (f10 _ hm).1, f9⟩
      · intro k hk
        rw [List.map_cons] at hk
        rcases List.mem_cons.1 hk with rfl | hk
        · exact ⟨hek, fun hm => hnd.1 (f11 _ hm)⟩
        · exact ⟨hsub k (f10 k hk).1, (f10 k hk).2⟩
      · intro k hk
        exact hsub k (f11 k hk)

theorem addGo_spec (rnd : Nat → Nat) : ∀ (n : Nat) (s : DelSt), GInv s → n ≤ s.pool.length →
    ∃ es s', addGo rnd n s = .ok (es, s') ∧ GInv s' ∧ s'.pool.length + n = s.pool.length ∧ s'.ops = s.ops + n ∧
      es.length = n ∧ (∀ e ∈ es, 0 < e.2) ∧ ValidHistory s.current es ∧ (∀ k, net (s.current ++ es) k = net s'.current k) ∧
      (es.map Prod.fst).Nodup ∧ (∀ k ∈ es.map Prod.fst, k ∈ s.pool.map Prod.fst) ∧
      (∀ k ∈ s'.pool.map Prod.fst, k ∈ s.pool.map Prod.fst ∧ k ∉ es.map Prod.fst) ∧
      (∀ k ∈ s'.current.map Prod.fst, k ∈ s.current.map Prod.fst ∨ k ∈ es.map Prod.fst) := by
  intro n
  induction n with
  | zero => intro s h _; exact ⟨[], s, by simp [addGo], h, rfl, by simp, by simp, by simp, trivial, by simp, by simp, by simp, by simp, fun k hk => Or.inl hk⟩
  | succ n ih =>
    intro s h hn
    have hne : s.pool ≠ [] := by intro e; rw [e] at hn; simp at hn
    obtain ⟨e, m', e1, e2, e3⟩ := sample_spec (rnd s.ops) s.pool hne
    have hnd : ((e :: m').map Prod.fst).Nodup := ((e2.map Prod.fst).nodup_iff).1 h.pool
    rw [List.map_cons, List.nodup_cons] at hnd
    have hsub : ∀ k ∈ m'.map Prod.fst, k ∈ s.pool.map Prod.fst := fun k hk =>
      (e2.map Prod.fst).mem_iff.2 (by rw [List.map_cons]; exact List.mem_cons_of_mem _ hk)
    have hek : e.1 ∈ s.pool.map Prod.fst := (e2.map Prod.fst).mem_iff.2 (by simp)
    have hnew : e.1 ∉ s.current.map Prod.fst := h.disj _ hek
    have hepos : 0 < e.2 := h.posP e (e2.mem_iff.2 (by simp))
    have has : s.current.assign e.1 e.2 = s.current ++ [e] := assign_absent e.2 hnew
    have hg : GInv { pool := m', current := s.current ++ [e], ops := s.ops + 1 } := by
      refine ⟨hnd.2, ?_, ?_, fun x hx => h.posP x (e2.mem_iff.2 (by simp [hx])), ?_⟩
      · show ((s.current ++ [e]).map Prod.fst).Nodup
        rw [List.map_append, List.nodup_append]
        refine ⟨h.cur, by simp, ?_⟩
        intro a ha b hb
        simp only [List.map_cons, List.map_nil, List.mem_singleton] at hb
        subst hb
        rintro rfl
        exact hnew ha
      · intro k hk hk'
        simp only [List.map_append, List.map_cons, List.map_nil, List.mem_append, List.mem_singleton] at hk'
        rcases hk' with hk' | rfl
        · exact h.disj k (hsub k hk) hk'
        · exact hnd.1 hk
      · intro x hx
        simp only [List.mem_append, List.mem_singleton] at hx
        rcases hx with hx | rfl
        · exact h.posC x hx
        · exact hepos
    obtain ⟨es, s', f1, f2, f3, f4, f5, f6, f7, f8, f9, f10, f11, f12⟩ := ih _ hg (by simp only; omega)
    simp only at f3 f4 f7 f8 f10 f12
    refine ⟨e :: es, s', by simp [addGo, e1, has, f1], f2, by omega, by omega, by simp [f5], ?_, ?_, ?_, ?_, ?_, ?_, ?_⟩
    · intro x hx
      rcases List.mem_cons.1 hx with rfl | hx
      · exact hepos
      · exact f6 x hx
    · exact ⟨Or.inl ⟨hepos, net_absent hnew⟩, f7⟩
    · intro k
      rw [← f8 k]; simp
    · rw [List.map_cons, List.nodup_cons]
      exact ⟨fun hm => hnd.1 (f10 _ hm), f9⟩
    · intro k hk
      rw [List.map_cons] at hk
      rcases List.mem_cons.1 hk with rfl | hk
      · exact hek
      · exact hsub k (f10 k hk)
    · intro k hk
      obtain ⟨g1, g2⟩ := f11 k hk
      refine ⟨hsub k g1, ?_⟩
      rw [List.map_cons, List.mem_cons, not_or]
      exact ⟨fun e' => hnd.1 (e' ▸ g1), g2⟩
    · intro k hk
      rcases f12 k hk with hk | hk
      · simp only [List.map_append, List.map_cons, List.map_nil, List.mem_append, List.mem_singleton] at hk
        rcases hk with hk | rfl
        · exact Or.inl hk
        · exact Or.inr (by simp)
      · exact Or.inr (by rw [List.map_cons]; exact List.mem_cons_of_mem _ hk)

/-- What a generated day looks like: the requested number of rows, removals first and at most the requested
number of them, no element twice. -/
def DayShape (daily dailyDel : Nat) (d : List (Bytes × Int)) : Prop :=
  d.length = daily ∧ (d.map Prod.fst).Nodup ∧
  ∃ ds as, d = ds ++ as ∧ ds.length ≤ dailyDel ∧ (∀ e ∈ ds, e.2 < 0) ∧ (∀ e ∈ as, 0 < e.2)

theorem delDays_spec (rnd : Nat → Nat) (daily dailyDel : Nat) (hdd : dailyDel ≤ daily) : ∀ (k : Nat) (s : DelSt), GInv s →
    k * daily ≤ s.pool.length →
    ∃ days s', delDays rnd daily dailyDel k s = .ok (days, s') ∧ GInv s' ∧ s'.ops = s.ops + k * daily ∧ days.length = k ∧
      (∀ d ∈ days, DayShape daily dailyDel d) ∧ ValidHistory s.current days.flatten ∧
      (∀ x, net (s.current ++ days.flatten) x = net s'.current x) := by
  intro k
  induction k with
  | zero => intro s h _; exact ⟨[], s, by simp [delDays], h, by simp, rfl, by simp, trivial, by simp⟩
  | succ k ih =>
    intro s h hk
    rw [Nat.succ_mul] at hk
    obtain ⟨ds, s1, a1, a2, a3, a4, a5, a6, a7, a8, a9, a10, a11⟩ := delGo_spec rnd dailyDel s h
    obtain ⟨as, s2, b1, b2, b3, b4, b5, b6, b7, b8, b9, b10, b11, b12⟩ := addGo_spec rnd (daily - ds.length) s1 a2 (by rw [a3]; omega)
    obtain ⟨days, s3, c1, c2, c3, c4, c5, c6, c7⟩ := ih s2 b2 (by rw [a3] at b3; omega)
    have hval : ValidHistory s.current (ds ++ as) := a7.append (b7.congr (fun x => (a8 x).symm))
    have hnet : ∀ x, net (s.current ++ (ds ++ as)) x = net s2.current x := by
      intro x; rw [← b8 x, ← List.append_assoc, net_append, a8, net_append]
    refine ⟨(ds ++ as) :: days, s3, by simp [delDays, a1, b1, c1], c2, by rw [Nat.succ_mul]; omega, by simp [c4], ?_, ?_, ?_⟩
    · intro d hd
      rcases List.mem_cons.1 hd with rfl | hd
      · refine ⟨by rw [List.length_append, b5]; omega, ?_, ds, as, rfl, a5, a6, b6⟩
        rw [List.map_append, List.nodup_append]
        refine ⟨a9, b9, ?_⟩
        intro x hx y hy
        rintro rfl
        have := b10 x hy
        rw [a3] at this
        exact h.disj x this (a10 x hx).1
      · exact c5 d hd
    · rw [List.flatten_cons]
      exact hval.append (c6.congr (fun x => (hnet x).symm))
    · intro x
      rw [List.flatten_cons, ← List.append_assoc, net_append, hnet, ← c7 x, net_append]

theorem genDays_spec (rnd : Nat → Nat) (daily dailyDel k : Nat) (hd : 0 < daily) (hdd : dailyDel ≤ daily) (pool cur : EMap)
    (h : GInv ⟨pool, cur, 0⟩) (hk : k * daily ≤ pool.length) (hk0 : 0 < k) :
    ∃ days s', genDeletionDays rnd daily dailyDel (daily * k) pool cur = .ok (days, s') ∧ GInv s' ∧ days.length = k ∧
      (∀ d ∈ days, DayShape daily dailyDel d) ∧ ValidHistory cur days.flatten ∧
      (∀ x, net (cur ++ days.flatten) x = net s'.current x) := by
  obtain ⟨days, s', a1, a2, a3, a4, a5, a6, a7⟩ := delDays_spec rnd daily dailyDel hdd k _ h hk
  refine ⟨days, s', ?_, a2, a4, a5, a6, a7⟩
  simp only [genDeletionDays, if_neg (Nat.pos_iff_ne_zero.1 hd), Nat.mul_div_cancel_left k hd, a1, Outcome.bind_ok]
  have : daily * k - s'.ops = 0 := by rw [a3, Nat.mul_comm]; simp
  rw [this]
  simp only [addGo, Outcome.bind_ok, Outcome.pure_eq]
  cases days with
  | nil => simp at a4; omega
  | cons d ds => simp [extendFirst]

theorem startGo_eq (rnd : Nat → Nat) : ∀ (n j : Nat) (u cur : EMap),
    startGo rnd j n u cur = (do let (es, s) ← addGo rnd n ⟨u, cur, j⟩; pure (es, s.pool, s.current)) := by
  intro n
  induction n with
  | zero => intro j u cur; rfl
  | succ n ih =>
    intro j u cur
    simp only [startGo, addGo]
    cases hs : sample (rnd j) u with
    | ok x =>
      simp only [Outcome.bind_ok, ih]
      cases addGo rnd n ⟨x.2, EMap.assign cur x.1.1 x.1.2, j + 1⟩ <;> rfl
    | _ => rfl

theorem fillGo_spec (func : Functionality) (payload : Nat → Int) : ∀ (es : List (Bytes × Bytes)) (i : Nat) (u0 u1 : EMap),
    (u0.map Prod.fst ++ es.map Prod.fst).Nodup → (u1.map Prod.fst ++ es.map Prod.snd).Nodup →
    (∀ e ∈ es, ∀ j, ∃ v, delValue func (payload j) e.1 = .ok v ∧ 0 < v) →
    ∃ w0 w1, fillGo func payload i es u0 u1 = .ok (u0 ++ w0, u1 ++ w1) ∧ w0.map Prod.fst = es.map Prod.fst ∧
      w1.map Prod.fst = es.map Prod.snd ∧ (∀ e ∈ w0, 0 < e.2) ∧ (∀ e ∈ w1, 0 < e.2) := by
  intro es
  induction es with
  | nil => intro i u0 u1 _ _ _; exact ⟨[], [], by simp [fillGo], rfl, rfl, by simp, by simp⟩
  | cons e es ih =>
    intro i u0 u1 h0 h1 hv
    obtain ⟨a, b⟩ := e
    obtain ⟨v, hv1, hv2⟩ := hv (a, b) (by simp) i
    have n0 : a ∉ u0.map Prod.fst := by
      intro hm; exact (List.nodup_append.1 h0).2.2 a hm a (by simp) rfl
    have n1 : b ∉ u1.map Prod.fst := by
      intro hm; exact (List.nodup_append.1 h1).2.2 b hm b (by simp) rfl
    obtain ⟨w0, w1, e1, e2, e3, e4, e5⟩ := ih (i + 1) (u0 ++ [(a, v)]) (u1 ++ [(b, 1)]) (by simpa using h0) (by simpa using h1)
      (fun e he => hv e (by simp [he]))
    refine ⟨(a, v) :: w0, (b, 1) :: w1, ?_, by simp [e2], by simp [e3], ?_, ?_⟩
    · simp only [fillGo, hv1, Outcome.bind_ok, assign_absent v n0, assign_absent 1 n1, e1]; simp
    · intro x hx
      rcases List.mem_cons.1 hx with rfl | hx
      · exact hv2
      · exact e4 x hx
    · intro x hx
      rcases List.mem_cons.1 hx with rfl | hx
      · show (0 : Int) < 1; decide
      · exact e5 x hx

/-- The result the parties should compute after the given rows: the number of common elements (`PSI`) or the
sum of party zero's net payloads over them. -/
def expected (func : Functionality) (rows0 rows1 : List (Bytes × Int)) : Int :=
  ((rows0.map Prod.fst).toFinset.filter (fun k => net rows0 k ≠ 0 ∧ net rows1 k ≠ 0)).sum
    (fun k => if func = .PSI then 1 else net rows0 k)

theorem net_entry {m : List (Bytes × Int)} (hn : (m.map Prod.fst).Nodup) {e : Bytes × Int} (he : e ∈ m) : net m e.1 = e.2 := by
  obtain ⟨a, b, rfl⟩ := List.append_of_mem he
  rw [List.map_append, List.map_cons, List.nodup_append, List.nodup_cons] at hn
  obtain ⟨_, ⟨h2, _⟩, h3⟩ := hn
  rw [show a ++ e :: b = a ++ ([e] ++ b) from rfl, net_append, net_append, net_single, if_pos rfl, net_absent h2,
    net_absent (fun hm => h3 e.1 hm e.1 (by simp) rfl)]
  omega

theorem net_ne_zero {m : List (Bytes × Int)} (hn : (m.map Prod.fst).Nodup) (hp : ∀ e ∈ m, 0 < e.2) (k : Bytes) :
    net m k ≠ 0 ↔ k ∈ m.map Prod.fst := by
  constructor
  · intro h
    by_contra hc
    exact h (net_absent hc)
  · intro h
    obtain ⟨e, he, rfl⟩ := List.mem_map.1 h
    rw [net_entry hn he]
    have := hp e he
    omega

theorem interSum_eq (func : Functionality) {rows0 rows1 m0 m1 : List (Bytes × Int)} (hn0 : (m0.map Prod.fst).Nodup)
    (hn1 : (m1.map Prod.fst).Nodup) (hp0 : ∀ e ∈ m0, 0 < e.2) (hp1 : ∀ e ∈ m1, 0 < e.2)
    (e0 : ∀ k, net rows0 k = net m0 k) (e1 : ∀ k, net rows1 k = net m1 k) :
    interSum func m0 m1 = expected func rows0 rows1 := by
  have hset : (rows0.map Prod.fst).toFinset.filter (fun k => net rows0 k ≠ 0 ∧ net rows1 k ≠ 0) =
      (m0.map Prod.fst).toFinset.filter (fun k => k ∈ m1.map Prod.fst) := by
    ext k
    simp only [Finset.mem_filter, List.mem_toFinset]
    rw [e0, e1, net_ne_zero hn0 hp0, net_ne_zero hn1 hp1]
    constructor
    · rintro ⟨_, h⟩; exact h
    · intro h
      refine ⟨?_, h⟩
      by_contra hc
      have := net_absent hc
      rw [e0] at this
      exact (net_ne_zero hn0 hp0 k).2 h.1 this
  unfold expected
  rw [hset, Finset.sum_filter, List.sum_toFinset _ hn0, List.map_map]
  unfold interSum
  congr 1
  apply List.map_congr_left
  intro e he
  simp only [Function.comp]
  rw [e0, net_entry hn0 he]

/-- What the generator promises for one party, in terms of its rows. -/
structure GoodHistory (start days daily : Nat) (tree : List (Bytes × Int)) (ds : List (List (Bytes × Int))) : Prop where
  startSize : tree.length = start
  dayCount : ds.length = days
  shape : ∀ d ∈ ds, DayShape daily (daily / 4) d
  valid : ValidHistory [] (tree ++ ds.flatten)

/-- **C54** Deletion data sets: when the drawn strings of each party are pairwise distinct and the payloads
positive, generation succeeds for any sampling; the initial trees and the days have the requested sizes,
with at most a quarter of removals per day, placed first, and no element twice in a day; over the whole
history no absent element is removed and no present element is added; and the expected result is the
difference of the correct results at the end and at the start. -/
theorem C54_deletion (days daily start maxValue : Nat) (func : Functionality) (R : DelRand)
    (htot : start + days * daily < 2 ^ 32) (hd : 0 < daily) (hk : 0 < days) (hmax : func = .SUM → 1 < maxValue)
    (hs : R.shared.length = (start + days * daily) / 3)
    (h0 : R.diff0.length = start + days * daily - (start + days * daily) / 3)
    (h1 : R.diff1.length = start + days * daily - (start + days * daily) / 3)
    (hn0 : (R.shared ++ R.diff0).Nodup) (hn1 : (R.shared ++ R.diff1).Nodup)
    (hv : ∀ e ∈ R.shared ++ R.diff0, ∀ j, ∃ v, delValue func (R.payload j) e = .ok v ∧ 0 < v) :
    ∃ g t0 ds0 t1 ds1, genDeletionSets days daily start maxValue func R = .ok g ∧
      g.tree0 = .ofRows t0 ∧ g.days0 = ds0.map .ofRows ∧ g.tree1 = .ofRows t1 ∧ g.days1 = ds1.map .ofRows ∧
      GoodHistory start days daily t0 ds0 ∧ GoodHistory start days daily t1 ds1 ∧
      g.sum = wrap64 (expected func (t0 ++ ds0.flatten) (t1 ++ ds1.flatten) - expected func t0 t1) := by
  have hlen : R.diff0.length = R.diff1.length := by omega
  have hf : (R.shared.map (fun e => (e, e)) ++ R.diff0.zip R.diff1).map Prod.fst = R.shared ++ R.diff0 := by
    rw [List.map_append, List.map_map, List.map_fst_zip (by omega)]
    simp [Function.comp_def]
  have hsn : (R.shared.map (fun e => (e, e)) ++ R.diff0.zip R.diff1).map Prod.snd = R.shared ++ R.diff1 := by
    rw [List.map_append, List.map_map, List.map_snd_zip (by omega)]
    simp [Function.comp_def]
  obtain ⟨u0, u1, a1, a2, a3, a4, a5⟩ := fillGo_spec func R.payload (R.shared.map (fun e => (e, e)) ++ R.diff0.zip R.diff1) 0 [] []
    (by rw [hf]; simpa using hn0) (by rw [hsn]; simpa using hn1)
    (fun e he j => hv e.1 (by rw [← hf]; exact List.mem_map_of_mem he) j)
  rw [hf] at a2
  rw [hsn] at a3
  have l0 : u0.length = start + days * daily := by
    have := congrArg List.length a2
    simp only [List.length_map, List.length_append] at this
    omega
  have l1 : u1.length = start + days * daily := by
    have := congrArg List.length a3
    simp only [List.length_map, List.length_append] at this
    omega
  have g0 : GInv ⟨u0, [], 0⟩ := ⟨by simp only; rw [a2]; exact hn0, by simp, by simp, a4, by simp⟩
  have g1 : GInv ⟨u1, [], 0⟩ := ⟨by simp only; rw [a3]; exact hn1, by simp, by simp, a5, by simp⟩
  obtain ⟨t0, s0, b1, b2, b3, _, b5, b6, b7, b8, _⟩ := addGo_spec R.start0 start _ g0 (by simp only; omega)
  obtain ⟨t1, s1, c1, c2, c3, _, c5, c6, c7, c8, _⟩ := addGo_spec R.start1 start _ g1 (by simp only; omega)
  simp only [List.nil_append] at b3 b8 c3 c8
  have g0' : GInv ⟨s0.pool, s0.current, 0⟩ := ⟨b2.pool, b2.cur, b2.disj, b2.posP, b2.posC⟩
  have g1' : GInv ⟨s1.pool, s1.current, 0⟩ := ⟨c2.pool, c2.cur, c2.disj, c2.posP, c2.posC⟩
  have hq : daily / 4 ≤ daily := Nat.div_le_self _ _
  obtain ⟨ds0, f0, d1, d2, d3, d4, d5, d6⟩ := genDays_spec R.idx0 daily (daily / 4) days hd hq _ _ g0' (by omega) hk
  obtain ⟨ds1, f1, e1, e2, e3, e4, e5, e6⟩ := genDays_spec R.idx1 daily (daily / 4) days hd hq _ _ g1' (by omega) hk
  refine ⟨⟨.ofRows t0, ds0.map .ofRows, .ofRows t1, ds1.map .ofRows, wrap64 (interSum func f0.current f1.current - interSum func s0.current s1.current)⟩,
    t0, ds0, t1, ds1, ?_, rfl, rfl, rfl, rfl, ⟨b5, d3, d4, ?_⟩, ⟨c5, e3, e4, ?_⟩, ?_⟩
  · unfold genDeletionSets
    simp only [if_neg (Nat.not_le.2 htot)]
    rw [if_neg (by rintro ⟨h, h', _⟩; have := hmax h; omega)]
    simp only [List.nil_append] at a1
    simp only [a1, startGo_eq, b1, c1, d1, e1, Outcome.bind_ok, Outcome.pure_eq]
  · exact ValidHistory.append (a := []) b7 (d5.congr (fun k => by rw [List.nil_append, b8]))
  · exact ValidHistory.append (a := []) c7 (e5.congr (fun k => by rw [List.nil_append, c8]))
  · rw [interSum_eq func d2.cur e2.cur d2.posC e2.posC (rows0 := t0 ++ ds0.flatten) (rows1 := t1 ++ ds1.flatten)
        (fun k => by rw [← d6 k, net_append, net_append, b8]) (fun k => by rw [← e6 k, net_append, net_append, c8]),
      interSum_eq func b2.cur c2.cur b2.posC c2.posC (rows0 := t0) (rows1 := t1) b8 c8]

/-- Non-vacuity of the deletion generator: two days of four operations after an initial tree of one. -/
def toyDelRand : DelRand :=
  ⟨[[48], [49], [50]], [[51], [52], [53], [54], [55], [56]], [[57], [52], [65], [66], [67], [68]], fun _ => 5, fun i => i, fun i => 7 * i,
    fun i => i + 2, fun i => i + 4⟩

example : ∃ g t0 ds0 t1 ds1, genDeletionSets 2 4 1 9 .SUM toyDelRand = .ok g ∧
      g.tree0 = .ofRows t0 ∧ g.days0 = ds0.map .ofRows ∧ g.tree1 = .ofRows t1 ∧ g.days1 = ds1.map .ofRows ∧
      GoodHistory 1 2 4 t0 ds0 ∧ GoodHistory 1 2 4 t1 ds1 ∧
      g.sum = wrap64 (expected .SUM (t0 ++ ds0.flatten) (t1 ++ ds1.flatten) - expected .SUM t0 t1) :=
  C54_deletion 2 4 1 9 .SUM toyDelRand (by decide) (by decide) (by decide) (by decide) rfl rfl rfl (by decide) (by decide)
    (fun _ _ _ => ⟨5, rfl, by decide⟩)

/-- Non-vacuity of the addition-only generator. -/
def toyAddRand : AddRand := ⟨[[48], [49]], [[50], [51], [52]], [[53], [54], [55]], List.reverse, id, [3, 1, 4, 1, 5]⟩

example : ∃ g, genAddOnly 2 2 1 2 9 toyAddRand = .ok g ∧ g.sum = 6 := ⟨_, rfl, rfl⟩

example : (toyAddRand.shared ++ toyAddRand.fill0 ++ toyAddRand.fill1).Nodup := by decide

/-- **C54** (why distinct draws matter) Two equal draws put a duplicate into a party's set. -/
theorem C54_duplicate_witness : ∃ g, genAddOnly 1 2 0 1 9 ⟨[[48]], [[48]], [[49]], id, id, [1, 1]⟩ = .ok g ∧
    ¬ (allElements g.tree0 g.days0).Nodup := ⟨_, rfl, by decide⟩

end Upsi.Data
