import Verif.Rec.Props
import Std.Data.String.ToNat
import Mathlib.Data.List.Forall2
import Mathlib.Data.List.Perm.Basic
import Mathlib.Data.Set.Insert
import Mathlib.Order.Basic
/-
Property theorems C37: the external sorted merge.
-/
namespace Upsi.Rec
open Upsi

variable {K : Type} [LinearOrder K]

/-! ### specification -/

/-- Records in ascending order of their key. -/
def SortedBy (key : Bytes → K) (l : List Bytes) : Prop := l.Pairwise (fun a b => key a ≤ key b)

/-- What the standard guarantees of `priority_queue` with `HeapDataGreater`: some entry with a least key
is returned and removed. -/
def HeapSpec (pq : PQ K) : Prop :=
  ∀ h, h ≠ [] → ∃ d rest, pq h = some (d, rest) ∧ h.Perm (d :: rest) ∧ ∀ e ∈ rest, d.key ≤ e.key

/-! ### sorting the cache -/

theorem sortCache_perm (key : Bytes → K) (c : List Bytes) : (sortCache key c).Perm c := List.perm_insertionSort _ _

theorem sortCache_sorted (key : Bytes → K) (c : List Bytes) : SortedBy key (sortCache key c) := by
  have ht : IsTrans Bytes (fun a b => key a ≤ key b) := ⟨fun _ _ _ h1 h2 => le_trans h1 h2⟩
  have hT : Std.Total (fun a b : Bytes => key a ≤ key b) := ⟨fun a b => le_total (key a) (key b)⟩
  exact List.pairwise_insertionSort _ c

/-! ### merging -/

/-- The handles hold exactly the encoded records `Ls`. -/
def Enc (bs : List Bytes) (Ls : List (List Bytes)) : Prop := List.Forall₂ (fun b l => encodeAll l = .ok b) bs Ls

/-- Invariant of the merge: `S` are the readers whose next record, if any, is in the heap. -/
structure MInv (key : Bytes → K) (S : Nat → Prop) (m : MR K) (Ls : List (List Bytes)) : Prop where
  enc : Enc m.readers Ls
  hkey : ∀ d ∈ m.heap, d.key = key d.data
  hidx : ∀ d ∈ m.heap, d.index < Ls.length
  sorted : ∀ l ∈ Ls, SortedBy key l
  cover : ∀ i l, S i → Ls[i]? = some l → l ≠ [] → ∃ d ∈ m.heap, d.index = i ∧ ∀ r ∈ l, d.key ≤ key r

/-- The records not yet returned. -/
def pending (m : MR K) (Ls : List (List Bytes)) : List Bytes := m.heap.map HeapData.data ++ Ls.flatten

theorem encodeAll_cons {r : Bytes} {rs : List Bytes} {b : Bytes} (h : encodeAll (r :: rs) = .ok b) :
    ∃ b', encodeAll rs = .ok b' ∧ readRecord b = .ok (r, b') ∧ b ≠ [] := by
  simp only [encodeAll, encodeRecord, Outcome.bind_eq_ok, Outcome.pure_eq, Outcome.ok.injEq] at h
  obtain ⟨a, ha, b', hb, rfl⟩ := h
  split at ha
  · rename_i hl
    simp only [Outcome.ok.injEq] at ha
    subst ha
    exact ⟨b', hb, readRecord_encode hl, by simp [varint_ne_nil]⟩
  · simp at ha

theorem encodeAll_length {rs : List Bytes} {b : Bytes} (h : encodeAll rs = .ok b) : rs.length ≤ b.length := by
  induction rs generalizing b with
  | nil => simp
  | cons r rs ih =>
    obtain ⟨b', h1, h2, h3⟩ := encodeAll_cons h
    have := ih h1
    have := readRecord_shorter h2 h3
    simp only [List.length_cons]
    omega

theorem encodeAll_append {a b : List Bytes} {x y : Bytes} (ha : encodeAll a = .ok x) (hb : encodeAll b = .ok y) :
    encodeAll (a ++ b) = .ok (x ++ y) := by
  induction a generalizing x with
  | nil => simp [encodeAll] at ha; subst ha; simpa using hb
  | cons r a ih =>
    simp only [encodeAll, Outcome.bind_eq_ok, Outcome.pure_eq, Outcome.ok.injEq] at ha
    obtain ⟨u, hu, v, hv, rfl⟩ := ha
    simp only [List.cons_append, encodeAll, hu, Outcome.bind_ok, ih hv, List.append_assoc]
    rfl

theorem enc_getElem {bs : List Bytes} {Ls : List (List Bytes)} (h : Enc bs Ls) {i : Nat} (hi : i < Ls.length) :
    ∃ b l, bs[i]? = some b ∧ Ls[i]? = some l ∧ encodeAll l = .ok b := by
  unfold Enc at h
  induction h generalizing i with
  | nil => simp at hi
  | cons h1 h2 ih =>
    cases i with
    | zero => exact ⟨_, _, rfl, rfl, h1⟩
    | succ i =>
      obtain ⟨b, l, a1, a2, a3⟩ := ih (i := i) (by simpa using hi)
      exact ⟨b, l, by simpa using a1, by simpa using a2, a3⟩

theorem enc_set {bs : List Bytes} {Ls : List (List Bytes)} (h : Enc bs Ls) {i : Nat} {b : Bytes} {l : List Bytes}
    (hb : encodeAll l = .ok b) : Enc (bs.set i b) (Ls.set i l) := by
  unfold Enc at *
  induction h generalizing i with
  | nil => simp
  | cons h1 h2 ih =>
    cases i with
    | zero => exact .cons hb h2
    | succ i => exact .cons h1 ih

theorem flatten_set {Ls : List (List Bytes)} {i : Nat} {r : Bytes} {l : List Bytes} (h : Ls[i]? = some (r :: l)) :
    Ls.flatten.Perm (r :: (Ls.set i l).flatten) := by
  induction Ls generalizing i with
  | nil => simp at h
  | cons a Ls ih =>
    cases i with
    | zero => simp at h; subst h; simp
    | succ i =>
      simp only [List.set_cons_succ, List.flatten_cons]
      have := ih (i := i) (by simpa using h)
      exact (this.append_left a).trans List.perm_middle

theorem refill_spec {key : Bytes → K} {S : Nat → Prop} {m : MR K} {Ls : List (List Bytes)} (h : MInv key S m Ls)
    {i : Nat} (hi : i < Ls.length) :
    ∃ m' Ls', m.refill key i = .ok m' ∧ MInv key (fun j => S j ∨ j = i) m' Ls' ∧ Ls'.length = Ls.length ∧
      (pending m' Ls').Perm (pending m Ls) ∧ (Ls[i]? = some [] → m' = m ∧ Ls' = Ls) := by
  obtain ⟨b, l, e1, e2, e3⟩ := enc_getElem h.enc hi
  cases l with
  | nil =>
    simp only [encodeAll, Outcome.ok.injEq] at e3
    subst e3
    refine ⟨m, Ls, ?_, ⟨h.enc, h.hkey, h.hidx, h.sorted, ?_⟩, rfl, List.Perm.refl _, fun _ => ⟨rfl, rfl⟩⟩
    · simp [MR.refill, e1, hasMore]
    · rintro j l (hj | rfl) hl hne
      · exact h.cover j l hj hl hne
      · rw [e2] at hl; simp only [Option.some.injEq] at hl; exact absurd hl.symm hne
  | cons r l =>
    obtain ⟨b', f1, f2, f3⟩ := encodeAll_cons e3
    have hs := h.sorted _ (List.mem_of_getElem? e2)
    rw [SortedBy, List.pairwise_cons] at hs
    refine ⟨⟨m.readers.set i b', ⟨key r, r, i⟩ :: m.heap⟩, Ls.set i l, ?_, ⟨enc_set h.enc f1, ?_, ?_, ?_, ?_⟩,
      by simp, ?_, ?_⟩
    · have : hasMore b = true := by cases b with
        | nil => exact absurd rfl f3
        | cons => rfl
      simp [MR.refill, e1, this, f2]
    · intro d hd
      rcases List.mem_cons.1 hd with rfl | hd
      · rfl
      · exact h.hkey d hd
    · intro d hd
      rw [List.length_set]
      rcases List.mem_cons.1 hd with rfl | hd
      · exact hi
      · exact h.hidx d hd
    · intro l' hl'
      rcases List.mem_or_eq_of_mem_set hl' with hl' | rfl
      · exact h.sorted l' hl'
      · exact hs.2
    · intro j l' hj hl' hne
      by_cases hji : j = i
      · subst hji
        rw [List.getElem?_set_self hi] at hl'
        simp only [Option.some.injEq] at hl'
        subst hl'
        exact ⟨_, List.mem_cons_self, rfl, hs.1⟩
      · rw [List.getElem?_set_ne (fun e => hji e.symm)] at hl'
        obtain ⟨d, hd, hd'⟩ := h.cover j l' (hj.resolve_right hji) hl' hne
        exact ⟨d, List.mem_cons_of_mem _ hd, hd'⟩
    · simp only [pending, List.map_cons, List.cons_append]
      exact ((flatten_set e2).append_left _ |>.trans List.perm_middle).symm
    · intro hx; rw [e2] at hx; simp at hx

theorem refillAll_spec {key : Bytes → K} : ∀ (n i : Nat) (S : Nat → Prop) (m : MR K) (Ls : List (List Bytes)),
    MInv key S m Ls → i + n ≤ Ls.length →
    ∃ m' Ls', MR.refillAll key i n m = .ok m' ∧ MInv key (fun j => S j ∨ (i ≤ j ∧ j < i + n)) m' Ls' ∧
      Ls'.length = Ls.length ∧ (pending m' Ls').Perm (pending m Ls) := by
  intro n
  induction n with
  | zero =>
    intro i S m Ls h _
    refine ⟨m, Ls, rfl, ⟨h.enc, h.hkey, h.hidx, h.sorted, ?_⟩, rfl, List.Perm.refl _⟩
    rintro j l (hj | hj) hl hne
    · exact h.cover j l hj hl hne
    · omega
  | succ n ih =>
    intro i S m Ls h hn
    obtain ⟨m1, L1, a1, a2, a3, a4, _⟩ := refill_spec h (i := i) (by omega)
    obtain ⟨m2, L2, b1, b2, b3, b4⟩ := ih (i + 1) _ m1 L1 a2 (by omega)
    refine ⟨m2, L2, ?_, ⟨b2.enc, b2.hkey, b2.hidx, b2.sorted, ?_⟩, b3.trans a3, b4.trans a4⟩
    · simp only [MR.refillAll, a1, Outcome.bind_ok, b1]
    · rintro j l hj hl hne
      refine b2.cover j l ?_ hl hne
      rcases hj with hj | hj
      · exact Or.inl (Or.inl hj)
      · by_cases e : j = i
        · exact Or.inl (Or.inr e)
        · exact Or.inr (by omega)

theorem all_empty {key : Bytes → K} {m : MR K} {Ls : List (List Bytes)} (h : MInv key (fun _ => True) m Ls)
    (hh : m.heap = []) : Ls.flatten = [] ∧ m.hasMore = false := by
  have hl : ∀ l ∈ Ls, l = [] := by
    intro l hl
    by_contra hne
    obtain ⟨i, hi, rfl⟩ := List.mem_iff_getElem.1 hl
    obtain ⟨d, hd, _⟩ := h.cover i _ trivial (List.getElem?_eq_getElem hi) hne
    rw [hh] at hd; simp at hd
  refine ⟨List.flatten_eq_nil_iff.2 hl, ?_⟩
  have : ∀ b ∈ m.readers, b = [] := by
    intro b hb
    obtain ⟨i, hi, rfl⟩ := List.mem_iff_getElem.1 hb
    have hlen := h.enc.length_eq
    obtain ⟨b', l, e1, e2, e3⟩ := enc_getElem h.enc (i := i) (by omega)
    rw [hl l (List.mem_of_getElem? e2)] at e3
    simp only [encodeAll, Outcome.ok.injEq] at e3
    rw [List.getElem?_eq_getElem hi] at e1
    simp only [Option.some.injEq] at e1
    rw [e1, e3]
  simp only [MR.hasMore, hh, List.isEmpty_nil, Bool.not_true, Bool.false_or]
  rw [List.any_eq_false]
  intro b hb
  rw [this b hb]; simp [hasMore]

theorem hasMore_of_heap {m : MR K} (h : m.heap ≠ []) : m.hasMore = true := by
  cases hm : m.heap with
  | nil => exact absurd hm h
  | cons => simp [MR.hasMore, hm]

theorem read_spec {pq : PQ K} (hpq : HeapSpec pq) {key : Bytes → K} {m : MR K} {Ls : List (List Bytes)}
    (h : MInv key (fun _ => True) m Ls) (hh : m.heap ≠ []) :
    ∃ r m' Ls', m.read pq key = .ok (r, m') ∧ MInv key (fun _ => True) m' Ls' ∧
      (pending m Ls).Perm (r :: pending m' Ls') ∧ ∀ x ∈ pending m Ls, key r ≤ key x := by
  obtain ⟨d, rest, e1, e2, e3⟩ := hpq m.heap hh
  have hd : d ∈ m.heap := e2.mem_iff.2 List.mem_cons_self
  have hsub : ∀ e ∈ rest, e ∈ m.heap := fun e he => e2.mem_iff.2 (List.mem_cons_of_mem _ he)
  have h1 : MInv key (fun j => j ≠ d.index) ⟨m.readers, rest⟩ Ls := by
    refine ⟨h.enc, fun e he => h.hkey e (hsub e he), fun e he => h.hidx e (hsub e he), h.sorted, ?_⟩
    intro j l hj hl hne
    obtain ⟨e, he, he', he''⟩ := h.cover j l trivial hl hne
    refine ⟨e, ?_, he', he''⟩
    rcases List.mem_cons.1 (e2.mem_iff.1 he) with rfl | he
    · exact absurd he' (fun e => hj e.symm)
    · exact he
  obtain ⟨m2, L2, a1, a2, a3, a4, _⟩ := refill_spec h1 (h.hidx d hd)
  have hp : (pending m Ls).Perm (d.data :: pending m2 L2) := by
    refine List.Perm.trans ?_ (a4.symm.cons _)
    simp only [pending]
    exact (e2.map HeapData.data).append_right _
  refine ⟨d.data, m2, L2, ?_, ⟨a2.enc, a2.hkey, a2.hidx, a2.sorted, ?_⟩, hp, ?_⟩
  · have : m.heap.isEmpty = false := by cases hm : m.heap with
      | nil => exact absurd hm hh
      | cons => rfl
    simp [MR.read, this, e1, a1]
  · intro j l _ hl hne
    exact a2.cover j l (by by_cases e : j = d.index; exact Or.inr e; exact Or.inl e) hl hne
  · have hmin : ∀ e ∈ m.heap, d.key ≤ e.key := by
      intro e he
      rcases List.mem_cons.1 (e2.mem_iff.1 he) with rfl | he
      · exact le_refl _
      · exact e3 e he
    intro x hx
    rw [← h.hkey d hd]
    rcases List.mem_append.1 hx with hx | hx
    · obtain ⟨e, he, rfl⟩ := List.mem_map.1 hx
      rw [← h.hkey e he]; exact hmin e he
    · obtain ⟨l, hl, hx⟩ := List.mem_flatten.1 hx
      obtain ⟨i, hi, rfl⟩ := List.mem_iff_getElem.1 hl
      obtain ⟨e, he, _, he'⟩ := h.cover i _ trivial (List.getElem?_eq_getElem hi) (by
        intro e; rw [e] at hx; simp at hx)
      exact (hmin e he).trans (he' x hx)

theorem mergeLoop_spec {pq : PQ K} (hpq : HeapSpec pq) {key : Bytes → K} : ∀ (fuel : Nat) (m : MR K)
    (Ls : List (List Bytes)), MInv key (fun _ => True) m Ls → (pending m Ls).length < fuel →
    ∃ rs, mergeLoop pq key fuel m = .ok rs ∧ rs.Perm (pending m Ls) ∧ SortedBy key rs := by
  intro fuel
  induction fuel with
  | zero => intro m Ls _ h; omega
  | succ f ih =>
    intro m Ls h hf
    by_cases hh : m.heap = []
    · obtain ⟨a, b⟩ := all_empty h hh
      refine ⟨[], by simp [mergeLoop, b], ?_, by simp [SortedBy]⟩
      simp [pending, hh, a]
    · obtain ⟨r, m', L', a1, a2, a3, a4⟩ := read_spec hpq h hh
      have hl := a3.length_eq
      rw [List.length_cons] at hl
      obtain ⟨rs, b1, b2, b3⟩ := ih m' L' a2 (by omega)
      refine ⟨r :: rs, by simp [mergeLoop, hasMore_of_heap hh, a1, b1], (b2.cons r).trans a3.symm, ?_⟩
      rw [SortedBy, List.pairwise_cons]
      exact ⟨fun x hx => a4 x (a3.mem_iff.2 (List.mem_cons_of_mem _ (b2.mem_iff.1 hx))), b3⟩

theorem merge_records {pq : PQ K} (hpq : HeapSpec pq) {key : Bytes → K} {bs : List Bytes} {Ls : List (List Bytes)}
    (h : Enc bs Ls) (hs : ∀ l ∈ Ls, SortedBy key l) :
    ∃ rs, mergeLoop pq key ((⟨bs, []⟩ : MR K).size + 1) ⟨bs, []⟩ = .ok rs ∧ rs.Perm Ls.flatten ∧ SortedBy key rs := by
  have h0 : MInv key (fun _ => False) (⟨bs, []⟩ : MR K) Ls :=
    ⟨h, by simp, by simp, hs, fun _ _ hf => absurd hf id⟩
  have hfuel : Ls.flatten.length ≤ (⟨bs, []⟩ : MR K).size := by
    simp only [MR.size, List.length_nil, add_zero]
    unfold Enc at h
    clear h0 hs
    induction h with
    | nil => simp
    | cons h1 _ ih =>
      have := encodeAll_length h1
      simp only [List.flatten_cons, List.length_append, List.map_cons, List.sum_cons]
      omega
  have hlen := h.length_eq
  obtain ⟨m1, L1, a1, a2, a3, a4⟩ := refillAll_spec Ls.length 0 _ _ Ls h0 (by omega)
  have a5 : MInv key (fun _ => True) m1 L1 := ⟨a2.enc, a2.hkey, a2.hidx, a2.sorted, fun j l _ hl hne => by
    refine a2.cover j l (Or.inr ⟨Nat.zero_le _, ?_⟩) hl hne
    have := (List.getElem?_eq_some_iff.1 hl).1
    omega⟩
  have hp0 : pending (⟨bs, []⟩ : MR K) Ls = Ls.flatten := by simp [pending]
  rw [hp0] at a4
  by_cases hh : m1.heap = []
  · obtain ⟨b, _⟩ := all_empty a5 hh
    have hnil : Ls.flatten = [] := by
      have : pending m1 L1 = [] := by simp [pending, hh, b]
      rw [this] at a4
      exact List.perm_nil.1 a4.symm
    have h0' : MInv key (fun _ => True) (⟨bs, []⟩ : MR K) Ls := ⟨h, by simp, by simp, hs, fun i l _ hl hne => by
      exact absurd (List.flatten_eq_nil_iff.1 hnil l (List.mem_of_getElem? hl)) hne⟩
    obtain ⟨rs, c1, c2, c3⟩ := mergeLoop_spec hpq ((⟨bs, []⟩ : MR K).size + 1) _ _ h0' (by rw [hp0]; omega)
    exact ⟨rs, c1, by rw [← hp0]; exact c2, c3⟩
  · obtain ⟨rs, c1, c2, c3⟩ := mergeLoop_spec hpq ((⟨bs, []⟩ : MR K).size + 1) m1 L1 a5
      (by rw [a4.length_eq]; omega)
    refine ⟨rs, ?_, c2.trans a4, c3⟩
    rw [← c1]
    -- the first read refills the heap
    have hm0 : (⟨bs, []⟩ : MR K).hasMore = true := by
      by_contra hc
      have hall : ∀ b ∈ bs, b = [] := by
        simp only [MR.hasMore, List.isEmpty_nil, Bool.not_true, Bool.false_or, Bool.not_eq_true,
          List.any_eq_false] at hc
        intro b hb
        have := hc b hb
        simpa [hasMore] using this
      have : Ls.flatten = [] := by
        apply List.flatten_eq_nil_iff.2
        intro l hl
        obtain ⟨i, hi, rfl⟩ := List.mem_iff_getElem.1 hl
        obtain ⟨b, l', e1, e2, e3⟩ := enc_getElem h hi
        have hb := hall b (List.mem_of_getElem? e1)
        rw [List.getElem?_eq_getElem hi] at e2
        simp only [Option.some.injEq] at e2
        rw [e2]
        have := encodeAll_length e3
        rw [hb] at this
        exact List.length_eq_zero_iff.1 (by simpa using this)
      rw [this] at a4
      have := List.perm_nil.1 a4
      simp only [pending, List.append_eq_nil_iff, List.map_eq_nil_iff] at this
      exact hh this.1
    have hread : MR.read pq key (⟨bs, []⟩ : MR K) = MR.read pq key m1 := by
      have : m1.heap.isEmpty = false := by cases hm : m1.heap with
        | nil => exact absurd hm hh
        | cons => rfl
      simp only [MR.read, List.isEmpty_nil, if_true, this, Bool.false_eq_true, if_false, hlen, a1, Outcome.bind_ok]
    simp only [mergeLoop, hm0, hasMore_of_heap hh, hread]

end Upsi.Rec
