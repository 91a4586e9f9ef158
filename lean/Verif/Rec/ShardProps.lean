import Verif.Rec.Shard
import Mathlib.Data.List.Nodup
/-
Property theorems C37 (continued): sharding writer, merger and the whole external sort.
-/
namespace Upsi.Rec
open Upsi

variable {K : Type} [LinearOrder K]

theorem shardName_inj {p : String} {i j : Nat} (h : shardName p i = shardName p j) : i = j := by
  unfold shardName at h
  have : toString i = toString j := by
    have := congrArg String.toList h
    simp only [String.toList_append, List.append_cancel_left_eq] at this
    exact String.toList_inj.1 this
  exact Nat.repr_injective this

/-- A shard never has the name of the prefix itself, so the prefix can be the output file. -/
theorem out_ne_shard (out : String) : ∀ i, out ≠ shardName out i := by
  intro i h
  have := congrArg (fun s => s.toList.length) h
  simp only [shardName, String.toList_append, List.length_append] at this
  have h0 : (toString i).toList ≠ [] := by
    intro h
    have : toString i = "" := String.toList_inj.1 h
    have h2 := congrArg String.length this
    have := Nat.length_repr_pos (n := i)
    simp at h2
  have := List.length_pos_of_ne_nil h0
  omega

/-- Each file holds the corresponding records. -/
def Stored (fs : FS) (files : List String) (shards : List (List Bytes)) : Prop :=
  List.Forall₂ (fun f s => ∃ b, fs.data f = some b ∧ encodeAll s = .ok b) files shards

theorem Stored.mono {fs fs' : FS} {F : List String} {S : List (List Bytes)} (h : Stored fs F S)
    (he : ∀ f ∈ F, fs'.data f = fs.data f) : Stored fs' F S := by
  unfold Stored at *
  induction h with
  | nil => exact .nil
  | cons h1 _ ih =>
    obtain ⟨b, u, v⟩ := h1
    exact .cons ⟨b, by rw [he _ (by simp)]; exact u, v⟩ (ih (fun f hf => he f (by simp [hf])))

theorem Stored.exists {fs : FS} {F : List String} {S : List (List Bytes)} (h : Stored fs F S) :
    ∀ f ∈ F, fs.data f ≠ none := by
  unfold Stored at h
  induction h with
  | nil => simp
  | cons h1 _ ih =>
    obtain ⟨b, u, _⟩ := h1
    intro f hf
    rcases List.mem_cons.1 hf with rfl | hf
    · rw [u]; simp
    · exact ih f hf

/-- The writer after `R` has been written: some of it in sorted shards, the rest in the cache. -/
structure SWInv (key : Bytes → K) (p : String) (R : List Bytes) (fs0 : FS) (w : SW) (fs : FS)
    (shards : List (List Bytes)) : Prop where
  opened : w.isOpen = true
  healthy : w.healthy = true
  pre : w.pre = p
  idx : w.idx = shards.length
  files : w.files = (List.range shards.length).map (shardName p)
  stored : Stored fs w.files shards
  sorted : ∀ s ∈ shards, SortedBy key s
  perm : (shards.flatten ++ w.cache).Perm R
  other : ∀ n, (∀ i, i < shards.length → n ≠ shardName p i) → fs.data n = fs0.data n
  wr : fs.writable = fs0.writable

theorem encodeAll_of_short {rs : List Bytes} (h : ∀ r ∈ rs, r.length < 2 ^ 31) : ∃ b, encodeAll rs = .ok b :=
  C35_writable rs h

theorem flush_exact {key : Bytes → K} {p : String} {R : List Bytes} {fs0 : FS} {w : SW} {fs : FS}
    {shards : List (List Bytes)} (h : SWInv key p R fs0 w fs shards) (hw : ∀ i, fs0.writable (shardName p i) = true)
    (hl : ∀ r ∈ R, r.length < 2 ^ 31) :
    ∃ w' fs', w.flush key fs = (.ok (), w', fs') ∧
      SWInv key p R fs0 w' fs' (if w.cache = [] then shards else shards ++ [sortCache key w.cache]) ∧ w'.cache = [] ∧
      (w.cache ≠ [] → w'.bytes = 0) ∧ (w.cache = [] → w' = w) := by
  by_cases hc : w.cache = []
  · rw [if_pos hc]
    exact ⟨w, fs, by simp [SW.flush, h.healthy, hc], h, hc, fun h => absurd hc h, fun _ => rfl⟩
  · have hce : w.cache.isEmpty = false := by cases hm : w.cache with
      | nil => exact absurd hm hc
      | cons => rfl
    have hmem : ∀ r ∈ sortCache key w.cache, r.length < 2 ^ 31 := fun r hr =>
      hl r (h.perm.mem_iff.1 (List.mem_append_right _ ((sortCache_perm key _).mem_iff.1 hr)))
    obtain ⟨b, hb⟩ := encodeAll_of_short hmem
    rw [if_neg hc]
    refine ⟨_, _, by
      simp only [SW.flush, h.healthy, hce, h.wr, h.pre, hw, flushRecords, hb, Bool.not_true, Bool.false_eq_true, if_false]
      exact rfl, ?_, rfl, fun _ => rfl, fun h => absurd h hc⟩
    have hname : ∀ i, i < shards.length → shardName p i ≠ shardName p w.idx := by
      intro i hi e
      have := shardName_inj e
      have := h.idx
      omega
    refine ⟨h.opened, rfl, rfl, by simp [h.idx], ?_, ?_, ?_, ?_, ?_, h.wr⟩
    · simp only [h.files, List.length_append, List.length_singleton, List.range_succ, List.map_append, h.idx,
        List.map_cons, List.map_nil]
    · refine List.rel_append ?_ (.cons ⟨b, by simp [FS.set], hb⟩ .nil)
      refine h.stored.mono ?_
      intro f hf
      rw [h.files] at hf
      obtain ⟨i, hi, rfl⟩ := List.mem_map.1 hf
      simp only [FS.set]
      rw [if_neg (hname i (List.mem_range.1 hi))]
    · intro s hs
      rcases List.mem_append.1 hs with hs | hs
      · exact h.sorted s hs
      · rw [List.mem_singleton.1 hs]; exact sortCache_sorted key _
    · simp only [List.flatten_append, List.flatten_cons, List.flatten_nil, List.append_nil]
      exact ((sortCache_perm key _).append_left _).trans h.perm
    · intro n hn
      simp only [FS.set]
      rw [if_neg, h.other n]
      · intro i hi; exact hn i (by simp; omega)
      · rw [h.idx]; exact hn _ (by simp)

theorem flush_spec {key : Bytes → K} {p : String} {R : List Bytes} {fs0 : FS} {w : SW} {fs : FS}
    {shards : List (List Bytes)} (h : SWInv key p R fs0 w fs shards) (hw : ∀ i, fs0.writable (shardName p i) = true)
    (hl : ∀ r ∈ R, r.length < 2 ^ 31) :
    ∃ w' fs' shards', w.flush key fs = (.ok (), w', fs') ∧ SWInv key p R fs0 w' fs' shards' ∧ w'.cache = [] := by
  obtain ⟨w', fs', a, b, c, _⟩ := flush_exact h hw hl
  exact ⟨w', fs', _, a, b, c⟩

theorem write_spec {key : Bytes → K} {p : String} {R : List Bytes} {fs0 : FS} {w : SW} {fs : FS}
    {shards : List (List Bytes)} (h : SWInv key p R fs0 w fs shards) (hw : ∀ i, fs0.writable (shardName p i) = true)
    (hl : ∀ r ∈ R, r.length < 2 ^ 31) (maxBytes : Int) (r : Bytes) :
    ∃ w' fs' shards', w.write key maxBytes r fs = (.ok (), w', fs') ∧ SWInv key p (R ++ [r]) fs0 w' fs' shards' := by
  have key1 : ∃ w1 fs1 shards1, (if w.bytes > maxBytes then w.flush key fs else (.ok (), w, fs)) = (.ok (), w1, fs1) ∧
      SWInv key p R fs0 w1 fs1 shards1 := by
    split
    · obtain ⟨a, b, c, d, e, _⟩ := flush_spec h hw hl
      exact ⟨a, b, c, d, e⟩
    · exact ⟨w, fs, shards, rfl, h⟩
  obtain ⟨w1, fs1, s1, e1, e2⟩ := key1
  refine ⟨{ w1 with bytes := int32 (w1.bytes + r.length), cache := w1.cache ++ [r] }, fs1, s1, by
    simp only [SW.write, h.opened, h.healthy, Bool.not_true, Bool.false_eq_true, if_false, e1], ⟨e2.opened, e2.healthy, e2.pre, e2.idx, e2.files, e2.stored, e2.sorted, ?_, e2.other, e2.wr⟩⟩
  rw [← List.append_assoc]
  exact e2.perm.append_right [r]

theorem writeAll_spec {key : Bytes → K} {p : String} {fs0 : FS} (hw : ∀ i, fs0.writable (shardName p i) = true)
    (maxBytes : Int) (rs : List Bytes) : ∀ (R : List Bytes) (w : SW) (fs : FS) (shards : List (List Bytes)),
    SWInv key p R fs0 w fs shards → (∀ r ∈ R ++ rs, r.length < 2 ^ 31) →
    ∃ w' fs' shards', SW.writeAll key maxBytes rs w fs = (.ok (), w', fs') ∧ SWInv key p (R ++ rs) fs0 w' fs' shards' := by
  induction rs with
  | nil => intro R w fs shards h _; exact ⟨w, fs, shards, rfl, by simpa using h⟩
  | cons r rs ih =>
    intro R w fs shards h hl
    obtain ⟨w1, fs1, s1, e1, e2⟩ := write_spec h hw (fun r hr => hl r (by simp [hr])) maxBytes r
    obtain ⟨w2, fs2, s2, f1, f2⟩ := ih (R ++ [r]) w1 fs1 s1 e2 (by simpa using hl)
    exact ⟨w2, fs2, s2, by simp only [SW.writeAll, e1, f1], by simpa using f2⟩

theorem openAll_spec {fs : FS} {files : List String} {shards : List (List Bytes)}
    (h : Stored fs files shards) : ∃ bs, openAll fs files = .ok bs ∧ Enc bs shards := by
  unfold Stored at h
  induction h with
  | nil => exact ⟨[], rfl, .nil⟩
  | cons h1 _ ih =>
    obtain ⟨b, e1, e2⟩ := h1
    obtain ⟨bs, f1, f2⟩ := ih
    exact ⟨b :: bs, by simp [openAll, openRead, e1, f1], .cons e2 f2⟩

theorem deleteAll_spec (files : List String) : ∀ (fs : FS), files.Nodup → (∀ f ∈ files, fs.data f ≠ none) →
    ∃ fs', deleteAll files fs = .ok fs' ∧ ∀ n, fs'.data n = if n ∈ files then none else fs.data n := by
  induction files with
  | nil => intro fs _ _; exact ⟨fs, rfl, by simp⟩
  | cons f files ih =>
    intro fs hn he
    rw [List.nodup_cons] at hn
    obtain ⟨fs', a, b⟩ := ih (fs.remove f) hn.2 (by
      intro g hg
      simp only [FS.remove]
      rw [if_neg (by rintro rfl; exact hn.1 hg)]
      exact he g (by simp [hg]))
    refine ⟨fs', ?_, ?_⟩
    · cases hd : fs.data f with
      | none => exact absurd hd (he f (by simp))
      | some _ => simp only [deleteAll, hd, a]
    · intro n
      rw [b n]
      simp only [FS.remove, List.mem_cons]
      by_cases h1 : n ∈ files
      · simp [h1]
      · by_cases h2 : n = f <;> simp [h1, h2]

/-- From a writer that has taken `records` to the finished output. -/
theorem finish_spec {pq : PQ K} (hpq : HeapSpec pq) {key : Bytes → K} {p out : String} {records : List Bytes}
    {fs : FS} {w1 : SW} {fs1 : FS} {s1 : List (List Bytes)} (e2 : SWInv key p records fs w1 fs1 s1)
    (hw : ∀ i, fs.writable (shardName p i) = true) (ho : fs.writable out = true)
    (hout : ∀ i, out ≠ shardName p i) (hl : ∀ r ∈ records, r.length < 2 ^ 31) :
    ∃ files fs2 fs3 fs4 sorted b,
      w1.close key fs1 = (.ok files, SW.new, fs2) ∧
      merge pq key files out fs2 = .ok fs3 ∧ deleteAll files fs3 = .ok fs4 ∧
      sorted.Perm records ∧ SortedBy key sorted ∧
      encodeAll sorted = .ok b ∧ readAll b = (sorted, .ok ()) ∧
      fs4.data out = some b ∧ (∀ i < files.length, fs4.data (shardName p i) = none) ∧
      (∀ n, n ≠ out → (∀ i < files.length, n ≠ shardName p i) → fs4.data n = fs.data n) := by
  obtain ⟨w2, fs2, s2, f1, f2, f3⟩ := flush_spec e2 hw hl
  have hclose : w1.close key fs1 = (.ok w2.files, SW.new, fs2) := by
    simp only [SW.close, e2.opened, Bool.not_true, Bool.false_eq_true, if_false, f1]
  have hnm : ∀ f ∈ w2.files, ∃ i, i < s2.length ∧ f = shardName p i := by
    intro f hf
    rw [f2.files] at hf
    obtain ⟨i, hi, rfl⟩ := List.mem_map.1 hf
    exact ⟨i, List.mem_range.1 hi, rfl⟩
  have hne : ∀ f ∈ w2.files, f ≠ out := by
    intro f hf e
    obtain ⟨i, _, rfl⟩ := hnm f hf
    exact hout i e.symm
  -- the file system seen by the merger
  let fsm : FS := if w2.files.isEmpty then fs2.set out [] else fs2
  have hfsm : ∀ f, f ≠ out → fsm.data f = fs2.data f := by
    intro f hf
    show (if w2.files.isEmpty then fs2.set out [] else fs2).data f = _
    split
    · simp only [FS.set]; rw [if_neg hf]
    · rfl
  have hst : Stored fsm w2.files s2 := f2.stored.mono (fun f hf => hfsm f (hne f hf))
  obtain ⟨bs, g1, g2⟩ := openAll_spec hst
  obtain ⟨sorted, m1, m2, m3⟩ := merge_records hpq g2 f2.sorted
  have hperm : sorted.Perm records := by
    refine m2.trans ?_
    have := f2.perm
    rw [f3, List.append_nil] at this
    exact this
  obtain ⟨b, hb⟩ := encodeAll_of_short (rs := sorted) (fun r hr => hl r (hperm.mem_iff.1 hr))
  have hmerge : merge pq key w2.files out fs2 = .ok (fsm.set out b) := by
    have hwo : fs2.writable out = true := by rw [f2.wr]; exact ho
    simp only [merge, hwo, Bool.not_true, Bool.false_eq_true, if_false]
    show (openAll fsm w2.files >>= _) = _
    simp only [g1, Outcome.bind_ok, m1, hb]
    rfl
  have hnd : w2.files.Nodup := by
    rw [f2.files]
    exact List.Nodup.map (fun i j h => shardName_inj h) List.nodup_range
  have hmem : ∀ f ∈ w2.files, fs2.data f ≠ none := f2.stored.exists
  obtain ⟨fs4, k1, k2⟩ := deleteAll_spec w2.files (fsm.set out b) hnd (by
    intro f hf
    simp only [FS.set]
    rw [if_neg (hne f hf), hfsm f (hne f hf)]
    exact hmem f hf)
  refine ⟨w2.files, fs2, _, fs4, sorted, b, hclose, hmerge, k1, hperm, m3, hb, C35_roundtrip _ _ hb, ?_, ?_, ?_⟩
  · rw [k2, if_neg (fun h => hne out h rfl)]
    simp [FS.set]
  · intro i hi
    rw [k2, if_pos]
    rw [f2.files] at hi ⊢
    simp only [List.length_map, List.length_range] at hi
    exact List.mem_map.2 ⟨i, List.mem_range.2 hi, rfl⟩
  · intro n hn hn'
    have : n ∉ w2.files := by
      intro h; obtain ⟨i, hi, e⟩ := hnm n h; exact hn' i (by rw [f2.files]; simpa using hi) e
    rw [k2, if_neg this]
    simp only [FS.set]
    rw [if_neg hn, hfsm n hn]
    exact f2.other n (fun i hi => hn' i (by rw [f2.files]; simpa using hi))

/-- **C37** External sort: for every sequence of records, every key function, every shard size limit and
every tie-breaking of the priority queue, writing the records through the sharding writer, closing it,
merging the shards into a file that is not one of them and deleting the shards succeeds; the output file
holds the written records, all of them and nothing else, in ascending order of the key, no shard remains
and no other file is touched. -/
theorem C37_external_sort {pq : PQ K} (hpq : HeapSpec pq) (key : Bytes → K) (maxBytes : Int) (p out : String)
    (records : List Bytes) (fs : FS) (hw : ∀ i, fs.writable (shardName p i) = true) (ho : fs.writable out = true)
    (hout : ∀ i, out ≠ shardName p i) (hl : ∀ r ∈ records, r.length < 2 ^ 31) :
    ∃ w1 fs1 files fs2 fs3 fs4 sorted b,
      SW.writeAll key maxBytes records (SW.new.setPrefix p) fs = (.ok (), w1, fs1) ∧
      w1.close key fs1 = (.ok files, SW.new, fs2) ∧
      merge pq key files out fs2 = .ok fs3 ∧ deleteAll files fs3 = .ok fs4 ∧
      sorted.Perm records ∧ SortedBy key sorted ∧
      encodeAll sorted = .ok b ∧ readAll b = (sorted, .ok ()) ∧
      fs4.data out = some b ∧ (∀ i < files.length, fs4.data (shardName p i) = none) ∧
      (∀ n, n ≠ out → (∀ i < files.length, n ≠ shardName p i) → fs4.data n = fs.data n) := by
  have h0 : SWInv key p [] fs (SW.new.setPrefix p) fs [] :=
    ⟨rfl, rfl, rfl, rfl, rfl, .nil, by simp, List.Perm.refl _, fun _ _ => rfl, rfl⟩
  obtain ⟨w1, fs1, s1, e1, e2⟩ := writeAll_spec hw maxBytes records [] _ _ _ h0 (by simpa using hl)
  rw [List.nil_append] at e2
  obtain ⟨files, fs2, fs3, fs4, sorted, b, h⟩ := finish_spec hpq e2 hw ho hout hl
  exact ⟨w1, fs1, files, fs2, fs3, fs4, sorted, b, e1, h⟩

/-- **C37** With an injective key — such as the record itself, the default — the output is determined by
the multiset of records alone: two sorted permutations of the same records are equal, whatever the shard
size limit and the tie-breaking. -/
theorem C37_canonical (key : Bytes → K) (hk : Function.Injective key) (a b records : List Bytes)
    (ha : a.Perm records) (hb : b.Perm records) (sa : SortedBy key a) (sb : SortedBy key b) : a = b := by
  refine List.Perm.eq_of_pairwise (le := fun x y => key x ≤ key y) ?_ sa sb (ha.trans hb.symm)
  intro x y _ _ h1 h2
  exact hk (le_antisymm h1 h2)

/-- **C37** After a shard could not be created, every `Write` fails and changes nothing until `Close`,
which reports the failure and resets the writer. -/
theorem C37_unhealthy (key : Bytes → K) (maxBytes : Int) (w : SW) (fs : FS) (ho : w.isOpen = true)
    (hh : w.healthy = true) (hc : w.cache ≠ []) (hw : fs.writable (shardName w.pre w.idx) = false) :
    ∃ w', (∃ m, w.flush key fs = (.err m, w', fs)) ∧
      (∀ r, ∃ m, w'.write key maxBytes r fs = (.err m, w', fs)) ∧
      (∃ m, w'.close key fs = (.err m, SW.new, fs)) := by
  have hce : w.cache.isEmpty = false := by cases hm : w.cache with
    | nil => exact absurd hm hc
    | cons => rfl
  refine ⟨{ w with healthy := false, cache := sortCache key w.cache }, ⟨"Cannot open", by simp [SW.flush, hh, hce, hw]⟩,
    fun r => ⟨"ShardingWriter: Already unhealthy.", by simp [SW.write, ho]⟩,
    ⟨"ShardingWriter: Already unhealthy.", by simp [SW.close, ho, SW.flush]⟩⟩

/-- A priority queue that meets the specification. -/
def simplePQ : PQ K
  | [] => none
  | x :: xs =>
    match simplePQ xs with
    | none => some (x, [])
    | some (d, rest) => if d.key < x.key then some (d, x :: rest) else some (x, d :: rest)

theorem simplePQ_spec : HeapSpec (simplePQ (K := K)) := by
  intro h
  induction h with
  | nil => intro h; exact absurd rfl h
  | cons x xs ih =>
    intro _
    by_cases hx : xs = []
    · subst hx; exact ⟨x, [], rfl, List.Perm.refl _, by simp⟩
    · obtain ⟨d, rest, e1, e2, e3⟩ := ih hx
      by_cases hd : d.key < x.key
      · refine ⟨d, x :: rest, by simp [simplePQ, e1, hd], (e2.cons x).trans (List.Perm.swap _ _ _), ?_⟩
        intro e he
        rcases List.mem_cons.1 he with rfl | he
        · exact le_of_lt hd
        · exact e3 e he
      · refine ⟨x, d :: rest, by simp [simplePQ, e1, hd], e2.cons x, ?_⟩
        intro e he
        rcases List.mem_cons.1 he with rfl | he
        · exact not_lt.1 hd
        · exact (not_lt.1 hd).trans (e3 e he)

/-- A file system with one other file, everything writable. -/
def toyFS : FS := ⟨fun n => if n = "keep" then some [9] else none, fun _ => true⟩

/-- The files left behind by an external sort of four records by length, with a size limit that produces
three shards. -/
def toySort : Option (List String × Option Bytes × Option Bytes) :=
  match SW.writeAll List.length 2 [[5, 5, 5], [1], [2, 2], []] (SW.new.setPrefix "out") toyFS with
  | (.ok _, w1, fs1) =>
    match w1.close List.length fs1 with
    | (.ok files, _, fs2) =>
      match merge simplePQ List.length files "out" fs2 with
      | .ok fs3 => some (files, fs3.data "out", fs3.data "keep")
      | _ => none
    | _ => none
  | _ => none

/-- The hypotheses of C37 are met by a run with several shards. -/
example : toySort = some (["out0", "out1", "out2"], some [0, 1, 1, 2, 2, 2, 3, 5, 5, 5], some [9]) := by decide +kernel

end Upsi.Rec
