import Verif.Rec.ShardProps
import Mathlib.Data.List.Sort
/-
Property theorems C37 (continued): which records end up in which shard.
-/
namespace Upsi.Rec
open Upsi

variable {K : Type} [LinearOrder K]

/-! ### specification -/

/-- Number of bytes in a list of records. -/
def total (l : List Bytes) : Nat := (l.map List.length).sum

/-- Cutting a sequence of records into groups: a group is closed by the first record that arrives when the group
already holds more than `maxBytes` bytes.  `acc` is the group being filled. -/
def groups (maxBytes : Int) : List Bytes → List Bytes → List (List Bytes)
  | acc, [] => if acc = [] then [] else [acc]
  | acc, r :: rs =>
    if acc ≠ [] ∧ (total acc : Int) > maxBytes then acc :: groups maxBytes [r] rs else groups maxBytes (acc ++ [r]) rs

/-- `s` is the stable sort of `l` by key. -/
structure StableSort (key : Bytes → K) (l s : List Bytes) : Prop where
  perm : s.Perm l
  sorted : SortedBy key s
  stable : ∀ k, s.filter (fun r => key r = k) = l.filter (fun r => key r = k)

/-! ### proofs -/

theorem sortCache_stable (key : Bytes → K) (l : List Bytes) : StableSort key l (sortCache key l) := by
  refine ⟨sortCache_perm key l, sortCache_sorted key l, fun k => ?_⟩
  have hp : (l.filter (fun r => decide (key r = k))).Pairwise (fun a b => key a ≤ key b) := by
    rw [List.pairwise_iff_forall_sublist]
    intro a b hab
    have ha := List.mem_filter.1 (hab.subset (by simp : a ∈ [a, b]))
    have hb := List.mem_filter.1 (hab.subset (by simp : b ∈ [a, b]))
    simp only [decide_eq_true_eq] at ha hb
    rw [ha.2, hb.2]
  have h1 := (List.sublist_insertionSort hp List.filter_sublist).filter (fun r => decide (key r = k))
  rw [List.filter_filter] at h1
  simp only [Bool.and_self] at h1
  exact (h1.eq_of_length ((sortCache_perm key l).filter _).length_eq.symm).symm

theorem writeAll_groups {key : Bytes → K} {p : String} {fs0 : FS} (hw : ∀ i, fs0.writable (shardName p i) = true)
    {maxBytes : Int} (h0 : 0 ≤ maxBytes) (rs : List Bytes) : ∀ (R : List Bytes) (w : SW) (fs : FS) (L : List (List Bytes)),
    SWInv key p R fs0 w fs (L.map (sortCache key)) → w.bytes = total w.cache →
    (∀ r ∈ R ++ rs, r.length < 2 ^ 31) → (∀ r ∈ rs, maxBytes + r.length < 2 ^ 31) →
    ∃ w' fs' L', SW.writeAll key maxBytes rs w fs = (.ok (), w', fs') ∧
      SWInv key p (R ++ rs) fs0 w' fs' (L'.map (sortCache key)) ∧
      L' ++ (if w'.cache = [] then [] else [w'.cache]) = L ++ groups maxBytes w.cache rs := by
  induction rs with
  | nil =>
    intro R w fs L h hb _ _
    exact ⟨w, fs, L, rfl, by simpa using h, rfl⟩
  | cons r rs ih =>
    intro R w fs L h hb hl hm
    have hr := hm r (by simp)
    have h32 : ∀ t : Nat, (t : Int) + r.length < 2 ^ 31 → int32 ((t : Int) + r.length) = ((t + r.length : Nat) : Int) := by
      intro t ht
      unfold int32
      push_cast
      omega
    have step : ∃ w1 fs1 L1, w.write key maxBytes r fs = (.ok (), w1, fs1) ∧
        SWInv key p (R ++ [r]) fs0 w1 fs1 (L1.map (sortCache key)) ∧ w1.bytes = total w1.cache ∧
        L1 ++ groups maxBytes w1.cache rs = L ++ groups maxBytes w.cache (r :: rs) := by
      by_cases hf : w.bytes > maxBytes
      · have hc : w.cache ≠ [] := by
          intro hc
          rw [hb, hc] at hf
          simp [total] at hf
          omega
        obtain ⟨w1, fs1, e1, e2, e3, e4, -⟩ := flush_exact h hw (fun x hx => hl x (by simp [hx]))
        rw [if_neg hc] at e2
        refine ⟨{ w1 with bytes := int32 (w1.bytes + r.length), cache := w1.cache ++ [r] }, fs1, L ++ [w.cache], ?_, ?_, ?_, ?_⟩
        · simp only [SW.write, h.opened, h.healthy, Bool.not_true, Bool.false_eq_true, if_false, if_pos hf, e1]
        · rw [List.map_append, List.map_singleton]
          refine ⟨e2.opened, e2.healthy, e2.pre, e2.idx, e2.files, e2.stored, e2.sorted, ?_, e2.other, e2.wr⟩
          rw [← List.append_assoc]
          exact e2.perm.append_right [r]
        · dsimp only
          rw [e4 hc, e3]
          have := h32 0 (by push_cast; omega)
          simpa [total] using this
        · dsimp only
          rw [e3, List.nil_append, groups, if_pos ⟨hc, by rw [← hb]; exact hf⟩, List.append_assoc]
          rfl
      · refine ⟨{ w with bytes := int32 (w.bytes + r.length), cache := w.cache ++ [r] }, fs, L, ?_, ?_, ?_, ?_⟩
        · simp only [SW.write, h.opened, h.healthy, Bool.not_true, Bool.false_eq_true, if_false, if_neg hf]
        · refine ⟨h.opened, h.healthy, h.pre, h.idx, h.files, h.stored, h.sorted, ?_, h.other, h.wr⟩
          rw [← List.append_assoc]
          exact h.perm.append_right [r]
        · dsimp only
          rw [hb, h32 _ (by rw [← hb]; omega)]
          simp [total]
        · dsimp only
          rw [groups, if_neg (by rw [← hb]; exact fun h => hf h.2)]
    obtain ⟨w1, fs1, L1, a1, a2, a3, a4⟩ := step
    obtain ⟨w2, fs2, L2, b1, b2, b3⟩ := ih (R ++ [r]) w1 fs1 L1 a2 a3 (by simpa using hl) (fun x hx => hm x (by simp [hx]))
    exact ⟨w2, fs2, L2, by simp only [SW.writeAll, a1, b1], by simpa using b2, by rw [b3, a4]⟩

/-- **C37** The shards themselves: as long as the byte counter cannot overflow (`maxBytes` plus one record below
`2^31`), after writing and closing there is one shard per group of the specification, numbered from zero, and each
holds its group in stable order of the key. -/
theorem C37_shards (key : Bytes → K) {maxBytes : Int} (h0 : 0 ≤ maxBytes) (p : String) (records : List Bytes) (fs : FS)
    (hw : ∀ i, fs.writable (shardName p i) = true) (hl : ∀ r ∈ records, maxBytes + r.length < 2 ^ 31) :
    ∃ w1 fs1 fs2,
      SW.writeAll key maxBytes records (SW.new.setPrefix p) fs = (.ok (), w1, fs1) ∧
      w1.close key fs1 =
        (.ok ((List.range (groups maxBytes [] records).length).map (shardName p)), SW.new, fs2) ∧
      ∀ i g, (groups maxBytes [] records)[i]? = some g →
        ∃ s b, StableSort key g s ∧ encodeAll s = .ok b ∧ fs2.data (shardName p i) = some b := by
  have hi : SWInv key p [] fs (SW.new.setPrefix p) fs (([] : List (List Bytes)).map (sortCache key)) :=
    ⟨rfl, rfl, rfl, rfl, rfl, .nil, by simp, List.Perm.refl _, fun _ _ => rfl, rfl⟩
  have hl' : ∀ r ∈ records, r.length < 2 ^ 31 := fun r hr => by have := hl r hr; omega
  obtain ⟨w1, fs1, L, e1, e2, e3⟩ := writeAll_groups hw h0 records [] _ _ [] hi rfl (by simpa using hl') hl
  rw [List.nil_append] at e2 e3
  change _ = groups maxBytes [] records at e3
  obtain ⟨w2, fs2, f1, f2, -⟩ := flush_exact e2 hw hl'
  have hS : (if w1.cache = [] then L.map (sortCache key) else L.map (sortCache key) ++ [sortCache key w1.cache]) =
      (groups maxBytes [] records).map (sortCache key) := by
    rw [← e3]
    split <;> simp
  rw [hS] at f2
  refine ⟨w1, fs1, fs2, e1, ?_, ?_⟩
  · simp only [SW.close, e2.opened, Bool.not_true, Bool.false_eq_true, if_false, f1, f2.files, List.length_map]
  · intro i g hg
    have hst := f2.stored
    rw [f2.files, List.length_map] at hst
    have hlt : i < (groups maxBytes [] records).length := (List.getElem?_eq_some_iff.1 hg).1
    have hlen : i < ((List.range (groups maxBytes [] records).length).map (shardName p)).length := by simpa using hlt
    have hlen2 : i < ((groups maxBytes [] records).map (sortCache key)).length := by simpa using hlt
    obtain ⟨b, hb1, hb2⟩ := List.Forall₂.get hst hlen hlen2
    obtain ⟨_, hge⟩ := List.getElem?_eq_some_iff.1 hg
    have e1' : ((List.range (groups maxBytes [] records).length).map (shardName p)).get ⟨i, hlen⟩ = shardName p i := by
      simp
    have e2' : ((groups maxBytes [] records).map (sortCache key)).get ⟨i, hlen2⟩ = sortCache key g := by
      simp [hge]
    rw [e1'] at hb1
    rw [e2'] at hb2
    exact ⟨_, b, sortCache_stable key g, hb2, hb1⟩

theorem groups_spec {maxBytes : Int} (h0 : 0 ≤ maxBytes) (rs : List Bytes) : ∀ acc : List Bytes,
    (acc = [] ∨ (total acc.dropLast : Int) ≤ maxBytes) →
    (groups maxBytes acc rs).flatten = acc ++ rs ∧
    ∀ g ∈ groups maxBytes acc rs, g ≠ [] ∧ (total g.dropLast : Int) ≤ maxBytes := by
  induction rs with
  | nil =>
    intro acc ha
    rw [groups]
    split
    · rename_i h; simp [h]
    · rename_i h
      refine ⟨by simp, ?_⟩
      intro g hg
      rw [List.mem_singleton.1 hg]
      exact ⟨h, ha.resolve_left h⟩
  | cons r rs ih =>
    intro acc ha
    rw [groups]
    split
    · rename_i h
      obtain ⟨h1, h2⟩ := ih [r] (Or.inr (by simpa [total] using h0))
      refine ⟨by simp [h1], ?_⟩
      intro g hg
      rcases List.mem_cons.1 hg with rfl | hg
      · exact ⟨h.1, ha.resolve_left h.1⟩
      · exact h2 g hg
    · rename_i h
      have : (total acc : Int) ≤ maxBytes := by
        by_cases hc : acc = []
        · simpa [hc, total] using h0
        · exact not_lt.1 (fun h' => h ⟨hc, h'⟩)
      obtain ⟨h1, h2⟩ := ih (acc ++ [r]) (Or.inr (by simpa using this))
      exact ⟨by simp [h1], h2⟩

/-- **C37** The groups are the written records in order, none is empty, and a shard exceeds the size limit by at most
its last record. -/
theorem C37_shard_bound {maxBytes : Int} (h0 : 0 ≤ maxBytes) (records : List Bytes) :
    (groups maxBytes [] records).flatten = records ∧
    ∀ g ∈ groups maxBytes [] records, g ≠ [] ∧ (total g.dropLast : Int) ≤ maxBytes := by
  simpa using groups_spec h0 records [] (Or.inl rfl)

/-- Four records with a limit of two bytes: three shards. -/
example : groups 2 [] [[5, 5, 5], [1], [2, 2], []] = [[[5, 5, 5]], [[1], [2, 2]], [[]]] := by decide

/-- Negation witness: without the overflow hypothesis the counter wraps and no group is ever closed. -/
example : int32 (2 ^ 31 - 1 + 1) < 0 := by decide

end Upsi.Rec
