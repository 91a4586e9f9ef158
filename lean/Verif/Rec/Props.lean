import Verif.Rec.Model
import Mathlib.Data.List.Basic
import Mathlib.Data.List.TakeWhile
import Mathlib.Tactic.Ring
import Mathlib.Tactic.Linarith
/-
Property theorems C35 (record files) and C56 (line files).
-/
namespace Upsi.Rec
open Upsi

/-! ### varints -/

theorem varint_roundtrip : ∀ (k n : Nat) (t : Bytes), 0 < k → n < 128 ^ k →
    varintBytes k (writeVarint n ++ t) = .ok (writeVarint n, t) ∧ varintValue (writeVarint n) = n ∧
    (∃ c, (writeVarint n).getLast? = some c ∧ c.toNat < 128) := by
  intro k
  induction k with
  | zero => intro n t h; omega
  | succ k ih =>
    intro n t _ hn
    rw [writeVarint]
    by_cases h : n < 128
    · have e : (UInt8.ofNat n).toNat = n := by rw [UInt8.toNat_ofNat']; omega
      rw [if_pos h]
      refine ⟨?_, ?_, ⟨UInt8.ofNat n, rfl, by rw [e]; exact h⟩⟩
      · simp [varintBytes, e, h]
      · simp only [varintValue, e]; omega
    · rw [if_neg h]
      have hk : 0 < k := by
        rcases Nat.eq_zero_or_pos k with rfl | hk
        · simp at hn; omega
        · exact hk
      obtain ⟨a, b, c, hc, hc'⟩ := ih (n / 128) t hk (by rw [pow_succ] at hn; omega)
      have e : (UInt8.ofNat (n % 128 + 128)).toNat = n % 128 + 128 := by rw [UInt8.toNat_ofNat']; omega
      refine ⟨?_, ?_, ⟨c, ?_, hc'⟩⟩
      · rw [List.cons_append, varintBytes, if_neg (by rw [e]; omega), a]; rfl
      · simp only [varintValue, e, b]; omega
      · rw [List.getLast?_cons, hc]; rfl

theorem varint_ne_nil (n : Nat) : writeVarint n ≠ [] := by
  rw [writeVarint]; split <;> simp

theorem readVarint_write {n : Nat} (h : n < 2 ^ 31) : readVarint32 (writeVarint n) = n := by
  obtain ⟨_, b, c, hc, hc'⟩ := varint_roundtrip 5 n [] (by norm_num) (by norm_num; omega)
  rw [readVarint32, hc]
  simp only [if_pos hc', b]
  exact Nat.mod_eq_of_lt (by omega)

theorem readRecord_encode {r t : Bytes} (h : r.length < 2 ^ 31) :
    readRecord (writeVarint r.length ++ r ++ t) = .ok (r, t) := by
  obtain ⟨a, _, _⟩ := varint_roundtrip 5 r.length (r ++ t) (by norm_num) (by norm_num; omega)
  rw [readRecord, List.append_assoc]
  simp only [maxVarint32Size, a, Outcome.bind_ok, readVarint_write h]
  rw [fileRead, if_neg (by simp)]
  simp

/-- A proper prefix of a varint is read up to the end of the file. -/
theorem varint_truncated : ∀ (k n : Nat) (p s : Bytes), n < 128 ^ (k + 1) → writeVarint n = p ++ s → s ≠ [] →
    varintBytes (k + 1) p = .ok (p, []) ∧ ∀ c ∈ p, 128 ≤ c.toNat := by
  intro k
  induction k with
  | zero =>
    intro n p s hn h hs
    rw [writeVarint, if_pos (by simpa using hn)] at h
    cases p with
    | nil => exact ⟨rfl, by simp⟩
    | cons a p => simp at h; exact absurd h.2.2 hs
  | succ k ih =>
    intro n p s hn h hs
    cases p with
    | nil => exact ⟨rfl, by simp⟩
    | cons a p =>
      rw [writeVarint] at h
      split at h
      · simp at h; exact absurd h.2.2 hs
      · rw [List.cons_append, List.cons.injEq] at h
        obtain ⟨rfl, h⟩ := h
        obtain ⟨i1, i2⟩ := ih (n / 128) p s (by rw [pow_succ] at hn; omega) h hs
        have e : (UInt8.ofNat (n % 128 + 128)).toNat = n % 128 + 128 := by rw [UInt8.toNat_ofNat']; omega
        refine ⟨?_, ?_⟩
        · rw [varintBytes, if_neg (by rw [e]; omega), i1]; rfl
        · intro c hc
          rcases List.mem_cons.1 hc with rfl | hc
          · rw [e]; omega
          · exact i2 c hc

theorem readRecord_truncated {r p s : Bytes} (h : r.length < 2 ^ 31) (hp : writeVarint r.length ++ r = p ++ s)
    (hs : s ≠ []) : ∃ m, readRecord p = .err m := by
  rcases List.append_eq_append_iff.1 hp with ⟨a, h1, h2⟩ | ⟨c, h1, h2⟩
  · -- the size is complete
    obtain ⟨v, _, _⟩ := varint_roundtrip 5 r.length a (by norm_num) (by norm_num; omega)
    rw [readRecord, h1]
    simp only [maxVarint32Size, v, Outcome.bind_ok, readVarint_write h]
    rw [fileRead, if_pos]
    · exact ⟨_, rfl⟩
    · have := congrArg List.length h2
      rw [List.length_append] at this
      have : 0 < s.length := List.length_pos_of_ne_nil hs
      omega
  · by_cases hc : c = []
    · subst hc
      simp only [List.append_nil, List.nil_append] at h1 h2
      obtain ⟨v, _, _⟩ := varint_roundtrip 5 r.length [] (by norm_num) (by norm_num; omega)
      rw [List.append_nil] at v
      rw [readRecord, ← h1]
      simp only [maxVarint32Size, v, Outcome.bind_ok, readVarint_write h]
      rw [fileRead, if_pos]
      · exact ⟨_, rfl⟩
      · have : 0 < s.length := List.length_pos_of_ne_nil hs
        rw [h2] at this
        simpa using this
    · obtain ⟨v, w⟩ := varint_truncated 4 r.length p c (by norm_num; omega) h1 hc
      rw [readRecord]
      simp only [maxVarint32Size, v, Outcome.bind_ok]
      have : readVarint32 p = 2 ^ 32 - 1 := by
        rw [readVarint32]
        cases hl : p.getLast? with
        | none => rfl
        | some d =>
          have := w d (List.mem_of_getLast? hl)
          simp only; rw [if_neg (by omega)]
      rw [this, fileRead, if_pos (by simp)]
      exact ⟨_, rfl⟩

theorem varintBytes_length : ∀ (k : Nat) (p a b : Bytes), varintBytes k p = .ok (a, b) →
    p = a ++ b ∧ (p ≠ [] → a ≠ []) := by
  intro k
  induction k with
  | zero => intro p a b h; simp [varintBytes] at h
  | succ k ih =>
    intro p a b h
    cases p with
    | nil => simp [varintBytes] at h; simp [h]
    | cons c p =>
      rw [varintBytes] at h
      split at h
      · simp at h; obtain ⟨rfl, rfl⟩ := h; simp
      · simp only [Outcome.bind_eq_ok, Outcome.pure_eq, Outcome.ok.injEq, Prod.mk.injEq, Prod.exists] at h
        obtain ⟨x, y, hx, rfl, rfl⟩ := h
        rw [(ih _ _ _ hx).1]
        simp

theorem readRecord_shorter {p r t : Bytes} (h : readRecord p = .ok (r, t)) (hp : p ≠ []) : t.length < p.length := by
  simp only [readRecord, Outcome.bind_eq_ok, Prod.exists] at h
  obtain ⟨a, b, h1, h2⟩ := h
  obtain ⟨e, hne⟩ := varintBytes_length _ _ _ _ h1
  have := List.length_pos_of_ne_nil (hne hp)
  rw [fileRead] at h2
  split at h2
  · simp at h2
  · simp only [Outcome.ok.injEq, Prod.mk.injEq] at h2
    rw [e, ← h2.2, List.length_append, List.length_drop]
    omega

theorem varintBytes_total (k : Nat) (p : Bytes) : (∃ a, varintBytes k p = .ok a) ∨ ∃ m, varintBytes k p = .err m := by
  induction k generalizing p with
  | zero => exact Or.inr ⟨_, rfl⟩
  | succ k ih =>
    cases p with
    | nil => exact Or.inl ⟨_, rfl⟩
    | cons c p =>
      rw [varintBytes]
      split
      · exact Or.inl ⟨_, rfl⟩
      · rcases ih p with ⟨a, h⟩ | ⟨m, h⟩
        · rw [h]; exact Or.inl ⟨_, rfl⟩
        · rw [h]; exact Or.inr ⟨_, rfl⟩

theorem readRecord_total (p : Bytes) : (∃ a, readRecord p = .ok a) ∨ ∃ m, readRecord p = .err m := by
  rw [readRecord]
  rcases varintBytes_total maxVarint32Size p with ⟨a, h⟩ | ⟨m, h⟩
  · rw [h]
    simp only [Outcome.bind_ok, fileRead]
    split
    · exact Or.inr ⟨_, rfl⟩
    · exact Or.inl ⟨_, rfl⟩
  · rw [h]; exact Or.inr ⟨_, rfl⟩

theorem readAll_nil : readAll [] = ([], .ok ()) := by rw [readAll]; simp

theorem readAll_ok {p r t : Bytes} (hp : p ≠ []) (h : readRecord p = .ok (r, t)) :
    readAll p = (r :: (readAll t).1, (readAll t).2) := by
  have hs := readRecord_shorter h hp
  rw [readAll, dif_neg hp]
  split
  · rename_i r' t' hr
    rw [h] at hr
    simp only [Outcome.ok.injEq, Prod.mk.injEq] at hr
    obtain ⟨rfl, rfl⟩ := hr
    rw [dif_pos hs]
  all_goals rename_i hr; rw [h] at hr; simp at hr

theorem readAll_err {p : Bytes} {m : String} (hp : p ≠ []) (h : readRecord p = .err m) :
    readAll p = ([], .err m) := by
  rw [readAll, dif_neg hp]
  split <;> rename_i hr <;> rw [h] at hr <;> simp at hr
  rw [hr]

/-! ### C35 -/

/-- **C35** Any sequence of records written to a record file is read back identical and in order, and the
reader then reports no more records. -/
theorem C35_roundtrip (rs : List Bytes) (file : Bytes) (h : encodeAll rs = .ok file) :
    readAll file = (rs, .ok ()) := by
  induction rs generalizing file with
  | nil => simp [encodeAll] at h; subst h; exact readAll_nil
  | cons r rs ih =>
    simp only [encodeAll, encodeRecord, Outcome.bind_eq_ok, Outcome.pure_eq, Outcome.ok.injEq] at h
    obtain ⟨a, ha, b, hb, rfl⟩ := h
    split at ha
    · rename_i hl
      simp only [Outcome.ok.injEq] at ha
      subst ha
      rw [readAll_ok (by simp [varint_ne_nil]) (readRecord_encode hl), ih b hb]
    · simp at ha

/-- **C35** Every sequence of records below `2^31` bytes can be written. -/
theorem C35_writable (rs : List Bytes) (h : ∀ r ∈ rs, r.length < 2 ^ 31) : ∃ file, encodeAll rs = .ok file := by
  induction rs with
  | nil => exact ⟨_, rfl⟩
  | cons r rs ih =>
    obtain ⟨b, hb⟩ := ih (fun r hr => h r (by simp [hr]))
    exact ⟨_, by simp only [encodeAll, encodeRecord, if_pos (h r (by simp)), hb, Outcome.bind_ok]; rfl⟩

/-- **C35** The writer's contract, exactly: records up to `2^31 - 1` bytes are written; a longer one is outside it
(the length does not fit the `int` handed to protobuf). -/
theorem C35_too_long (r : Bytes) :
    (r.length < 2 ^ 31 → ∃ b, encodeRecord r = .ok b ∧ r <:+ b) ∧ (2 ^ 31 ≤ r.length → encodeRecord r = .ub) := by
  constructor
  · intro h
    exact ⟨_, by rw [encodeRecord, if_pos h], List.suffix_append _ _⟩
  · intro h
    rw [encodeRecord, if_neg (by omega)]

/-- **C35** A file cut off at any byte — a crash of the writer at any point — yields a prefix of the
records that were written, and never another record: either the cut was between two records and reading
ends normally, or reading ends with an error. -/
theorem C35_truncated (rs : List Bytes) (file pre : Bytes) (h : encodeAll rs = .ok file) (hp : pre <+: file) :
    ∃ k ≤ rs.length, (readAll pre).1 = rs.take k ∧
      (((readAll pre).2 = .ok () ∧ encodeAll (rs.take k) = .ok pre) ∨
       ((∃ m, (readAll pre).2 = .err m) ∧ encodeAll (rs.take k) ≠ .ok pre)) := by
  induction rs generalizing file pre with
  | nil =>
    simp [encodeAll] at h; subst h
    rw [List.prefix_nil.1 hp, readAll_nil]
    exact ⟨0, le_refl _, rfl, Or.inl ⟨rfl, rfl⟩⟩
  | cons r rs ih =>
    simp only [encodeAll, encodeRecord, Outcome.bind_eq_ok, Outcome.pure_eq, Outcome.ok.injEq] at h
    obtain ⟨a, ha, b, hb, rfl⟩ := h
    split at ha
    · rename_i hl
      simp only [Outcome.ok.injEq] at ha
      by_cases hne : pre = []
      · subst hne
        rw [readAll_nil]
        exact ⟨0, Nat.zero_le _, rfl, Or.inl ⟨rfl, rfl⟩⟩
      obtain ⟨t, ht⟩ := hp
      rcases List.append_eq_append_iff.1 ht with ⟨s, h1, h2⟩ | ⟨c, h1, h2⟩
      · by_cases hs : s = []
        · subst hs
          rw [List.append_nil] at h1
          subst h1
          have := readAll_ok (t := []) hne (by
            have := readRecord_encode (t := []) hl
            rw [List.append_nil, ha] at this; exact this)
          rw [this, readAll_nil]
          refine ⟨1, by simp, by simp, Or.inl ⟨rfl, ?_⟩⟩
          simp [encodeAll, encodeRecord, hl, ha]
        · obtain ⟨m, hm⟩ := readRecord_truncated hl (ha.trans h1) hs
          rw [readAll_err hne hm]
          refine ⟨0, Nat.zero_le _, rfl, Or.inr ⟨⟨m, rfl⟩, ?_⟩⟩
          simp only [List.take_zero, encodeAll, ne_eq, Outcome.ok.injEq]
          exact fun h => hne h.symm
      · subst h1
        have hr : readRecord (a ++ c) = .ok (r, c) := by rw [← ha]; exact readRecord_encode hl
        obtain ⟨k, hk, e1, e2⟩ := ih b c hb ⟨t, h2.symm⟩
        rw [readAll_ok hne hr]
        have henc : ∀ x, encodeAll ((r :: rs).take (k + 1)) = .ok (a ++ x) ↔ encodeAll (rs.take k) = .ok x := by
          intro x
          simp only [List.take_succ_cons, encodeAll, encodeRecord, if_pos hl, Outcome.bind_ok, ha,
            Outcome.bind_eq_ok, Outcome.pure_eq, Outcome.ok.injEq, List.append_cancel_left_eq]
          constructor
          · rintro ⟨y, hy, rfl⟩; exact hy
          · intro hx; exact ⟨x, hx, rfl⟩
        refine ⟨k + 1, by simpa using hk, by simp [e1], ?_⟩
        rw [henc, ne_eq, henc]
        exact e2
    · simp at ha

/-- **C35** Whatever the bytes of the file, reading it ends normally or with an error. -/
theorem C35_any_bytes (file : Bytes) : (readAll file).2 = .ok () ∨ ∃ m, (readAll file).2 = .err m := by
  generalize hn : file.length = n
  induction n using Nat.strong_induction_on generalizing file with
  | _ n ih =>
    by_cases hne : file = []
    · subst hne; rw [readAll_nil]; exact Or.inl rfl
    rcases readRecord_total file with ⟨⟨r, t⟩, h⟩ | ⟨m, h⟩
    · rw [readAll_ok hne h]
      exact ih _ (hn ▸ readRecord_shorter h hne) t rfl
    · rw [readAll_err hne h]; exact Or.inr ⟨m, rfl⟩

example : encodeAll [[1, 2, 3], [], List.replicate 200 7] =
    .ok ([3, 1, 2, 3, 0, 200, 1] ++ List.replicate 200 7) := by decide +kernel

/-- A cut inside the size of the third record: the first two are returned, then an error. -/
example : readAll [3, 1, 2, 3, 0, 200] = ([[1, 2, 3], []], .err "Error reading the file") := by decide +kernel

/-! ### C56: line files -/

/-- A line that survives a line file: no newline or NUL byte, no trailing carriage return, and short
enough for the reader's buffer. -/
structure GoodLine (l : Bytes) : Prop where
  noNewline : (10 : UInt8) ∉ l
  noNul : (0 : UInt8) ∉ l
  noCr : l.getLast? ≠ some 13
  short : l.length + 1 < 2048

theorem fgets_line : ∀ (l t : Bytes) (room : Nat), (10 : UInt8) ∉ l → l.length < room →
    fgets room (l ++ 10 :: t) = (l ++ [10], t) := by
  intro l
  induction l with
  | nil =>
    intro t room _ h
    cases room with
    | zero => simp at h
    | succ r => simp [fgets]
  | cons c l ih =>
    intro t room hn h
    cases room with
    | zero => simp at h
    | succ r =>
      have : ¬ c = 10 := fun e => hn (by simp [e])
      rw [List.cons_append, fgets, if_neg this, ih t r (fun h' => hn (by simp [h'])) (by simpa using h)]
      rfl

theorem readLine_good {l t : Bytes} (h : GoodLine l) : readLine (l ++ 10 :: t) = .ok (l, t) := by
  rw [readLine, if_neg (by simp), fgets_line l t _ h.noNewline (by have := h.short; simp only [lineMax]; omega)]
  have htw : (l ++ [10]).takeWhile (fun c => decide (c ≠ 0)) = l ++ [10] := by
    rw [List.takeWhile_eq_self_iff]
    intro c hc
    simp only [List.mem_append, List.mem_singleton] at hc
    rcases hc with hc | rfl
    · simp only [decide_eq_true_eq]; rintro rfl; exact h.noNul hc
    · decide
  simp only [htw]
  rw [if_pos (by simp), List.dropLast_concat, if_neg h.noCr]

/-- **C56** Lines without newline or NUL bytes, without trailing carriage return and of at most 2046
bytes, written with the line writer, are read back identical and in order. -/
theorem C56_lines_roundtrip (ls : List Bytes) (h : ∀ l ∈ ls, GoodLine l) (fuel : Nat) (hf : ls.length < fuel) :
    readLines fuel (encodeLines ls) = (ls, .ok ()) := by
  induction ls generalizing fuel with
  | nil =>
    cases fuel with
    | zero => omega
    | succ f => simp [readLines, encodeLines]
  | cons l ls ih =>
    cases fuel with
    | zero => omega
    | succ f =>
      have e : encodeLines (l :: ls) = l ++ 10 :: encodeLines ls := by simp [encodeLines]
      rw [e, readLines, if_neg (by simp), readLine_good (h l (by simp))]
      simp only
      rw [ih (fun l hl => h l (by simp [hl])) f (by simpa using hf)]

example : GoodLine [104, 105] := ⟨by decide, by decide, by decide, by decide⟩

/-- What is lost otherwise: a trailing carriage return is stripped, and a line that does not fit the
buffer comes back as two lines. -/
theorem C56_cr_witness : readLines 9 (encodeLines [[97, 13]]) = ([[97]], .ok ()) := by decide +kernel

theorem C56_long_witness : readLines 9 (encodeLines [List.replicate 2047 97]) =
    ([List.replicate 2047 97, []], .ok ()) := by decide +kernel

end Upsi.Rec
