import Verif.Rec.ProcessProps
import Mathlib.Data.Nat.Digits.Defs
/-
Property theorem C35 (continued): files that do not exist.
-/
namespace Upsi.Rec
open Upsi

/-- **C35** (missing file) A file that does not exist is an error to each of the helpers and to the record processor, never an
empty sequence of records; nothing is written. -/
theorem C35_missing_file {K I O : Type} [LinearOrder K] (P : ProcParams K I O) (picks : Nat → List Nat) (parse : Bytes → I) (name output : String)
    (fs : FS) (h : fs.data name = none) :
    (∃ m, readProtosFromFile parse name fs = .err m) ∧ (∃ m, readProtoFromFile parse name fs = .err m) ∧
    (∃ m, processFile P picks name output fs = .err m) := by
  refine ⟨⟨"Open failed", ?_⟩, ⟨"Open failed", ?_⟩, ⟨"Open failed", ?_⟩⟩
  · unfold readProtosFromFile openRead; rw [h]; rfl
  · unfold readProtoFromFile openRead; rw [h]; rfl
  · unfold processFile openRead; rw [h]; rfl

/-- A file that cannot be opened for writing is an error, too. -/
theorem C35_unwritable {O : Type} (ser : O → Bytes) (name : String) (records : List O) (fs : FS) (h : fs.writable name = false) :
    ∃ m, writeRecordsToFile ser name records fs = .err m := by
  refine ⟨"Open failed", ?_⟩
  unfold writeRecordsToFile
  rw [if_neg (by rw [h]; decide)]

/-- An empty file, in contrast, holds no records, and no first record. -/
example : readProtosFromFile toyProc.parse "f" ⟨fun n => if n = "f" then some [] else none, fun _ => true⟩ = .ok [] ∧
    (∃ m, readProtosFromFile toyProc.parse "g" ⟨fun n => if n = "f" then some [] else none, fun _ => true⟩ = .err m) ∧
    (∃ m, writeRecordsToFile (fun n => List.replicate n 1) "f" [2, 0, 5] ⟨fun _ => none, fun _ => false⟩ = .err m) :=
  ⟨by decide +kernel, (C35_missing_file toyProc (fun _ => []) toyProc.parse "g" "o" _ rfl).1, C35_unwritable _ _ _ _ rfl⟩

/-! ### arbitrary files -/

/-- A length prefix: at most five bytes, the last without continuation bit, whose low seven bits are the base-128 digits of
the length, least significant first; protobuf drops what exceeds 32 bits. -/
def LengthPrefix (v : Bytes) (n : Nat) : Prop :=
  v.length ≤ 5 ∧ (∃ c, v.getLast? = some c ∧ c.toNat < 128) ∧ (∀ c ∈ v.dropLast, 128 ≤ c.toNat) ∧
  Nat.ofDigits 128 (v.map (fun c => c.toNat % 128)) % 2 ^ 32 = n

theorem varintValue_digits (v : Bytes) : varintValue v = Nat.ofDigits 128 (v.map (fun c => c.toNat % 128)) := by
  induction v with
  | nil => rfl
  | cons c v ih => rw [varintValue, ih, List.map_cons, Nat.ofDigits_cons]

theorem varintBytes_pieces : ∀ (k : Nat) (b bs rest : Bytes), varintBytes k b = .ok (bs, rest) →
    b = bs ++ rest ∧ bs.length ≤ k ∧ ((∃ c, bs.getLast? = some c ∧ c.toNat < 128) ∨ rest = []) ∧
    ∀ c ∈ bs.dropLast, 128 ≤ c.toNat := by
  intro k
  induction k with
  | zero => intro b bs rest h; cases h
  | succ k ih =>
    intro b bs rest h
    cases b with
    | nil =>
      simp only [varintBytes, Outcome.ok.injEq, Prod.mk.injEq] at h
      obtain ⟨rfl, rfl⟩ := h
      exact ⟨rfl, by simp, Or.inr rfl, by simp⟩
    | cons c b =>
      rw [varintBytes] at h
      split at h
      · rename_i hc
        simp only [Outcome.ok.injEq, Prod.mk.injEq] at h
        obtain ⟨rfl, rfl⟩ := h
        exact ⟨rfl, by simp, Or.inl ⟨c, rfl, hc⟩, by simp⟩
      · rename_i hc
        simp only [Outcome.bind_eq_ok, Outcome.pure_eq, Outcome.ok.injEq, Prod.mk.injEq] at h
        obtain ⟨⟨bs', r'⟩, h1, rfl, rfl⟩ := h
        obtain ⟨e1, e2, e3, e4⟩ := ih b bs' r' h1
        refine ⟨by rw [e1]; rfl, by simpa using e2, ?_, ?_⟩
        · rcases e3 with ⟨d, hd, hlt⟩ | hr
          · left
            refine ⟨d, ?_, hlt⟩
            cases bs' with
            | nil => simp at hd
            | cons x xs => rw [List.getLast?_cons_cons]; exact hd
          · exact Or.inr hr
        · cases bs' with
          | nil => simp
          | cons x xs =>
            intro d hd
            rw [List.dropLast_cons_of_ne_nil (by simp), List.mem_cons] at hd
            rcases hd with rfl | hd
            · omega
            · exact e4 d hd

/-- **C35** (one record) Of any bytes, a record that is returned is a length prefix's worth of the bytes right behind that
prefix. -/
theorem C35_record_piece (b r rest : Bytes) (h : readRecord b = .ok (r, rest)) :
    ∃ v, b = v ++ r ++ rest ∧ LengthPrefix v r.length := by
  simp only [readRecord, Outcome.bind_eq_ok] at h
  obtain ⟨⟨v, t⟩, h1, h2⟩ := h
  obtain ⟨e1, e2, e3, e4⟩ := varintBytes_pieces _ _ _ _ h1
  change fileRead (readVarint32 v) t = _ at h2
  unfold fileRead at h2
  split at h2
  · cases h2
  · rename_i hl
    simp only [Outcome.ok.injEq, Prod.mk.injEq] at h2
    obtain ⟨rfl, rfl⟩ := h2
    have hlen : (t.take (readVarint32 v)).length = readVarint32 v := by rw [List.length_take]; omega
    have hlast : ∃ c, v.getLast? = some c ∧ c.toNat < 128 := by
      rcases e3 with h | rfl
      · exact h
      · by_contra hn
        have : readVarint32 v = 2 ^ 32 - 1 := by
          unfold readVarint32
          cases hg : v.getLast? with
          | none => rfl
          | some c =>
            rw [hg] at hn
            simp only
            rw [if_neg (fun hc => hn ⟨c, rfl, hc⟩)]
        rw [this] at hl
        simp at hl
    refine ⟨v, by rw [e1, List.append_assoc, List.take_append_drop], e2, hlast, e4, ?_⟩
    rw [hlen, ← varintValue_digits]
    obtain ⟨c, hc, hlt⟩ := hlast
    simp only [readVarint32, hc, if_pos hlt]

/-- **C35** (any file) If the bytes of a file are read to the end without an error, they are exactly a sequence of length
prefixes, each followed by the record returned for it: no byte is skipped, invented or read twice. -/
theorem C35_any_pieces (file : Bytes) (h : (readAll file).2 = .ok ()) :
    ∃ vs : List Bytes, List.Forall₂ (fun v r => LengthPrefix v r.length) vs (readAll file).1 ∧
      file = (List.zipWith (· ++ ·) vs (readAll file).1).flatten := by
  generalize hn : file.length = n
  induction n using Nat.strong_induction_on generalizing file with
  | _ n ih =>
    by_cases hne : file = []
    · subst hne; rw [readAll_nil]; exact ⟨[], .nil, rfl⟩
    rcases readRecord_total file with ⟨⟨r, t⟩, hr⟩ | ⟨m, hr⟩
    · rw [readAll_ok hne hr] at h ⊢
      obtain ⟨vs, h1, h2⟩ := ih _ (hn ▸ readRecord_shorter hr hne) t h rfl
      obtain ⟨v, e, hv⟩ := C35_record_piece _ _ _ hr
      refine ⟨v :: vs, .cons hv h1, ?_⟩
      rw [List.zipWith_cons_cons, List.flatten_cons, ← h2]
      exact e
    · rw [readAll_err hne hr] at h; cases h

/-- A file with a length prefix that is longer than necessary, which no writer produces: `[0x83, 0]` is three. -/
example : (readAll [0x83, 0, 7, 8, 9, 1, 5]).2 = .ok () ∧ (readAll [0x83, 0, 7, 8, 9, 1, 5]).1 = [[7, 8, 9], [5]] ∧
    LengthPrefix [0x83, 0] 3 := by
  refine ⟨by decide +kernel, by decide +kernel, by decide, ⟨0, rfl, by decide⟩, by decide, by decide +kernel⟩

end Upsi.Rec
