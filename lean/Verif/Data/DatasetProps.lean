import Verif.Data.Dataset
import Verif.Data.CsvProps
/-
Property theorems C57: data set files.
-/
namespace Upsi.Data
open Upsi

theorem digits_spec (n : Nat) : digits n ≠ [] ∧ (∀ c ∈ digits n, isDigit c = true) ∧ digitsValue (digits n) = n := by
  induction n using Nat.strongRecOn with
  | ind n ih =>
    rw [digits]
    have hd : ∀ k, k < 10 → isDigit (UInt8.ofNat (48 + k)) = true ∧ (UInt8.ofNat (48 + k)).toNat - 48 = k := by decide
    split
    · rename_i h
      refine ⟨by simp, ?_, ?_⟩
      · intro c hc; rw [List.mem_singleton.1 hc]; exact (hd n h).1
      · simp only [digitsValue, List.foldl_cons, List.foldl_nil, (hd n h).2]; omega
    · rename_i h
      obtain ⟨_, b, c⟩ := ih (n / 10) (by omega)
      have hm := hd (n % 10) (Nat.mod_lt _ (by omega))
      refine ⟨by simp, ?_, ?_⟩
      · intro x hx
        rcases List.mem_append.1 hx with hx | hx
        · exact b x hx
        · rw [List.mem_singleton.1 hx]; exact hm.1
      · unfold digitsValue at c ⊢
        rw [List.foldl_append, c]
        simp only [List.foldl_cons, List.foldl_nil, hm.2]; omega

theorem digit_facts {c : UInt8} (h : isDigit c = true) :
    c ≠ comma ∧ c ≠ 0 ∧ c ≠ quote ∧ isSpace c = false ∧ c ≠ 10 ∧ c ≠ 45 ∧ c ≠ 43 := by
  have h1 : 48 ≤ c.toNat ∧ c.toNat ≤ 57 := by
    simp only [isDigit, Bool.and_eq_true, decide_eq_true_eq, UInt8.le_iff_toNat_le] at h
    exact h
  have h2 : c = UInt8.ofNat c.toNat := by simp
  rw [h2]
  generalize c.toNat = k at h1
  have hk : k = 48 ∨ k = 49 ∨ k = 50 ∨ k = 51 ∨ k = 52 ∨ k = 53 ∨ k = 54 ∨ k = 55 ∨ k = 56 ∨ k = 57 := by omega
  rcases hk with rfl | rfl | rfl | rfl | rfl | rfl | rfl | rfl | rfl | rfl <;> decide

/-- The bytes of a printed integer. -/
theorem showInt_mem {z : Int} {c : UInt8} (h : c ∈ showInt z) : c = 45 ∨ isDigit c = true := by
  unfold showInt at h
  obtain ⟨_, b, _⟩ := digits_spec z.natAbs
  split at h
  · rcases List.mem_cons.1 h with rfl | h
    · exact Or.inl rfl
    · exact Or.inr (b c h)
  · exact Or.inr (b c h)

theorem showInt_byte {z : Int} {c : UInt8} (h : c ∈ showInt z) :
    c ≠ comma ∧ c ≠ 0 ∧ c ≠ quote ∧ isSpace c = false ∧ c ≠ 10 := by
  rcases showInt_mem h with rfl | h
  · decide
  · have := digit_facts h
    exact ⟨this.1, this.2.1, this.2.2.1, this.2.2.2.1, this.2.2.2.2.1⟩

theorem showInt_ne (z : Int) : showInt z ≠ [] := by
  unfold showInt
  split
  · simp
  · exact (digits_spec _).1

theorem showInt_plain (z : Int) : Plain (showInt z) := by
  refine ⟨fun c hc => ⟨(showInt_byte hc).1, (showInt_byte hc).2.1⟩, ?_, ?_, ?_⟩
  · intro h
    exact (showInt_byte (List.mem_of_mem_head? h)).2.2.1 rfl
  · intro c h
    exact (showInt_byte (List.mem_of_mem_head? h)).2.2.2.1
  · intro c h
    exact (showInt_byte (List.mem_of_mem_getLast? h)).2.2.2.1

theorem dropWhile_digit {s : Bytes} (h : ∀ c ∈ s, isDigit c = true) : s.dropWhile isSpace = s := by
  cases s with
  | nil => rfl
  | cons c s => exact List.dropWhile_cons_of_neg (by rw [(digit_facts (h c (by simp))).2.2.2.1]; simp)

theorem takeWhile_digit {s : Bytes} (h : ∀ c ∈ s, isDigit c = true) : s.takeWhile isDigit = s :=
  List.takeWhile_eq_self_iff.2 h

theorem parse_digits {s : Bytes} (hs : s ≠ []) (h : ∀ c ∈ s, isDigit c = true) :
    parseSigned s = some (false, digitsValue s) := by
  unfold parseSigned
  rw [dropWhile_digit h]
  cases s with
  | nil => exact absurd rfl hs
  | cons c s =>
    have hc := digit_facts (h c (by simp))
    simp only [if_neg hc.2.2.2.2.2.1, if_neg hc.2.2.2.2.2.2, takeWhile_digit h]
    simp

theorem stoll_showInt {z : Int} (h : -(2 ^ 63) ≤ z ∧ z < 2 ^ 63) : stoll (showInt z) = .ok z := by
  obtain ⟨a, b, c⟩ := digits_spec z.natAbs
  unfold stoll
  by_cases hz : z < 0
  · rw [show showInt z = 45 :: digits z.natAbs by simp [showInt, hz]]
    have : parseSigned (45 :: digits z.natAbs) = some (true, z.natAbs) := by
      unfold parseSigned
      rw [List.dropWhile_cons_of_neg (by decide)]
      simp only [if_true, takeWhile_digit b, if_neg a, c]
    rw [this]
    have e : -(z.natAbs : Int) = z := by omega
    simp only [if_true, e, if_pos h]
  · rw [show showInt z = digits z.natAbs by simp [showInt, hz], parse_digits a b, c]
    have e : (z.natAbs : Int) = z := by omega
    simp only [Bool.false_eq_true, if_false, e, if_pos h]

theorem getlines_cons (l rest : Bytes) (h : (10 : UInt8) ∉ l) : getlines (l ++ 10 :: rest) = l :: getlines rest := by
  induction l with
  | nil => simp [getlines]
  | cons c l ih =>
    simp only [List.mem_cons, not_or] at h
    simp only [List.cons_append, getlines, ih h.2]
    rw [if_neg (fun e => h.1 e.symm)]

theorem doubleQuotes_nl (v : Bytes) (h : (10 : UInt8) ∉ v) : (10 : UInt8) ∉ doubleQuotes v := by
  induction v with
  | nil => simp [doubleQuotes]
  | cons c v ih =>
    simp only [List.mem_cons, not_or] at h
    simp only [doubleQuotes]
    split
    · simp only [List.mem_cons, not_or]
      exact ⟨by decide, by decide, ih h.2⟩
    · simp only [List.mem_cons, not_or]
      exact ⟨h.1, ih h.2⟩

theorem escape_mem {v : Bytes} {x : UInt8} (hx : x ≠ quote) (h : x ∉ doubleQuotes v) : x ∉ escapeForCsv v := by
  simp only [escapeForCsv, List.cons_append, List.mem_cons, List.mem_append, List.not_mem_nil, or_false, not_or]
  exact ⟨hx, h, hx⟩

theorem split_pair (e : Bytes) (z : Int) (he : (0 : UInt8) ∉ e) :
    splitCsvLine (escapeForCsv e ++ comma :: showInt z) = [e, showInt z] := by
  have hn : (0 : UInt8) ∉ escapeForCsv e ++ comma :: showInt z := by
    simp only [List.mem_append, List.mem_cons, not_or]
    exact ⟨escape_mem (by decide) (doubleQuotes_nul e he), by decide, fun h => (showInt_byte h).2.1 rfl⟩
  simp only [splitCsvLine, takeWhile_nul hn]
  have h1 := column_escape e (comma :: showInt z) (Or.inr rfl)
  have h2 := column_plain (showInt z) [] (showInt_plain z) (Or.inl rfl)
  rw [List.append_nil] at h2
  obtain ⟨k, hk⟩ : ∃ k, (escapeForCsv e ++ comma :: showInt z).length = k + 1 + 1 :=
    ⟨(escapeForCsv e ++ comma :: showInt z).length - 2, by simp [escapeForCsv]; omega⟩
  have hne : escapeForCsv e ++ comma :: showInt z ≠ [] := by simp
  have hx : comma :: showInt z ≠ [comma] := by simpa using showInt_ne z
  rw [hk]
  simp only [columns, if_neg hne, h1, if_neg hx, List.tail_cons, if_neg (showInt_ne z), h2]
  cases k <;> simp [columns]

theorem split_single (e : Bytes) (he : (0 : UInt8) ∉ e) : splitCsvLine (escapeForCsv e) = [e] := by
  simpa [joinComma] using C36_roundtrip [e] (by simp) (by simpa using he)

/-- A data set the program can represent in a file: elements without NUL and line breaks, 64-bit values, and
one value per element or none at all. -/
def Dataset.Good (d : Dataset) : Prop :=
  (∀ e ∈ d.elements, (0 : UInt8) ∉ e ∧ (10 : UInt8) ∉ e) ∧ (∀ v ∈ d.values, -(2 ^ 63) ≤ v ∧ v < 2 ^ 63) ∧
  (d.values = [] ∨ d.values.length = d.elements.length)

theorem write_read_values : ∀ (es : List Bytes) (vs : List Int), (∀ e ∈ es, (0 : UInt8) ∉ e ∧ (10 : UInt8) ∉ e) →
    (∀ v ∈ vs, -(2 ^ 63) ≤ v ∧ v < 2 ^ 63) → vs.length = es.length →
    ∃ b, writeLines true es vs = .ok b ∧ readRows (getlines b) = .ok (es, vs) := by
  intro es
  induction es with
  | nil =>
    intro vs _ _ h
    have : vs = [] := List.length_eq_zero_iff.1 h
    subst this
    exact ⟨[], rfl, rfl⟩
  | cons e es ih =>
    intro vs h1 h2 h3
    cases vs with
    | nil => simp at h3
    | cons v vs =>
      obtain ⟨b, e1, e2⟩ := ih vs (fun x hx => h1 x (by simp [hx])) (fun x hx => h2 x (by simp [hx])) (by simpa using h3)
      refine ⟨escapeForCsv e ++ comma :: showInt v ++ 10 :: b, by simp [writeLines, e1], ?_⟩
      have hnl : (10 : UInt8) ∉ escapeForCsv e ++ comma :: showInt v := by
        simp only [List.mem_append, List.mem_cons, not_or]
        exact ⟨escape_mem (by decide) (doubleQuotes_nl e (h1 e (by simp)).2), by decide,
          fun h => (showInt_byte h).2.2.2.2 rfl⟩
      rw [getlines_cons _ _ hnl, readRows, split_pair e v (h1 e (by simp)).1]
      simp only [stoll_showInt (h2 v (by simp)), e2, Outcome.bind_ok, Outcome.pure_eq]

theorem write_read_plain : ∀ (es : List Bytes), (∀ e ∈ es, (0 : UInt8) ∉ e ∧ (10 : UInt8) ∉ e) →
    ∃ b, writeLines false es [] = .ok b ∧ readRows (getlines b) = .ok (es, []) := by
  intro es
  induction es with
  | nil => intro _; exact ⟨[], rfl, rfl⟩
  | cons e es ih =>
    intro h1
    obtain ⟨b, e1, e2⟩ := ih (fun x hx => h1 x (by simp [hx]))
    refine ⟨escapeForCsv e ++ 10 :: b, by simp [writeLines, e1], ?_⟩
    rw [getlines_cons _ _ (escape_mem (by decide) (doubleQuotes_nl e (h1 e (by simp)).2)), readRows,
      split_single e (h1 e (by simp)).1]
    simp only [e2, Outcome.bind_ok, Outcome.pure_eq]

/-- **C57** A data set written to a file and read back is the same data set. -/
theorem C57_roundtrip (d : Dataset) (h : d.Good) : ∃ file, d.write = .ok file ∧ Dataset.read file = .ok d := by
  obtain ⟨h1, h2, h3⟩ := h
  cases d with
  | mk es vs =>
    cases vs with
    | nil =>
      obtain ⟨b, e1, e2⟩ := write_read_plain es h1
      exact ⟨b, by simpa [Dataset.write] using e1, by simp [Dataset.read, e2]⟩
    | cons v vs =>
      have h3 : (v :: vs).length = es.length := by
        rcases h3 with h3 | h3
        · simp at h3
        · exact h3
      obtain ⟨b, e1, e2⟩ := write_read_values es (v :: vs) h1 h2 h3
      refine ⟨b, by simpa [Dataset.write] using e1, ?_⟩
      simp only [Dataset.read, e2, Outcome.bind_ok]
      rw [if_neg (fun hc => hc.2 h3.symm)]

/-- **C57** A file that is read without error gives one value per element, or no values at all. -/
theorem C57_values_match (file : Bytes) (d : Dataset) (h : Dataset.read file = .ok d) :
    d.values = [] ∨ d.values.length = d.elements.length := by
  simp only [Dataset.read, Outcome.bind_eq_ok] at h
  obtain ⟨⟨es, vs⟩, _, h⟩ := h
  split at h
  · simp at h
  · rename_i hc
    simp only [Outcome.ok.injEq] at h
    subst h
    by_cases hv : vs.length = 0
    · exact Or.inl (List.length_eq_zero_iff.1 hv)
    · by_cases he : es.length = vs.length
      · exact Or.inr he.symm
      · exact absurd ⟨Nat.pos_of_ne_zero hv, he⟩ hc

/-- Non-empty strings of decimal digits, leading zeros allowed, with a value below `2^64`. -/
def Numeric (e : Bytes) : Prop := e ≠ [] ∧ (∀ c ∈ e, isDigit c = true) ∧ digitsValue e < 2 ^ 64

theorem stoull_numeric {e : Bytes} (h : Numeric e) : stoull e = .ok (digitsValue e) := by
  simp only [stoull, parse_digits h.1 h.2.1, if_pos h.2.2, Bool.false_eq_true, if_false]

/-- **C57** Numeric elements are converted to their exact decimal value. -/
theorem C57_elements_exact (d : Dataset) (h : ∀ e ∈ d.elements, Numeric e) :
    d.elems = .ok (d.elements.map digitsValue) := by
  unfold Dataset.elems
  generalize d.elements = es at h
  induction es with
  | nil => rfl
  | cons e es ih =>
    simp only [elementsGo, stoull_numeric (h e (by simp)), ih (fun x hx => h x (by simp [hx])), Outcome.bind_ok,
      Outcome.pure_eq, List.map_cons]

/-- **C57** Elements and signed values are converted exactly, negative values included. -/
theorem C57_pairs_exact (d : Dataset) (h : ∀ e ∈ d.elements, Numeric e) (hl : d.values.length = d.elements.length)
    (hv : ∀ v ∈ d.values, v ≠ -(2 ^ 63)) :
    d.pairs = .ok ((d.elements.map (fun e => (digitsValue e : Int))).zip d.values) := by
  unfold Dataset.pairs
  generalize d.elements = es at h hl
  generalize d.values = vs at hv hl
  induction es generalizing vs with
  | nil => rfl
  | cons e es ih =>
    cases vs with
    | nil => simp at hl
    | cons v vs =>
      have ihh := ih (fun x hx => h x (by simp [hx])) vs (fun x hx => hv x (by simp [hx])) (by simpa using hl)
      have hy : valueBigNum v = .ok v := by
        unfold valueBigNum
        split
        · rw [if_neg (hv v (by simp))]; simp
        · rfl
      simp only [pairsGo, stoull_numeric (h e (by simp)), Outcome.bind_ok, hy, ihh, Outcome.pure_eq, List.map_cons,
        List.zip_cons_cons]

/-- **C57** (gaps) A blank line is undefined behaviour; a file with values on some lines only is rejected;
asking for values of a data set without any is undefined behaviour; a non-numeric element is an error; a
sign in front of an element is accepted and wraps around. -/
theorem C57_gaps :
    Dataset.read [97, 10, 10] = .ub ∧
    (∃ m, Dataset.read [97, 44, 49, 10, 98, 10] = .err m) ∧
    Dataset.pairs ⟨[[49]], []⟩ = .ub ∧
    (∃ m, Dataset.elems ⟨[[97]], []⟩ = .err m) ∧
    Dataset.elems ⟨[[45, 49]], []⟩ = .ok [2 ^ 64 - 1] := by
  refine ⟨by decide +kernel, ⟨_, rfl⟩, rfl, ⟨_, rfl⟩, by decide +kernel⟩

/-- Non-vacuity: a data set with quotes, negative and extreme values. -/
example : Dataset.Good ⟨[[34, 44, 97], [48, 48, 55]], [-5, 2 ^ 63 - 1]⟩ :=
  ⟨by decide, by decide, Or.inr rfl⟩

example : Numeric [48, 48, 55] ∧ digitsValue [48, 48, 55] = 7 := by
  refine ⟨⟨by decide, by decide, by decide⟩, by decide⟩

end Upsi.Data
