import Verif.Data.Csv
import Mathlib.Data.List.TakeWhile
/-
Property theorems C36: escaping and splitting of CSV lines.
-/
namespace Upsi.Data
open Upsi

theorem quoted_escape : ∀ (v : Bytes) (t : Bytes), t.head? ≠ some quote →
    quoted (doubleQuotes v ++ quote :: t) = (v, t) := by
  intro v
  induction v with
  | nil =>
    intro t ht
    cases t with
    | nil => rfl
    | cons d t =>
      have : d ≠ quote := by simpa using ht
      simp [doubleQuotes, quoted, this]
  | cons c v ih =>
    intro t ht
    by_cases hc : c = quote
    · subst hc
      simp only [doubleQuotes, if_true, List.cons_append, quoted, ih t ht]
    · simp only [doubleQuotes, if_neg hc, List.cons_append]
      obtain ⟨d, r, hr⟩ : ∃ d r, doubleQuotes v ++ quote :: t = d :: r := by
        cases h : doubleQuotes v ++ quote :: t with
        | nil => simp at h
        | cons d r => exact ⟨d, r, rfl⟩
      have := ih t ht
      rw [hr] at this ⊢
      simp only [quoted, if_neg hc, this]

theorem column_escape (v t : Bytes) (ht : t = [] ∨ t.head? = some comma) :
    column (escapeForCsv v ++ t) = (v, t) := by
  have hq : t.head? ≠ some quote := by
    rcases ht with rfl | h
    · simp
    · rw [h]; decide
  have hd : (escapeForCsv v ++ t).dropWhile (fun c => isSpace c && c ≠ comma) = quote :: (doubleQuotes v ++ quote :: t) := by
    simp only [escapeForCsv, List.cons_append, List.append_assoc, List.singleton_append]
    rw [List.dropWhile_cons_of_neg (by decide)]
    simp
  have ht2 : t.dropWhile (· ≠ comma) = t := by
    rcases ht with rfl | h
    · rfl
    · cases t with
      | nil => rfl
      | cons c t =>
        simp only [List.head?_cons, Option.some.injEq] at h
        subst h
        rw [List.dropWhile_cons_of_neg (by simp)]
  simp only [column, hd, if_true, quoted_escape v t hq, ht2]

theorem columns_escape : ∀ (fields : List Bytes) (fuel : Nat), fields ≠ [] →
    (joinComma (fields.map escapeForCsv)).length ≤ fuel →
    columns fuel (joinComma (fields.map escapeForCsv)) = fields := by
  intro fields
  induction fields with
  | nil => intro fuel h; exact absurd rfl h
  | cons v fields ih =>
    intro fuel _ hf
    cases fields with
    | nil =>
      simp only [List.map_cons, List.map_nil, joinComma] at hf ⊢
      have hc := column_escape v [] (Or.inl rfl)
      rw [List.append_nil] at hc
      cases fuel with
      | zero => simp [escapeForCsv] at hf
      | succ fuel =>
        have hne : escapeForCsv v ≠ [] := by simp [escapeForCsv]
        cases fuel <;> simp [columns, hne, hc, show ([] : Bytes) ≠ [comma] by simp]
    | cons w fields =>
      simp only [List.map_cons, joinComma] at hf ⊢
      set r := joinComma (escapeForCsv w :: fields.map escapeForCsv) with hr
      have hc := column_escape v (comma :: r) (Or.inr rfl)
      have hrne : r ≠ [] := by
        rw [hr]; cases fields <;> simp [joinComma, escapeForCsv]
      have hne : escapeForCsv v ++ comma :: r ≠ [] := by simp
      cases fuel with
      | zero => simp at hf
      | succ fuel =>
        have hx : comma :: r ≠ [comma] := by simpa using hrne
        simp only [columns, if_neg hne, hc, if_neg hx, List.tail_cons]
        have := ih fuel (by simp) (by simp only [List.map_cons]; rw [← hr]; simp at hf; omega)
        simp only [List.map_cons] at this
        rw [this]
        rfl

theorem doubleQuotes_nul (v : Bytes) (h : (0 : UInt8) ∉ v) : (0 : UInt8) ∉ doubleQuotes v := by
  induction v with
  | nil => simp [doubleQuotes]
  | cons c v ih =>
    simp only [List.mem_cons, not_or] at h
    simp only [doubleQuotes]
    split
    · simp only [List.mem_cons, not_or]
      exact ⟨by decide, by decide, ih h.2⟩
    · simp only [List.mem_cons, not_or]
      exact ⟨h.1, ih h.2⟩

theorem join_nul : ∀ (fields : List Bytes), (∀ v ∈ fields, (0 : UInt8) ∉ v) →
    (0 : UInt8) ∉ joinComma (fields.map escapeForCsv) := by
  intro fields
  have he : ∀ v : Bytes, (0 : UInt8) ∉ v → (0 : UInt8) ∉ escapeForCsv v := by
    intro v hv
    simp only [escapeForCsv, List.cons_append, List.mem_cons, List.mem_append, List.not_mem_nil, or_false, not_or]
    exact ⟨by decide, doubleQuotes_nul v hv, by decide⟩
  induction fields with
  | nil => intro _; simp [joinComma]
  | cons v fields ih =>
    intro h
    cases fields with
    | nil => simpa [joinComma] using he v (h v (by simp))
    | cons w fields =>
      simp only [List.map_cons, joinComma, List.mem_append, List.mem_cons, not_or]
      exact ⟨he v (h v (by simp)), by decide, by simpa using ih (fun x hx => h x (by simp [hx]))⟩

theorem takeWhile_nul {s : Bytes} (h : (0 : UInt8) ∉ s) : s.takeWhile (· ≠ 0) = s := by
  rw [List.takeWhile_eq_self_iff]
  intro x hx
  simp only [decide_eq_true_eq]
  rintro rfl
  exact h hx

/-- **C36** Splitting the comma-joined escaped fields returns the fields, for every non-empty list of fields
without NUL bytes — whatever quotes, commas, blanks or line breaks they contain. -/
theorem C36_roundtrip (fields : List Bytes) (hne : fields ≠ []) (h : ∀ v ∈ fields, (0 : UInt8) ∉ v) :
    splitCsvLine (joinComma (fields.map escapeForCsv)) = fields := by
  simp only [splitCsvLine, takeWhile_nul (join_nul fields h)]
  exact columns_escape fields _ hne (Nat.le_refl _)

/-- Columns of a plain line: no quotes, no NUL, no comma, no white space at either end. -/
def Plain (v : Bytes) : Prop :=
  (∀ c ∈ v, c ≠ comma ∧ c ≠ 0) ∧ v.head? ≠ some quote ∧ (∀ c, v.head? = some c → isSpace c = false) ∧
  (∀ c, v.getLast? = some c → isSpace c = false)

theorem rtrim_plain {v : Bytes} (h : ∀ c, v.getLast? = some c → isSpace c = false) : rtrim v = v := by
  unfold rtrim
  cases hv : v.reverse with
  | nil => simp at hv; simp [hv]
  | cons c r =>
    have : v.getLast? = some c := by rw [← List.head?_reverse, hv]; rfl
    rw [List.dropWhile_cons_of_neg (by rw [h c this]; simp), ← hv, List.reverse_reverse]

theorem column_plain (v t : Bytes) (hv : Plain v) (ht : t = [] ∨ t.head? = some comma) :
    column (v ++ t) = (v, t) := by
  obtain ⟨h1, h2, h3, h4⟩ := hv
  have ht2 : t.dropWhile (· ≠ comma) = t ∧ t.takeWhile (· ≠ comma) = [] := by
    rcases ht with rfl | h
    · exact ⟨rfl, rfl⟩
    · cases t with
      | nil => exact ⟨rfl, rfl⟩
      | cons c t =>
        simp only [List.head?_cons, Option.some.injEq] at h
        subst h
        exact ⟨List.dropWhile_cons_of_neg (by simp), List.takeWhile_cons_of_neg (by simp)⟩
  have hall : ∀ c ∈ v, decide (c ≠ comma) = true := fun c hc => by simpa using (h1 c hc).1
  cases v with
  | nil =>
    cases t with
    | nil => rfl
    | cons c t =>
      have hc : c = comma := by simpa using ht
      subst hc
      have : (comma :: t).dropWhile (fun c => isSpace c && c ≠ comma) = comma :: t :=
        List.dropWhile_cons_of_neg (by simp)
      simp only [List.nil_append, column, this]
      rw [if_neg (by decide), ht2.2, ht2.1]
      rfl
  | cons c v =>
    have hsp : isSpace c = false := h3 c rfl
    have hq : c ≠ quote := by simpa using h2
    have hd : (c :: v ++ t).dropWhile (fun c => isSpace c && c ≠ comma) = c :: v ++ t := by
      rw [List.cons_append]
      exact List.dropWhile_cons_of_neg (by rw [hsp]; simp)
    simp only [column, hd]
    simp only [List.cons_append, if_neg hq]
    rw [← List.cons_append, List.takeWhile_append_of_pos hall, List.dropWhile_append_of_pos hall, ht2.2, ht2.1,
      List.append_nil, rtrim_plain h4]

/-- Non-vacuity: quotes, commas, blanks and empty fields. -/
example : splitCsvLine (joinComma ([[34, 44], [], [32, 97, 32]].map escapeForCsv)) = [[34, 44], [], [32, 97, 32]] :=
  C36_roundtrip _ (by simp) (by decide)

/-- **C36** (no error on malformed quoting) An unterminated quote takes the rest of the line, and whatever
follows a closing quote before the next comma is dropped silently; a blank line has no columns at all. -/
theorem C36_lenient :
    splitCsvLine [34, 97, 44, 98] = [[97, 44, 98]] ∧
    splitCsvLine [34, 97, 34, 122, 122, 44, 98] = [[97], [98]] ∧
    splitCsvLine [] = [] := by decide +kernel

end Upsi.Data
