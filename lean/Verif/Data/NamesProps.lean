import Verif.Data.Names
import Verif.Data.DatasetProps
/-
Property theorems C39 (flag names), C40 (padding elements), C41 (path joining).
-/
namespace Upsi.Data
open Upsi

/-! ### C39 -/

/-- **C39** Printing then parsing is the identity. -/
theorem C39_roundtrip (f : Functionality) : parseFlag (unparseFlag f) = some f := by cases f <;> decide

/-- **C39** A string is accepted exactly when it is the printed name of the value it parses to; every other
string is rejected. -/
theorem C39_exact (s : String) (f : Functionality) : parseFlag s = some f ↔ s = unparseFlag f := by
  constructor
  · intro h
    unfold parseFlag at h
    repeat' split at h
    all_goals first | (simp only [Option.some.injEq] at h; subst h; assumption) | simp at h
  · rintro rfl; exact C39_roundtrip f

/-- **C39** The accepted names are the five documented ones. -/
theorem C39_names (s : String) : (parseFlag s).isSome = true ↔ s ∈ ["PSI", "CA", "SUM", "SS", "DEL"] := by
  constructor
  · intro h
    obtain ⟨f, hf⟩ := Option.isSome_iff_exists.1 h
    rw [C39_exact] at hf
    subst hf
    cases f <;> decide
  · intro h
    simp only [List.mem_cons, List.not_mem_nil, or_false] at h
    rcases h with rfl | rfl | rfl | rfl | rfl <;> decide

/-! ### C40 -/

theorem foldl_digits (l : Bytes) : ∀ a : Nat, l.foldl (fun x c => x * 10 + (c.toNat - 48)) a = a * 10 ^ l.length + digitsValue l := by
  induction l with
  | nil => intro a; simp [digitsValue]
  | cons c l ih =>
    intro a
    simp only [List.foldl_cons, digitsValue, List.length_cons]
    rw [ih, ih (0 * 10 + _), Nat.pow_succ', Nat.add_mul]
    simp only [Nat.zero_mul, Nat.zero_add, Nat.mul_assoc, Nat.add_assoc]

theorem digitsValue_cons (c : UInt8) (l : Bytes) : digitsValue (c :: l) = (c.toNat - 48) * 10 ^ l.length + digitsValue l := by
  have := foldl_digits l (c.toNat - 48)
  simpa [digitsValue] using this

theorem isDigit_bounds {c : UInt8} (h : isDigit c = true) : 48 ≤ c.toNat ∧ c.toNat ≤ 57 := by
  simp only [isDigit, Bool.and_eq_true, decide_eq_true_eq, UInt8.le_iff_toNat_le] at h
  exact h

theorem digitsValue_lt : ∀ l : Bytes, (∀ c ∈ l, isDigit c = true) → digitsValue l < 10 ^ l.length := by
  intro l
  induction l with
  | nil => intro _; simp [digitsValue]
  | cons c l ih =>
    intro h
    rw [digitsValue_cons, List.length_cons, Nat.pow_succ']
    have h1 := ih (fun x hx => h x (by simp [hx]))
    have h2 := isDigit_bounds (h c (by simp))
    have h3 : (c.toNat - 48) * 10 ^ l.length ≤ 9 * 10 ^ l.length := Nat.mul_le_mul_right _ (by omega)
    omega

theorem numericString2uint_eq : ∀ (l : Bytes) (x : Nat), (∀ c ∈ l, isDigit c = true) →
    (x + 1) * 10 ^ l.length ≤ 10 ^ 17 → numericString2uint x l = .ok ((x * 10 ^ l.length + digitsValue l : Nat) : Int) := by
  intro l
  induction l with
  | nil => intro x _ _; simp [numericString2uint, digitsValue]
  | cons c l ih =>
    intro x h hb
    have hc := isDigit_bounds (h c (by simp))
    rw [List.length_cons, Nat.pow_succ'] at hb
    have hp : 0 < 10 ^ l.length := Nat.pow_pos (by omega)
    have hb1 : (x * 10 + (c.toNat - 48) + 1) * 10 ^ l.length ≤ 10 ^ 17 := by
      refine Nat.le_trans (Nat.mul_le_mul_right _ (?_ : _ ≤ (x + 1) * 10)) (by rw [Nat.mul_assoc]; exact hb)
      omega
    have hx : x * 10 + (c.toNat - 48) + 1 ≤ 10 ^ 17 :=
      Nat.le_trans (Nat.le_mul_of_pos_right _ hp) hb1
    have hs : num2uintStep x c = .ok ((x * 10 + (c.toNat - 48) : Nat) : Int) := by
      unfold num2uintStep
      rw [if_pos (by constructor <;> omega)]
      exact congrArg Outcome.ok (by omega)
    rw [numericString2uint, hs, Outcome.bind_ok, ih _ (fun y hy => h y (by simp [hy])) hb1, digitsValue_cons,
      List.length_cons, Nat.pow_succ', Nat.add_mul]
    rw [Nat.mul_assoc, Nat.add_assoc]

theorem random_digits (rnd : List Nat) (n : Nat) : ∀ c ∈ (rnd.take n).map (fun r => UInt8.ofNat (r % 10 + 48)),
    isDigit c = true := by
  intro c hc
  obtain ⟨r, _, rfl⟩ := List.mem_map.1 hc
  have h : ∀ k, k < 10 → isDigit (UInt8.ofNat (k + 48)) = true := by decide
  exact h _ (Nat.mod_lt _ (by omega))

/-- **C40** Whatever `rand()` returns (15 values are drawn), a padding element is computed without overflow
and lies in `[10^15, 2·10^15)`. -/
theorem C40_pad_range (rnd : List Nat) (h : 15 ≤ rnd.length) :
    ∃ x : Nat, randomPadElement rnd = .ok (x : Int) ∧ 10 ^ 15 ≤ x ∧ x < 2 * 10 ^ 15 := by
  have hd : ∀ c ∈ randomNumericString elementStrLength true rnd, isDigit c = true := by
    intro c hc
    unfold randomNumericString at hc
    rcases List.mem_cons.1 hc with rfl | hc
    · decide
    · exact random_digits rnd _ c hc
  have hl : ((rnd.take (elementStrLength - 1)).map (fun r => UInt8.ofNat (r % 10 + 48))).length = 15 := by
    rw [List.length_map, List.length_take]; unfold elementStrLength; omega
  have hlen : (randomNumericString elementStrLength true rnd).length = 16 := by
    unfold randomNumericString; rw [List.length_cons, hl]
  refine ⟨digitsValue (randomNumericString elementStrLength true rnd), ?_, ?_⟩
  · have := numericString2uint_eq _ 0 hd (by rw [hlen]; decide)
    simpa [randomPadElement] using this
  · unfold randomNumericString
    have h2 := digitsValue_lt _ (random_digits rnd (elementStrLength - 1))
    rw [digitsValue_cons]
    rw [hl] at h2 ⊢
    have : ((if true then 49 else 48 : UInt8).toNat - 48) = 1 := by decide
    rw [this]
    omega

/-- **C40** Generated set elements are numeric and below `10^15`. -/
theorem C40_set_range (rnd : List Nat) (h : 15 ≤ rnd.length) :
    Numeric (randomSetElement rnd) ∧ digitsValue (randomSetElement rnd) < 10 ^ 15 := by
  have hl : ((rnd.take (elementStrLength - 1)).map (fun r => UInt8.ofNat (r % 10 + 48))).length = 15 := by
    rw [List.length_map, List.length_take]; unfold elementStrLength; omega
  have h2 := digitsValue_lt _ (random_digits rnd (elementStrLength - 1))
  rw [hl] at h2
  have hv : digitsValue (randomSetElement rnd) < 10 ^ 15 := by
    unfold randomSetElement randomNumericString
    rw [digitsValue_cons]
    have : ((if false then 49 else 48 : UInt8).toNat - 48) = 0 := by decide
    rw [this]
    omega
  refine ⟨⟨by simp [randomSetElement, randomNumericString], ?_, by omega⟩, hv⟩
  intro c hc
  unfold randomSetElement randomNumericString at hc
  rcases List.mem_cons.1 hc with rfl | hc
  · decide
  · exact random_digits rnd _ c hc

/-- **C40** A padding element never equals an element read from a decimal string of fewer than sixteen
digits, nor a generated set element (sixteen digits with a leading zero). -/
theorem C40_no_collision (rnd : List Nat) (h : 15 ≤ rnd.length) (x : Int) (hx : randomPadElement rnd = .ok x) :
    (∀ e : Bytes, Numeric e → e.length < 16 → ∃ y : Nat, stoull e = .ok y ∧ (y : Int) ≠ x) ∧
    (∀ rnd' : List Nat, 15 ≤ rnd'.length → ∃ y : Nat, stoull (randomSetElement rnd') = .ok y ∧ (y : Int) ≠ x) := by
  obtain ⟨p, hp, h1, h2⟩ := C40_pad_range rnd h
  have : x = (p : Int) := by rw [hp] at hx; exact (Outcome.ok.inj hx).symm
  subst this
  refine ⟨fun e he hl => ⟨_, stoull_numeric he, ?_⟩, fun rnd' h' => ⟨_, stoull_numeric (C40_set_range rnd' h').1, ?_⟩⟩
  · have hlt := digitsValue_lt e he.2.1
    have : (10 : Nat) ^ e.length ≤ 10 ^ 15 := Nat.pow_le_pow_right (by omega) (by omega)
    omega
  · have := (C40_set_range rnd' h').2
    omega

/-- **C40** (limit of the guarantee) A user element of sixteen digits starting with 1 can equal a padding
element. -/
theorem C40_user_collision : ∃ (e : Bytes) (y : Nat), Numeric e ∧ e.length = 16 ∧ stoull e = .ok y ∧
    randomPadElement (List.replicate 15 7) = .ok (y : Int) := by
  have hn : Numeric (49 :: List.replicate 15 (55 : UInt8)) := ⟨by decide, by decide, by decide +kernel⟩
  exact ⟨49 :: List.replicate 15 55, 1777777777777777, hn, rfl, (stoull_numeric hn).trans (by decide +kernel), by decide +kernel⟩

example : 15 ≤ (List.replicate 15 7).length := by decide

/-! ### C41 -/

/-- One trailing separator removed, one leading separator removed. -/
def stripSlashes (p : List Char) : List Char :=
  let q := if p.getLast? = some '/' then p.dropLast else p
  if q.head? = some '/' then q.tail else q

theorem strip_body (p : List Char) (hp : p ≠ []) :
    (if p.getLast? = some '/' then
      if p.head? = some '/' then p.tail.dropLast else p.dropLast
      else if p.head? = some '/' then p.tail else p) = stripSlashes p := by
  unfold stripSlashes
  cases p with
  | nil => exact absurd rfl hp
  | cons a p =>
    cases p with
    | nil =>
      by_cases h : a = '/' <;> simp [h]
    | cons b p =>
      by_cases h : (a :: b :: p).getLast? = some '/'
      · simp only [h, if_true, List.head?_cons, List.dropLast_cons_cons, List.tail_cons]
      · simp only [h, if_false, List.head?_cons]
        rfl

/-- **C41** Two parts: exactly one separator between directory and name, whether or not the directory ends
with one or the name starts with one; a trailing separator of the name is dropped. -/
theorem C41_two_parts (dir name : List Char) (hd : dir ≠ []) (hn : name ≠ []) :
    joinPath [dir, name] = (if dir.getLast? = some '/' then dir.dropLast else dir) ++ '/' :: stripSlashes name := by
  simp only [joinPath, joinGo, if_neg hd, if_neg hn, if_true, List.append_nil, Bool.false_eq_true, if_false]
  rw [strip_body name hn]
  split
  · rename_i h
    obtain ⟨l, rfl⟩ := List.getLast?_eq_some_iff.1 h
    simp
  · simp

theorem joinGo_rest : ∀ (ps : List (List Char)), (∀ p ∈ ps, p ≠ []) → joinGo false ps = List.intercalate ['.'] (ps.map stripSlashes) := by
  intro ps
  induction ps with
  | nil => intro _; rfl
  | cons p ps ih =>
    intro h
    have hp := h p (by simp)
    simp only [joinGo, if_neg hp, Bool.false_eq_true, if_false]
    rw [strip_body p hp, ih (fun q hq => h q (by simp [hq]))]
    cases ps with
    | nil => simp [List.intercalate]
    | cons q ps => simp [List.intercalate]

/-- **C41** Any number of non-empty parts: the directory, one separator, and the remaining parts (without
one leading and one trailing separator each) joined by dots. -/
theorem C41_all_parts (dir : List Char) (ps : List (List Char)) (hd : dir ≠ []) (hps : ∀ p ∈ ps, p ≠ []) :
    joinPath (dir :: ps) = (if dir.getLast? = some '/' then dir.dropLast else dir) ++ '/' ::
      List.intercalate ['.'] (ps.map stripSlashes) := by
  simp only [joinPath, joinGo, if_neg hd, if_true]
  rw [joinGo_rest ps hps]
  split
  · rename_i h
    obtain ⟨l, rfl⟩ := List.getLast?_eq_some_iff.1 h
    simp
  · simp

/-- **C41** An empty part in the middle contributes nothing, an empty directory gives a path without
separator. -/
theorem C41_empty_parts (a b : List (List Char)) (ha : a ≠ []) (hb : b ≠ []) :
    joinPath (a ++ [] :: b) = joinPath (a ++ b) ∧ joinPath ([] :: a) = joinGo false a := by
  have key : ∀ (first : Bool) (a : List (List Char)), a ≠ [] → joinGo first (a ++ [] :: b) = joinGo first (a ++ b) := by
    intro first a
    induction a generalizing first with
    | nil => intro h; exact absurd rfl h
    | cons p a ih =>
      intro _
      have hrest : joinGo false (a ++ [] :: b) = joinGo false (a ++ b) := by
        by_cases h : a = []
        · subst h; simp [joinGo]
        · exact ih false h
      have h1 : a ++ [] :: b ≠ [] := by simp
      have h2 : a ++ b ≠ [] := by simp [hb]
      simp only [List.cons_append, joinGo, hrest, if_neg h1, if_neg h2]
  exact ⟨key true a ha, by simp [joinPath, joinGo]⟩

/-- **C41** (trailing empty part) An empty last part leaves a dangling dot after the name before it. -/
theorem C41_dangling_dot : joinPath ["/foo".toList, "bar".toList, []] = "/foo/bar.".toList := by decide

example : joinPath ["/foo".toList, "/bar".toList, "/baz".toList] = "/foo/bar.baz".toList := by decide

end Upsi.Data
