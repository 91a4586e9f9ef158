import Verif.Main.Files
/- Lemmas about the daily files: names do not clash, what was written is read. -/
namespace Upsi.Main
open Upsi Upsi.Rec Upsi.Setup Upsi.Data

/-! ### names -/

theorem squeeze_ne_nil {l : List Char} (h : l ≠ []) : squeeze l ≠ [] := by
  induction l with
  | nil => exact absurd rfl h
  | cons c r ih =>
    rw [squeeze]
    split
    · rename_i hc
      intro h0
      rw [h0] at hc
      simp at hc
    · simp

theorem squeeze_last (l : List Char) : (squeeze l).getLast? = l.getLast? := by
  induction l with
  | nil => rfl
  | cons c r ih =>
    rw [squeeze]
    by_cases hr : r = []
    · subst hr; simp [squeeze]
    · have h1 : (c :: squeeze r).getLast? = (squeeze r).getLast? := by
        cases h : squeeze r with
        | nil => exact absurd h (squeeze_ne_nil hr)
        | cons x xs => simp [List.getLast?_cons_cons]
      have h2 : (c :: r).getLast? = r.getLast? := by
        cases r with
        | nil => exact absurd rfl hr
        | cons x xs => simp [List.getLast?_cons_cons]
      split
      · rw [ih, h2]
      · rw [h1, ih, h2]

theorem canon_last (s : String) : (canon s).toList.getLast? = s.toList.getLast? := by
  rw [canon, String.toList_ofList, squeeze_last]

/-- Adding a suffix without slashes, starting with anything, does not change the rest. -/
theorem squeeze_noslash {l : List Char} (h : ∀ c ∈ l, c ≠ '/') : squeeze l = l := by
  induction l with
  | nil => rfl
  | cons c r ih => rw [squeeze_head c (h c (by simp)), ih (fun x hx => h x (by simp [hx]))]

theorem toString_toList (n : Nat) : (toString n).toList = Nat.toDigits 10 n := by
  rw [Nat.toString_eq_ofList_toDigits, String.toList_ofList]

theorem digits_noslash (n : Nat) : ∀ c ∈ Nat.toDigits 10 n, c ≠ '/' := by
  intro c hc
  have := Nat.isDigit_of_mem_toDigits (by decide) (by decide) hc
  rintro rfl
  revert this
  decide

theorem toDigits_inj {a b : Nat} (h : Nat.toDigits 10 a = Nat.toDigits 10 b) : a = b := by
  have := Nat.ofDigitChars_ten_toDigits (n := a)
  rw [h, Nat.ofDigitChars_ten_toDigits] at this
  exact this.symm

/-- The party directories. -/
def IsParty (p : String) : Prop := p = "p0/" ∨ p = "p1/"

theorem canon_dayFile (D p : String) (hp : IsParty p) (i : Nat) :
    canon (dayFile (D ++ p) i) = String.ofList (squeeze D.toList ++ (p.toList ++ (Nat.toDigits 10 i ++ ".csv".toList))) := by
  have hs : squeeze (Nat.toDigits 10 i ++ ".csv".toList) = Nat.toDigits 10 i ++ ".csv".toList := by
    refine squeeze_noslash (fun c hc => ?_)
    rcases List.mem_append.1 hc with h | h
    · exact digits_noslash i c h
    · clear hc; revert c; decide
  have hd : ∃ c t, Nat.toDigits 10 i ++ ".csv".toList = c :: t ∧ c ≠ '/' := by
    cases h : Nat.toDigits 10 i with
    | nil => exact absurd h Nat.toDigits_ne_nil
    | cons c t => exact ⟨c, t ++ ".csv".toList, by simp, digits_noslash i c (by rw [h]; simp)⟩
  obtain ⟨c, t, e, hc⟩ := hd
  rw [canon, dayFile, String.toList_append, String.toList_append, String.toList_append, toString_toList, List.append_assoc,
    List.append_assoc]
  congr 1
  rcases hp with rfl | rfl
  · rw [show ("p0/".toList ++ (Nat.toDigits 10 i ++ ".csv".toList)) = 'p' :: ('0' :: '/' :: (Nat.toDigits 10 i ++ ".csv".toList)) from rfl,
      squeeze_append _ _ (by decide), squeeze_head _ (by decide), squeeze_head _ (by decide)]
    congr 3
    rw [squeeze, hs, e, if_neg]
    rintro ⟨-, h⟩
    simp only [List.head?_cons, Option.some.injEq] at h
    exact hc h
  · rw [show ("p1/".toList ++ (Nat.toDigits 10 i ++ ".csv".toList)) = 'p' :: ('1' :: '/' :: (Nat.toDigits 10 i ++ ".csv".toList)) from rfl,
      squeeze_append _ _ (by decide), squeeze_head _ (by decide), squeeze_head _ (by decide)]
    congr 3
    rw [squeeze, hs, e, if_neg]
    rintro ⟨-, h⟩
    simp only [List.head?_cons, Option.some.injEq] at h
    exact hc h

/-- Different days or parties have different files. -/
theorem dayFile_inj {D p p' : String} (hp : IsParty p) (hp' : IsParty p') {i j : Nat}
    (h : canon (dayFile (D ++ p) i) = canon (dayFile (D ++ p') j)) : p = p' ∧ i = j := by
  rw [canon_dayFile D p hp, canon_dayFile D p' hp'] at h
  have h := List.append_cancel_left (ofList_inj h)
  have hl : p.toList.length = p'.toList.length := by
    rcases hp with rfl | rfl <;> rcases hp' with rfl | rfl <;> rfl
  obtain ⟨h1, h2⟩ := List.append_inj h hl
  exact ⟨String.toList_injective h1, toDigits_inj (List.append_cancel_right h2)⟩

/-! ### contents -/

/-- Two file systems agree on the files whose names end in a character other than `ch`. -/
def SameBut (ch : Char) (fs fs' : FS) : Prop :=
  fs'.writable = fs.writable ∧ ∀ n : String, n.toList.getLast? ≠ some ch → fs'.data n = fs.data n

theorem SameBut.refl (ch : Char) (fs : FS) : SameBut ch fs fs := ⟨rfl, fun _ _ => rfl⟩

theorem SameBut.trans {ch : Char} {a b c : FS} (h : SameBut ch a b) (h' : SameBut ch b c) : SameBut ch a c :=
  ⟨h'.1.trans h.1, fun n hn => (h'.2 n hn).trans (h.2 n hn)⟩

theorem SameBut.key {ch : Char} {fs fs' : FS} (h : SameBut ch fs fs') {N : Type} (parse : Rec.Bytes → N) {name : String}
    (hn : name.toList.getLast? ≠ some ch) : readKey parse name fs' = readKey parse name fs := by
  unfold readKey readProtoFromFile openRead
  rw [h.2 _ (by rw [canon_last]; exact hn)]

theorem SameBut.dataset {ch : Char} {fs fs' : FS} (h : SameBut ch fs fs') {name : String}
    (hn : name.toList.getLast? ≠ some ch) : readDataset name fs' = readDataset name fs := by
  unfold readDataset
  rw [h.2 _ (by rw [canon_last]; exact hn)]

theorem dayFile_last (dir : String) (i : Nat) : (dayFile dir i).toList.getLast? = some 'v' := by
  rw [dayFile, String.toList_append]
  exact List.getLast?_append_of_ne_nil _ (by decide)

theorem writeDataset_spec {d : Dataset} (hg : d.Good) {name : String} {fs fs' : FS} (h : writeDataset d name fs = .ok fs') :
    (∀ n, canon n = canon name → readDataset n fs' = .ok d) ∧ fs'.writable = fs.writable ∧
      ∀ n, n ≠ canon name → fs'.data n = fs.data n := by
  obtain ⟨b, hb, hr⟩ := C57_roundtrip d hg
  unfold writeDataset at h
  split at h
  · rw [hb] at h
    simp only [Outcome.bind_ok, Outcome.pure_eq, Outcome.ok.injEq] at h
    subst h
    refine ⟨fun n hn => ?_, rfl, fun n hn => by simp [FS.set, hn]⟩
    simp [readDataset, FS.set, hn, hr, orAbort]
  · simp at h

/-- The loop writing the days: all files have the right content afterwards. -/
theorem writeDays_spec {D : String} {d0 d1 : List Dataset} (h0 : ∀ d ∈ d0, d.Good) (h1 : ∀ d ∈ d1, d.Good) :
    ∀ (n i : Nat) (fs fs' : FS), writeDays (D ++ "p0/") (D ++ "p1/") d0 d1 n i fs = .ok fs' →
    SameBut 'v' fs fs' ∧
    (∀ j, i ≤ j → j < i + n → ∀ a b, d0[j]? = some a → d1[j]? = some b →
      readDataset (dayFile (D ++ "p0/") (j + 1)) fs' = .ok a ∧ readDataset (dayFile (D ++ "p1/") (j + 1)) fs' = .ok b) ∧
    (∀ p, IsParty p → ∀ j, j < i → fs'.data (canon (dayFile (D ++ p) (j + 1))) = fs.data (canon (dayFile (D ++ p) (j + 1)))) := by
  intro n
  induction n with
  | zero =>
    intro i fs fs' h
    simp only [writeDays, Outcome.ok.injEq] at h
    subst h
    exact ⟨SameBut.refl _ _, fun j h1 h2 => absurd h2 (by omega), fun _ _ _ _ => rfl⟩
  | succ n ih =>
    intro i fs fs' h
    simp only [writeDays, Outcome.bind_eq_ok] at h
    obtain ⟨a, ha, f1, w1, b, hb, f2, w2, h⟩ := h
    have ha' : d0[i]? = some a := by
      unfold Num.vget at ha
      split at ha
      · rename_i e; simp only [Outcome.ok.injEq] at ha; rw [e, ha]
      · simp at ha
    have hb' : d1[i]? = some b := by
      unfold Num.vget at hb
      split at hb
      · rename_i e; simp only [Outcome.ok.injEq] at hb; rw [e, hb]
      · simp at hb
    obtain ⟨r1, a2, a3⟩ := writeDataset_spec (h0 a (List.mem_of_getElem? ha')) w1
    obtain ⟨r2, b2, b3⟩ := writeDataset_spec (h1 b (List.mem_of_getElem? hb')) w2
    obtain ⟨c1, c2, c3⟩ := ih (i + 1) f2 fs' h
    have p0 : IsParty "p0/" := Or.inl rfl
    have p1 : IsParty "p1/" := Or.inr rfl
    have ne : canon (dayFile (D ++ "p0/") (i + 1)) ≠ canon (dayFile (D ++ "p1/") (i + 1)) :=
      fun e => absurd (dayFile_inj p0 p1 e).1 (by decide)
    refine ⟨⟨c1.1.trans (b2.trans a2), fun m hm => ?_⟩, fun j hj hj' x y hx hy => ?_, fun p hp j hj => ?_⟩
    · rw [c1.2 m hm, b3 m, a3 m]
      · rintro rfl; rw [canon_last, dayFile_last] at hm; exact hm rfl
      · rintro rfl; rw [canon_last, dayFile_last] at hm; exact hm rfl
    · by_cases hji : j = i
      · subst hji
        rw [ha'] at hx; rw [hb'] at hy
        simp only [Option.some.injEq] at hx hy
        subst hx hy
        constructor
        · have e := c3 _ p0 j (by omega)
          have : readDataset (dayFile (D ++ "p0/") (j + 1)) f2 = .ok a := by
            have := r1 _ rfl
            unfold readDataset at this ⊢
            rw [b3 _ ne]; exact this
          unfold readDataset at this ⊢
          rw [e]; exact this
        · have e := c3 _ p1 j (by omega)
          have := r2 _ rfl
          unfold readDataset at this ⊢
          rw [e]; exact this
      · exact c2 j (by omega) (by omega) x y hx hy
    · rw [c3 p hp j (by omega), b3, a3]
      · intro e; have := (dayFile_inj hp p0 e).2; omega
      · intro e; have := (dayFile_inj hp p1 e).2; omega

theorem readDaily_of (dir : String) (fs : FS) (d : List Dataset) : ∀ (n i : Nat), d.length = i + n →
    (∀ j, i ≤ j → j < i + n → ∀ a, d[j]? = some a → readDataset (dayFile dir (j + 1)) fs = .ok a) →
    readDaily dir fs n (i + 1) = .ok (d.drop i) := by
  intro n
  induction n with
  | zero => intro i hl _; rw [readDaily, List.drop_eq_nil_of_le (by omega)]
  | succ n ih =>
    intro i hl h
    have hi : i < d.length := by omega
    rw [readDaily, h i (by omega) (by omega) d[i] (List.getElem?_eq_getElem hi), Outcome.bind_ok,
      ih (i + 1) (by omega) (fun j h1 h2 => h j (by omega) (by omega)), Outcome.bind_ok, List.drop_eq_getElem_cons hi]
    rfl

/-- What the setup program writes for `n` days is what the parties read. -/
theorem daily_roundtrip {D : String} {d0 d1 : List Dataset} {n : Nat} (l0 : d0.length = n) (l1 : d1.length = n)
    (h0 : ∀ d ∈ d0, d.Good) (h1 : ∀ d ∈ d1, d.Good) {fs fs' : FS}
    (h : writeDays (D ++ "p0/") (D ++ "p1/") d0 d1 n 0 fs = .ok fs') :
    SameBut 'v' fs fs' ∧ readDaily (D ++ "p0/") fs' n 1 = .ok d0 ∧ readDaily (D ++ "p1/") fs' n 1 = .ok d1 := by
  obtain ⟨a, b, _⟩ := writeDays_spec h0 h1 n 0 fs fs' h
  refine ⟨a, ?_, ?_⟩
  · refine readDaily_of _ _ d0 n 0 (by omega) (fun j hj hj' x hx => ?_)
    have : j < d1.length := by omega
    exact (b j hj hj' x d1[j] hx (List.getElem?_eq_getElem this)).1
  · refine readDaily_of _ _ d1 n 0 (by omega) (fun j hj hj' x hx => ?_)
    have : j < d0.length := by omega
    exact (b j hj hj' d0[j] x (List.getElem?_eq_getElem this) hx).2

/-- Reading days only looks at `.csv` files. -/
theorem readDaily_same {ch : Char} (hch : ch ≠ 'v') {fs fs' : FS} (h : SameBut ch fs fs') (dir : String) :
    ∀ n i, readDaily dir fs' n i = readDaily dir fs n i := by
  intro n
  induction n with
  | zero => intro i; rfl
  | succ n ih =>
    intro i
    rw [readDaily, readDaily, h.dataset (by rw [dayFile_last]; intro e; exact hch (Option.some.inj e).symm), ih]

/-! ### conversion -/

theorem loadElems_ok (ds : List Dataset) (h : ∀ d ∈ ds, ∀ e ∈ d.elements, Numeric e) :
    loadElems ds = .ok (ds.map (fun d => d.elements.map digitsValue)) := by
  induction ds with
  | nil => rfl
  | cons d ds ih =>
    rw [loadElems, C57_elements_exact d (h d (by simp)), ih (fun x hx => h x (by simp [hx]))]
    rfl

/-- The rows of a data set as numbers. -/
def rows (d : Dataset) : List (Nat × Int) := (d.elements.map digitsValue).zip d.values

theorem pairs_rows (d : Dataset) (h : ∀ e ∈ d.elements, Numeric e) (hl : d.values.length = d.elements.length)
    (hv : ∀ v ∈ d.values, v ≠ -(2 ^ 63)) : ∃ r, d.pairs = .ok r ∧ r.map (fun p => (p.1.toNat, p.2)) = rows d := by
  refine ⟨_, C57_pairs_exact d h hl hv, ?_⟩
  rw [rows, List.zip_map_left, List.zip_map_left, List.map_map]
  refine List.map_congr_left (fun p _ => ?_)
  rcases p with ⟨a, b⟩
  simp

theorem loadPairs_ok (ds : List Dataset) (h : ∀ d ∈ ds, ∀ e ∈ d.elements, Numeric e)
    (hl : ∀ d ∈ ds, d.values.length = d.elements.length) (hv : ∀ d ∈ ds, ∀ v ∈ d.values, v ≠ -(2 ^ 63)) :
    loadPairs ds = .ok (ds.map rows) := by
  induction ds with
  | nil => rfl
  | cons d ds ih =>
    obtain ⟨r, e1, e2⟩ := pairs_rows d (h d (by simp)) (hl d (by simp)) (hv d (by simp))
    rw [loadPairs, e1, ih (fun x hx => h x (by simp [hx])) (fun x hx => hl x (by simp [hx])) (fun x hx => hv x (by simp [hx]))]
    simp only [orAbort, Outcome.bind_ok, Outcome.pure_eq, List.map_cons, e2]

end Upsi.Main
