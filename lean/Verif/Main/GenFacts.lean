import Verif.Main.AddMain
import Verif.Main.FileProps
import Verif.Main.NetProps
/- What the data generator of addition/setup.cc hands to the rest of the program (helper lemmas for C74). -/
namespace Upsi.Main
open Upsi Upsi.Rec Upsi.Setup Upsi.Data

/-- A string of `L` decimal digits with a value below `B`. -/
def DigitString (L B : Nat) (e : Data.Bytes) : Prop := e.length = L ∧ (∀ c ∈ e, isDigit c = true) ∧ digitsValue e < B

/-- The draws of the generator of addition-only data sets for the given flags: as many strings as requested, pairwise
different strings of `L` digits below `B` (`GetRandomSetElement` draws 16 digits starting with 0, C40), shuffles that permute,
payloads in `[0, max_value)`. -/
structure DrawsOK (L B days daily start shared maxValue : Nat) (R : AddRand) : Prop where
  maxPos : 0 < maxValue
  sharedLen : R.shared.length = shared
  fill0 : R.fill0.length = start + days * daily - shared
  fill1 : R.fill1.length = start + days * daily - shared
  perm0 : ∀ l, (R.shuffle0 l).Perm l
  perm1 : ∀ l, (R.shuffle1 l).Perm l
  vals : R.vals.length = start + days * daily
  range : ∀ v ∈ R.vals, 0 ≤ v ∧ v < maxValue
  nodup : (R.shared ++ R.fill0 ++ R.fill1).Nodup
  digits : ∀ e ∈ R.shared ++ R.fill0 ++ R.fill1, DigitString L B e

/-- Digit strings of the same length with the same value are equal. -/
theorem digits_inj : ∀ {a b : Data.Bytes}, a.length = b.length → (∀ c ∈ a, isDigit c = true) → (∀ c ∈ b, isDigit c = true) →
    digitsValue a = digitsValue b → a = b := by
  intro a
  induction a with
  | nil => intro b h _ _ _; exact (List.length_eq_zero_iff.1 h.symm).symm
  | cons x a ih =>
    intro b h ha hb e
    cases b with
    | nil => simp at h
    | cons y b =>
      simp only [List.length_cons, Nat.add_right_cancel_iff] at h
      rw [digitsValue_cons, digitsValue_cons, h] at e
      have h1 := digitsValue_lt a (fun c hc => ha c (by simp [hc]))
      have h2 := digitsValue_lt b (fun c hc => hb c (by simp [hc]))
      rw [h] at h1
      have h3 := isDigit_bounds (ha x (by simp))
      have h4 := isDigit_bounds (hb y (by simp))
      generalize 10 ^ b.length = P at *
      have hxy : x.toNat - 48 = y.toNat - 48 := by
        rcases Nat.lt_trichotomy (x.toNat - 48) (y.toNat - 48) with hlt | heq | hgt
        · have := Nat.mul_le_mul_right P (show x.toNat - 48 + 1 ≤ y.toNat - 48 by omega)
          rw [Nat.add_mul] at this; omega
        · exact heq
        · have := Nat.mul_le_mul_right P (show y.toNat - 48 + 1 ≤ x.toNat - 48 by omega)
          rw [Nat.add_mul] at this; omega
      rw [hxy] at e
      have hx : x = y := UInt8.toNat_inj.1 (by omega)
      rw [hx, ih h (fun c hc => ha c (by simp [hc])) (fun c hc => hb c (by simp [hc])) (by omega)]

/-- Numbers instead of strings. -/
theorem nodup_values {L B : Nat} {l : List Data.Bytes} (h : ∀ e ∈ l, DigitString L B e) (hn : l.Nodup) : (l.map digitsValue).Nodup := by
  refine List.Nodup.map_on (fun a ha b hb e => ?_) hn
  exact digits_inj ((h a ha).1.trans (h b hb).1.symm) (h a ha).2.1 (h b hb).2.1 e

theorem DigitString.numeric {L B : Nat} {e : Data.Bytes} (h : DigitString L B e) (hL : 0 < L) (hB : B ≤ 2 ^ 64) : Numeric e :=
  ⟨by rintro rfl; simp [DigitString] at h; omega, h.2.1, by have := h.2.2; omega⟩

theorem DigitString.clean {L B : Nat} {e : Data.Bytes} (h : DigitString L B e) : (0 : UInt8) ∉ e ∧ (10 : UInt8) ∉ e := by
  constructor
  · intro hc; have := h.2.1 _ hc; revert this; decide
  · intro hc; have := h.2.1 _ hc; revert this; decide

/-- What the generator returns. -/
structure GenFacts (L B days daily start shared maxValue : Nat) (g : GenSets) : Prop where
  len0 : g.days0.length = days
  len1 : g.days1.length = days
  day0 : ∀ d ∈ g.days0, d.elements.length = daily ∧ d.values.length = daily
  day1 : ∀ d ∈ g.days1, d.elements.length = daily ∧ d.values = []
  t0 : g.tree0.elements.length = start ∧ g.tree0.values.length = start
  t1 : g.tree1.elements.length = start ∧ g.tree1.values = []
  str0 : ∀ d ∈ g.tree0 :: g.days0, ∀ e ∈ d.elements, DigitString L B e
  str1 : ∀ d ∈ g.tree1 :: g.days1, ∀ e ∈ d.elements, DigitString L B e
  vals : ∀ d ∈ g.tree0 :: g.days0, ∀ v ∈ d.values, 0 ≤ v ∧ v < maxValue
  nodup0 : (allElements g.tree0 g.days0).Nodup
  nodup1 : (allElements g.tree1 g.days1).Nodup
  common : ((allElements g.tree0 g.days0).filter (fun e => e ∈ allElements g.tree1 g.days1)).length = shared
  sum : g.sum = sharedSum ((allElements g.tree0 g.days0).zip (allValues g.tree0 g.days0)) (allElements g.tree1 g.days1)

theorem gen_facts {L B days daily start shared maxValue : Nat} {R : AddRand} (hR : DrawsOK L B days daily start shared maxValue R)
    (htot : start + days * daily < 2 ^ 32) {g : GenSets} (h : genAddOnly days daily start shared maxValue R = .ok g) :
    shared ≤ start + days * daily ∧ shared ≤ (2 ^ 63 - 1) / maxValue ∧ GenFacts L B days daily start shared maxValue g := by
  have hcond : shared ≤ start + days * daily ∧ shared ≤ (2 ^ 63 - 1) / maxValue := by
    unfold genAddOnly at h
    rw [Nat.mod_eq_of_lt htot] at h
    by_cases h1 : shared > start + days * daily
    · rw [if_pos h1] at h; simp at h
    by_cases h2 : maxValue > 0 ∧ shared > (2 ^ 63 - 1) / maxValue
    · rw [if_neg h1, if_pos h2] at h; simp at h
    have := hR.maxPos
    exact ⟨by omega, by omega⟩
  obtain ⟨hsh, hov⟩ := hcond
  refine ⟨hsh, hov, ?_⟩
  obtain ⟨g', e, c1, c2, c3, c4, c5, c6, c7⟩ := C54_add_only days daily start shared maxValue R htot hsh hR.maxPos hov hR.sharedLen
    hR.fill0 hR.fill1 hR.perm0 hR.perm1 hR.vals hR.range hR.nodup
  obtain rfl : g = g' := Outcome.ok.inj (h.symm.trans e)
  unfold genAddOnly at h
  have hm := hR.maxPos
  simp only [Nat.mod_eq_of_lt htot] at h
  rw [if_neg (by omega), if_neg (by omega), if_neg (by omega)] at h
  have P0 := hR.perm0 (R.shared ++ R.fill0)
  have P1 := hR.perm1 (R.shared ++ R.fill1)
  generalize R.shuffle0 (R.shared ++ R.fill0) = p0 at P0 h
  generalize R.shuffle1 (R.shared ++ R.fill1) = p1 at P1 h
  have l0 : p0.length = start + days * daily := by rw [P0.length_eq, List.length_append, hR.sharedLen, hR.fill0]; omega
  have l1 : p1.length = start + days * daily := by rw [P1.length_eq, List.length_append, hR.sharedLen, hR.fill1]; omega
  obtain ⟨as, bs, e2, a1, a2, a3, a4, a5, a6, a7⟩ := cutDays_spec p0 p1 R.vals daily days start (by omega) (by omega) (by rw [hR.vals])
  simp only [Outcome.bind_eq_ok] at h
  obtain ⟨s, hs, h⟩ := h
  rw [cutDay_spec p0 p1 R.vals 0 start (by omega) (by omega) (by rw [hR.vals]; omega)] at h
  obtain ⟨c, hc, d, hd, h⟩ := h
  obtain rfl := Outcome.ok.inj hc
  obtain rfl := Outcome.ok.inj (e2.symm.trans hd)
  simp only [Outcome.pure_eq, Outcome.ok.injEq] at h
  have m0 : ∀ e ∈ p0, DigitString L B e := fun e he => hR.digits e (by
    have := P0.subset he
    simp only [List.mem_append] at this ⊢; tauto)
  have m1 : ∀ e ∈ p1, DigitString L B e := fun e he => hR.digits e (by
    have := P1.subset he
    simp only [List.mem_append] at this ⊢; tauto)
  subst h
  refine ⟨a1, a2, a3, a4, ?_, ?_, ?_, ?_, ?_, c2, c3, c4, c7⟩
  · simp only [List.drop_zero, List.length_take, hR.vals, l0]; omega
  · simp only [List.drop_zero, List.length_take, l1]; exact ⟨by omega, trivial⟩
  · intro d hd e he
    rcases List.mem_cons.1 hd with rfl | hd
    · exact m0 e (List.mem_of_mem_drop (List.mem_of_mem_take he))
    · have : e ∈ as.flatMap (·.elements) := List.mem_flatMap.2 ⟨d, hd, he⟩
      rw [a5] at this
      exact m0 e (List.mem_of_mem_drop (List.mem_of_mem_take this))
  · intro d hd e he
    rcases List.mem_cons.1 hd with rfl | hd
    · exact m1 e (List.mem_of_mem_drop (List.mem_of_mem_take he))
    · have : e ∈ bs.flatMap (·.elements) := List.mem_flatMap.2 ⟨d, hd, he⟩
      rw [a6] at this
      exact m1 e (List.mem_of_mem_drop (List.mem_of_mem_take this))
  · intro d hd v hv
    rcases List.mem_cons.1 hd with rfl | hd
    · exact hR.range v (List.mem_of_mem_drop (List.mem_of_mem_take hv))
    · have : v ∈ as.flatMap (·.values) := List.mem_flatMap.2 ⟨d, hd, hv⟩
      rw [a7] at this
      exact hR.range v (List.mem_of_mem_drop (List.mem_of_mem_take this))

/-- The elements of both parties are, up to order, the drawn ones. -/
theorem gen_perm {L B days daily start shared maxValue : Nat} {R : AddRand} (hR : DrawsOK L B days daily start shared maxValue R)
    (htot : start + days * daily < 2 ^ 32) {g : GenSets} (h : genAddOnly days daily start shared maxValue R = .ok g) :
    (allElements g.tree0 g.days0).Perm (R.shared ++ R.fill0) ∧ (allElements g.tree1 g.days1).Perm (R.shared ++ R.fill1) := by
  obtain ⟨hsh, hov, -⟩ := gen_facts hR htot h
  unfold genAddOnly at h
  have hm := hR.maxPos
  simp only [Nat.mod_eq_of_lt htot] at h
  rw [if_neg (by omega), if_neg (by omega), if_neg (by omega)] at h
  have P0 := hR.perm0 (R.shared ++ R.fill0)
  have P1 := hR.perm1 (R.shared ++ R.fill1)
  generalize R.shuffle0 (R.shared ++ R.fill0) = p0 at P0 h
  generalize R.shuffle1 (R.shared ++ R.fill1) = p1 at P1 h
  have l0 : p0.length = start + days * daily := by rw [P0.length_eq, List.length_append, hR.sharedLen, hR.fill0]; omega
  have l1 : p1.length = start + days * daily := by rw [P1.length_eq, List.length_append, hR.sharedLen, hR.fill1]; omega
  obtain ⟨as, bs, e2, -, -, -, -, a5, a6, -⟩ := cutDays_spec p0 p1 R.vals daily days start (by omega) (by omega) (by rw [hR.vals])
  simp only [Outcome.bind_eq_ok] at h
  obtain ⟨s, hs, h⟩ := h
  rw [cutDay_spec p0 p1 R.vals 0 start (by omega) (by omega) (by rw [hR.vals]; omega)] at h
  obtain ⟨c, hc, d, hd, h⟩ := h
  obtain rfl := Outcome.ok.inj hc
  obtain rfl := Outcome.ok.inj (e2.symm.trans hd)
  simp only [Outcome.pure_eq, Outcome.ok.injEq] at h
  subst h
  have t : ∀ (p : List Data.Bytes), p.length = start + days * daily →
      (p.drop 0).take start ++ (p.drop start).take (days * daily) = p := by
    intro p hp
    rw [List.drop_zero, List.take_of_length_le (l := p.drop start) (by rw [List.length_drop]; omega), List.take_append_drop]
  unfold allElements
  rw [a5, a6]
  exact ⟨(List.Perm.of_eq (t p0 l0)).trans P0, (List.Perm.of_eq (t p1 l1)).trans P1⟩

/-- The common elements are the drawn shared ones. -/
theorem gen_common {L B days daily start shared maxValue : Nat} {R : AddRand} (hR : DrawsOK L B days daily start shared maxValue R)
    (htot : start + days * daily < 2 ^ 32) {g : GenSets} (h : genAddOnly days daily start shared maxValue R = .ok g) :
    ((allElements g.tree0 g.days0).filter (fun e => e ∈ allElements g.tree1 g.days1)).Perm R.shared := by
  obtain ⟨h0, h1⟩ := gen_perm hR htot h
  refine (h0.filter _).trans ?_
  have hd := hR.nodup
  rw [List.nodup_append] at hd
  have e1 : R.shared.filter (fun e => decide (e ∈ allElements g.tree1 g.days1)) = R.shared :=
    List.filter_eq_self.2 (fun e he => decide_eq_true (h1.mem_iff.2 (by simp [he])))
  have e2 : R.fill0.filter (fun e => decide (e ∈ allElements g.tree1 g.days1)) = [] := by
    refine List.filter_eq_nil_iff.2 (fun e he hc => ?_)
    have hm := h1.mem_iff.1 (of_decide_eq_true hc)
    rcases List.mem_append.1 hm with hm | hm
    · exact (List.nodup_append.1 hd.1).2.2 e hm e he rfl
    · exact hd.2.2 e (by simp [he]) e hm rfl
  rw [List.filter_append, e1, e2, List.append_nil]

theorem GenFacts.good0 {L B days daily start shared maxValue : Nat} {g : GenSets} (h : GenFacts L B days daily start shared maxValue g)
    (hm : maxValue < 2 ^ 32) : ∀ d ∈ g.days0, d.Good := fun d hd =>
  ⟨fun e he => (h.str0 d (by simp [hd]) e he).clean, fun v hv => by
    have := h.vals d (by simp [hd]) v hv; omega, Or.inr (by rw [(h.day0 d hd).1, (h.day0 d hd).2])⟩

theorem GenFacts.good1 {L B days daily start shared maxValue : Nat} {g : GenSets} (h : GenFacts L B days daily start shared maxValue g) :
    ∀ d ∈ g.days1, d.Good := fun d hd =>
  ⟨fun e he => (h.str1 d (by simp [hd]) e he).clean, fun v hv => by rw [(h.day1 d hd).2] at hv; simp at hv, Or.inl (h.day1 d hd).2⟩

/-! ### the initial result -/

/-- The rows of a data set whose element the other party has. -/
def initialMatches (g : GenSets) : List (Data.Bytes × Int) :=
  (g.tree0.elements.zip g.tree0.values).filter (fun e => e.1 ∈ g.tree1.elements)

theorem int32_add_int (a b : Int) : int32 (int32 a + b) = int32 (a + b) := by
  unfold int32; omega

theorem int32_idem (a : Int) : int32 (int32 a) = int32 a := by unfold int32; omega

theorem int32_range (a : Int) (h : -2 ^ 31 ≤ a) (h' : a < 2 ^ 31) : int32 a = a := by unfold int32; omega

theorem initInner_spec (e : Data.Bytes) (v : Int) : ∀ (ys : List Data.Bytes) (n s n' s' : Int), ys.Nodup →
    initInner e v ys (n, int32 s) = .ok (n', s') →
    n' = n + (if e ∈ ys then 1 else 0) ∧ s' = int32 (s + if e ∈ ys then v else 0) := by
  intro ys
  induction ys with
  | nil => intro n s n' s' _ h; simp only [initInner, Outcome.ok.injEq, Prod.mk.injEq] at h; simp [← h.1, ← h.2]
  | cons y ys ih =>
    intro n s n' s' hn h
    obtain ⟨hy, hn'⟩ := List.nodup_cons.1 hn
    rw [initInner] at h
    by_cases he : e = y
    · subst he
      rw [if_pos rfl] at h
      split at h
      · rw [int32_add_int] at h
        obtain ⟨h1, h2⟩ := ih _ _ _ _ hn' h
        rw [if_neg hy] at h1 h2
        simp only [List.mem_cons, true_or, if_true]
        exact ⟨by omega, by rw [h2, Int.add_zero]⟩
      · simp at h
    · rw [if_neg he] at h
      obtain ⟨h1, h2⟩ := ih _ _ _ _ hn' h
      simp only [List.mem_cons, he, false_or]
      exact ⟨h1, h2⟩

theorem initGo_spec (ys : List Data.Bytes) (hn : ys.Nodup) : ∀ (es : List Data.Bytes) (vs : List Int) (n s n' s' : Int),
    initGo ys es vs (n, int32 s) = .ok (n', s') →
    n' = n + ((es.zip vs).filter (fun e => e.1 ∈ ys)).length ∧
      s' = int32 (s + (((es.zip vs).filter (fun e => e.1 ∈ ys)).map Prod.snd).sum) := by
  intro es
  induction es with
  | nil => intro vs n s n' s' h; simp only [initGo, Outcome.ok.injEq, Prod.mk.injEq] at h; simp [← h.1, ← h.2]
  | cons e es ih =>
    intro vs n s n' s' h
    cases vs with
    | nil => simp [initGo] at h
    | cons v vs =>
      simp only [initGo, Outcome.bind_eq_ok] at h
      obtain ⟨⟨m, t⟩, h1, h2⟩ := h
      obtain ⟨rfl, rfl⟩ := initInner_spec e v ys _ _ _ _ hn h1
      obtain ⟨h3, h4⟩ := ih _ _ _ _ _ h2
      rw [List.zip_cons_cons]
      by_cases he : e ∈ ys
      · simp only [he, if_true, decide_true, List.filter_cons_of_pos, List.length_cons, List.map_cons, List.sum_cons] at h3 h4 ⊢
        exact ⟨by push_cast; omega, by rw [h4, Int.add_assoc]⟩
      · simp only [he, if_false, decide_false, Bool.false_eq_true, not_false_eq_true, List.filter_cons_of_neg, Int.add_zero] at h3 h4 ⊢
        exact ⟨h3, h4⟩

end Upsi.Main
