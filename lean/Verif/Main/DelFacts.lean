import Verif.Main.DelMain
import Verif.Main.GenFacts
import Verif.Data.GenMore
/- What the data generator of deletion/setup.cc hands to the rest of the program (helper lemmas for C75). -/
namespace Upsi.Main
open Upsi Upsi.Rec Upsi.Tree Upsi.Tree.Props Upsi.Proto Upsi.Setup Upsi.Data

/-- The draws of the generator for the given flags: as many strings as the program draws, those of each party pairwise
different, strings of `L` digits below `B` (`GetRandomSetElement` draws 16 digits starting with 0, C40), payloads in
`[1, max_value)` for sums, no element zero for intersections. -/
structure DelDrawsOK (L B days daily start : Nat) (maxValue : Int) (func : Functionality) (R : DelRand) : Prop where
  sharedLen : R.shared.length = (start + days * daily) / 3
  diff0 : R.diff0.length = start + days * daily - (start + days * daily) / 3
  diff1 : R.diff1.length = start + days * daily - (start + days * daily) / 3
  nodup0 : (R.shared ++ R.diff0).Nodup
  nodup1 : (R.shared ++ R.diff1).Nodup
  digits : ∀ e ∈ R.shared ++ R.diff0 ++ R.diff1, DigitString L B e
  payload : func = .SUM → ∀ j, 0 < R.payload j ∧ R.payload j < maxValue
  positive : func = .PSI → ∀ e ∈ R.shared ++ R.diff0 ++ R.diff1, 0 < digitsValue e

/-- Rows as numbers. -/
def numRows (l : List (Data.Bytes × Int)) : List EP := l.map (fun r => (digitsValue r.1, r.2))

theorem rows_ofRows (l : List (Data.Bytes × Int)) : rows (.ofRows l) = numRows l := by
  unfold rows numRows Dataset.ofRows
  induction l with
  | nil => rfl
  | cons a l ih =>
    simp only [List.map_cons, List.zip_cons_cons] at ih ⊢
    rw [ih]

theorem numRows_append (a b : List (Data.Bytes × Int)) : numRows (a ++ b) = numRows a ++ numRows b := List.map_append

theorem numRows_flatten (l : List (List (Data.Bytes × Int))) : numRows l.flatten = (l.map numRows).flatten := by
  unfold numRows
  rw [List.map_flatten]

theorem DigitString.stoll {L B : Nat} {e : Data.Bytes} (h : DigitString L B e) (hL : 0 < L) (hB : B ≤ 2 ^ 63) :
    Data.stoll e = .ok (digitsValue e : Int) := by
  have hne : e ≠ [] := by rintro rfl; simp [DigitString] at h; omega
  have hv := h.2.2
  unfold Data.stoll
  rw [parse_digits hne h.2.1]
  simp only [Bool.false_eq_true, if_false]
  rw [if_pos (by omega)]

/-- Every row is plus or minus the value of its element, a positive number. -/
def RowsOK (L B : Nat) (val : Data.Bytes → Int) (l : List (Data.Bytes × Int)) : Prop :=
  ∀ r ∈ l, DigitString L B r.1 ∧ (r.2 = val r.1 ∨ r.2 = -val r.1) ∧ 0 < val r.1

theorem RowsOK.mono {L B : Nat} {val : Data.Bytes → Int} {l l' : List (Data.Bytes × Int)} (h : RowsOK L B val l) (hs : ∀ r ∈ l', r ∈ l) :
    RowsOK L B val l' := fun r hr => h r (hs r hr)

/-- What the generator returns. -/
structure DelFacts (L B days daily start : Nat) (maxValue : Int) (func : Functionality) (g : GenSets)
    (t0 t1 : List (Data.Bytes × Int)) (ds0 ds1 : List (List (Data.Bytes × Int))) (val : Data.Bytes → Int) : Prop where
  tree0 : g.tree0 = .ofRows t0
  tree1 : g.tree1 = .ofRows t1
  days0 : g.days0 = ds0.map .ofRows
  days1 : g.days1 = ds1.map .ofRows
  good0 : GoodHistory start days daily t0 ds0
  good1 : GoodHistory start days daily t1 ds1
  rows0 : RowsOK L B val (t0 ++ ds0.flatten)
  rows1 : RowsOK L B (fun _ => 1) (t1 ++ ds1.flatten)
  valCA : func = .CA → ∀ r ∈ t0 ++ ds0.flatten, val r.1 = 1
  valSum : func = .SUM → ∀ r ∈ t0 ++ ds0.flatten, val r.1 < maxValue
  valPsi : func = .PSI → ∀ r ∈ t0 ++ ds0.flatten, val r.1 = digitsValue r.1
  pos0 : func = .PSI → ∀ r ∈ t0 ++ ds0.flatten, 0 < digitsValue r.1
  pos1 : func = .PSI → ∀ r ∈ t1 ++ ds1.flatten, 0 < digitsValue r.1
  sum : g.sum = wrap64 (expected func (t0 ++ ds0.flatten) (t1 ++ ds1.flatten) - expected func t0 t1)

theorem del_facts {L B days daily start max : Nat} {maxValue : Int} {func : Functionality} {R : DelRand}
    (hR : DelDrawsOK L B days daily start maxValue func R) (hL : 0 < L) (hB : B ≤ 2 ^ 63) (htot : start + days * daily < 2 ^ 32)
    (hd : 0 < daily) (hk : 0 < days) (hmax : func = .SUM → 1 < max) (hfunc : func = .CA ∨ func = .SUM ∨ func = .PSI)
    {g : GenSets} (h : genDeletionSets days daily start max func R = .ok g) :
    ∃ t0 t1 ds0 ds1 val, DelFacts L B days daily start maxValue func g t0 t1 ds0 ds1 val := by
  have dg0 : ∀ e ∈ R.shared ++ R.diff0, DigitString L B e := fun e he => hR.digits e (by
    rw [List.append_assoc, List.mem_append] at *; simp only [List.mem_append] at he ⊢; tauto)
  have dg1 : ∀ e ∈ R.shared ++ R.diff1, DigitString L B e := fun e he => hR.digits e (by
    simp only [List.mem_append] at he ⊢; tauto)
  have hv : ∀ e ∈ R.shared ++ R.diff0, ∀ j, ∃ v, delValue func (R.payload j) e = .ok v ∧ 0 < v := by
    intro e he j
    rcases hfunc with rfl | rfl | rfl
    · exact ⟨1, rfl, by norm_num⟩
    · exact ⟨_, rfl, (hR.payload rfl j).1⟩
    · refine ⟨_, (dg0 e he).stoll hL hB, ?_⟩
      have := hR.positive rfl e (by simp only [List.mem_append] at he ⊢; tauto)
      omega
  obtain ⟨g', t0, ds0, t1, ds1, e, a1, a2, a3, a4, a5, a6, a7⟩ := C54_deletion days daily start max func R htot hd hk hmax hR.sharedLen
    hR.diff0 hR.diff1 hR.nodup0 hR.nodup1 hv
  obtain rfl := Outcome.ok.inj (h.symm.trans e)
  obtain ⟨u0, u1, es0, es1, val, b1, b2, b3, b4, b5, b6⟩ := C54_deletion_values _ _ _ _ _ _ _ h
  have inj : ∀ {x y : List (List (Data.Bytes × Int))}, x.map Dataset.ofRows = y.map Dataset.ofRows → x = y := fun hxy =>
    (List.map_injective_iff.2 (fun _ _ h => ofRows_inj h)) hxy
  obtain rfl : t0 = u0 := ofRows_inj (a1.symm.trans b1)
  obtain rfl : t1 = u1 := ofRows_inj (a3.symm.trans b3)
  obtain rfl : ds0 = es0 := inj (a2.symm.trans b2)
  obtain rfl : ds1 = es1 := inj (a4.symm.trans b4)
  have vp : ∀ r ∈ t0 ++ ds0.flatten, ValueOK func R r.1 (val r.1) → 0 < val r.1 := by
    intro r hr hval
    rcases hfunc with rfl | rfl | rfl
    · change val r.1 = 1 at hval; omega
    · obtain ⟨j, hj⟩ := hval
      rw [hj]; exact (hR.payload rfl j).1
    · change Data.stoll r.1 = .ok (val r.1) at hval
      have := Outcome.ok.inj (hval.symm.trans ((dg0 _ (b5 r hr).1).stoll hL hB))
      have := hR.positive rfl r.1 (by have := (b5 r hr).1; simp only [List.mem_append] at this ⊢; tauto)
      omega
  refine ⟨t0, t1, ds0, ds1, val, a1, a3, a2, a4, a5, a6, fun r hr => ⟨dg0 _ (b5 r hr).1, (b5 r hr).2.1, vp r hr (b5 r hr).2.2⟩,
    fun r hr => ⟨dg1 _ (b6 r hr).1, (b6 r hr).2, by norm_num⟩, ?_, ?_, ?_, ?_, ?_, a7⟩
  · rintro rfl r hr; exact (b5 r hr).2.2
  · rintro rfl r hr
    obtain ⟨j, hj⟩ := (b5 r hr).2.2
    rw [hj]; exact (hR.payload rfl j).2
  · rintro rfl r hr
    exact Outcome.ok.inj ((b5 r hr).2.2.symm.trans ((dg0 _ (b5 r hr).1).stoll hL hB))
  · intro hf r hr
    exact hR.positive hf r.1 (by have := (b5 r hr).1; simp only [List.mem_append] at this ⊢; tauto)
  · intro hf r hr
    exact hR.positive hf r.1 (by have := (b6 r hr).1; simp only [List.mem_append] at this ⊢; tauto)

/-! ### numbers instead of strings -/

theorem payloadSum_numRows {L B : Nat} {l : List (Data.Bytes × Int)} (h : ∀ r ∈ l, DigitString L B r.1) {k : Data.Bytes}
    (hk : DigitString L B k) : payloadSum (digitsValue k) (numRows l) = net l k := by
  unfold payloadSum numRows Data.net
  rw [List.filter_map, List.map_map]
  have : l.filter ((fun e : EP => decide (e.1 = digitsValue k)) ∘ fun r => (digitsValue r.1, r.2)) = l.filter (fun e => e.1 = k) := by
    refine List.filter_congr (fun r hr => ?_)
    refine decide_eq_decide.2 ⟨fun e => ?_, fun e => congrArg digitsValue e⟩
    exact digits_inj ((h r hr).1.trans hk.1.symm) (h r hr).2.1 hk.2.1 e
  rw [this]
  rfl

/-- The net payload of an element is zero or its value. -/
theorem net_range {L B : Nat} {val : Data.Bytes → Int} : ∀ (rs before : List (Data.Bytes × Int)), ValidHistory before rs → RowsOK L B val rs →
    (∀ k, net before k = 0 ∨ net before k = val k) → ∀ k, net (before ++ rs) k = 0 ∨ net (before ++ rs) k = val k := by
  intro rs
  induction rs with
  | nil => intro before _ _ hb k; rw [List.append_nil]; exact hb k
  | cons r rs ih =>
    intro before hv hr hb k
    obtain ⟨hv, hvs⟩ := hv
    have := ih (before ++ [r]) hvs (hr.mono (fun x hx => by simp [hx])) (fun k => ?_) k
    · rwa [List.append_assoc] at this
    · rw [Data.net_append, net_single]
      by_cases e : r.1 = k
      · rw [if_pos e, ← e]
        obtain ⟨-, h2, h3⟩ := hr r (by simp)
        rcases hv with ⟨h4, h5⟩ | ⟨h4, h5⟩ <;> omega
      · rw [if_neg e]; have := hb k; omega

theorem net_range_nil {L B : Nat} {val : Data.Bytes → Int} {rs : List (Data.Bytes × Int)} (hv : ValidHistory [] rs) (hr : RowsOK L B val rs)
    (k : Data.Bytes) : net rs k = 0 ∨ net rs k = val k := by
  have := net_range rs [] hv hr (fun k => Or.inl rfl) k
  rwa [List.nil_append] at this

theorem ValidHistory.left {a b c : List (Data.Bytes × Int)} (h : ValidHistory a (b ++ c)) : ValidHistory a b := by
  induction b generalizing a with
  | nil => trivial
  | cons r b ih => exact ⟨h.1, ih h.2⟩

theorem ValidHistory.right {a b c : List (Data.Bytes × Int)} (h : ValidHistory a (b ++ c)) : ValidHistory (a ++ b) c := by
  induction b generalizing a with
  | nil => rw [List.append_nil]; exact h
  | cons r b ih =>
    have := ih h.2
    rwa [List.append_assoc] at this

/-- The inner product of what is held is the expected result. -/
theorem innerProduct_numRows {L B : Nat} {func : Functionality} (hf : func ≠ .PSI) {X Y : List (Data.Bytes × Int)}
    (hX : ∀ r ∈ X, DigitString L B r.1) (hY : RowsOK L B (fun _ => 1) Y) (vY : ValidHistory [] Y) :
    innerProduct (numRows X) (numRows Y) = expected func X Y := by
  unfold innerProduct expected
  have him : ((numRows X).map Prod.fst).toFinset = ((X.map Prod.fst).toFinset).image digitsValue := by
    ext n
    simp [numRows]
  have hd : ∀ k ∈ (X.map Prod.fst).toFinset, DigitString L B k := by
    intro k hk
    rw [List.mem_toFinset] at hk
    obtain ⟨r, hr, rfl⟩ := List.mem_map.1 hk
    exact hX r hr
  rw [him, Finset.sum_image (fun a ha b hb e => digits_inj ((hd a ha).1.trans (hd b hb).1.symm) (hd a ha).2.1 (hd b hb).2.1 e),
    Finset.sum_filter]
  refine Finset.sum_congr rfl (fun k hk => ?_)
  rw [payloadSum_numRows hX (hd k hk), payloadSum_numRows (fun r hr => (hY r hr).1) (hd k hk), if_neg hf]
  rcases net_range_nil vY hY k with h | h
  · rw [h, if_neg (by simp)]; ring
  · rw [h]
    by_cases h0 : net X k = 0
    · simp [h0]
    · rw [if_pos ⟨h0, by norm_num⟩]; ring

theorem mass_le {l : List EP} {M : Int} (h : ∀ e ∈ l, |e.2| ≤ M) : mass l ≤ l.length * M := by
  unfold mass
  induction l with
  | nil => simp
  | cons e l ih =>
    have h1 := ih (fun x hx => h x (by simp [hx]))
    have h2 := h e (by simp)
    simp only [List.map_cons, List.sum_cons, List.length_cons]
    push_cast
    rw [Int.add_mul]
    omega

theorem mass_nonneg (l : List EP) : 0 ≤ mass l := by
  unfold mass
  refine List.sum_nonneg (fun x hx => ?_)
  obtain ⟨e, -, rfl⟩ := List.mem_map.1 hx
  exact abs_nonneg _

/-! ### sets -/

/-- The numbers of the elements held after the rows `l`. -/
def heldN (l : List (Data.Bytes × Int)) : Finset Nat :=
  (((l.map Prod.fst).toFinset).filter (fun k => net l k ≠ 0)).image digitsValue

theorem mem_heldN {L B : Nat} {l : List (Data.Bytes × Int)} (h : ∀ r ∈ l, DigitString L B r.1) {n : Nat} :
    n ∈ heldN l ↔ ∃ k, DigitString L B k ∧ net l k ≠ 0 ∧ digitsValue k = n := by
  unfold heldN
  rw [Finset.mem_image]
  constructor
  · rintro ⟨k, hk, rfl⟩
    rw [Finset.mem_filter, List.mem_toFinset] at hk
    obtain ⟨hk, h0⟩ := hk
    obtain ⟨r, hr, rfl⟩ := List.mem_map.1 hk
    exact ⟨r.1, h r hr, h0, rfl⟩
  · rintro ⟨k, hk, h0, rfl⟩
    refine ⟨k, ?_, rfl⟩
    rw [Finset.mem_filter, List.mem_toFinset]
    refine ⟨?_, h0⟩
    by_contra hc
    exact h0 (net_absent hc)

theorem mem_heldN' {L B : Nat} {l : List (Data.Bytes × Int)} (h : ∀ r ∈ l, DigitString L B r.1) {k : Data.Bytes} (hk : DigitString L B k) :
    digitsValue k ∈ heldN l ↔ net l k ≠ 0 := by
  rw [mem_heldN h]
  constructor
  · rintro ⟨k', hk', h0, e⟩
    rwa [← digits_inj (hk'.1.trans hk.1.symm) hk'.2.1 hk.2.1 e]
  · intro h0
    exact ⟨k, hk, h0, rfl⟩

theorem carries_numRows {L B : Nat} {val : Data.Bytes → Int} {v : Nat → Int} {l : List (Data.Bytes × Int)} (hr : RowsOK L B val l)
    (hv : ValidHistory [] l) (hval : ∀ r ∈ l, val r.1 = v (digitsValue r.1)) : Carries v (numRows l) (heldN l) := by
  intro n
  have hd : ∀ r ∈ l, DigitString L B r.1 := fun r h => (hr r h).1
  by_cases hn : n ∈ ((numRows l).map Prod.fst).toFinset
  · rw [List.mem_toFinset] at hn
    obtain ⟨e, he, rfl⟩ := List.mem_map.1 hn
    obtain ⟨r, hr', rfl⟩ := List.mem_map.1 he
    simp only
    rw [payloadSum_numRows hd (hd r hr')]
    have hp := (hr r hr').2.2
    by_cases h0 : net l r.1 = 0
    · rw [if_neg (fun hc => (mem_heldN' hd (hd r hr')).1 hc h0), h0]
    · rw [if_pos ((mem_heldN' hd (hd r hr')).2 h0), ← hval r hr']
      rcases net_range_nil hv hr r.1 with h | h
      · exact absurd h h0
      · exact h
  · rw [payloadSum_absent hn, if_neg]
    intro hc
    obtain ⟨k, hk, h0, rfl⟩ := (mem_heldN hd).1 hc
    refine h0 (net_absent (fun hm => hn ?_))
    rw [List.mem_toFinset]
    obtain ⟨r, hr', rfl⟩ := List.mem_map.1 hm
    exact List.mem_map.2 ⟨_, List.mem_map.2 ⟨r, hr', rfl⟩, rfl⟩

/-- In a day without repeated elements every row is legal before the day. -/
theorem validRow_day : ∀ (d before : List (Data.Bytes × Int)), (d.map Prod.fst).Nodup → ValidHistory before d →
    ∀ r ∈ d, ValidRow before r := by
  intro d
  induction d with
  | nil => intro _ _ _ r hr; simp at hr
  | cons a d ih =>
    intro before hn hv r hr
    rw [List.map_cons, List.nodup_cons] at hn
    rcases List.mem_cons.1 hr with rfl | hr
    · exact hv.1
    · have := ih _ hn.2 hv.2 r hr
      unfold ValidRow at *
      rw [Data.net_append, net_single, if_neg (fun e => hn.1 (by rw [e]; exact List.mem_map_of_mem hr)), add_zero] at this
      exact this

theorem mem_delKeys_num {d : List (Data.Bytes × Int)} {n : Nat} : n ∈ delKeys (numRows d) ↔ ∃ r ∈ d, r.2 < 0 ∧ digitsValue r.1 = n := by
  simp only [delKeys, numRows, List.mem_toFinset, List.mem_map, List.mem_filter, decide_eq_true_eq]
  constructor
  · rintro ⟨a, ⟨⟨r, hr, rfl⟩, h⟩, rfl⟩
    exact ⟨r, hr, h, rfl⟩
  · rintro ⟨r, hr, h, rfl⟩
    exact ⟨_, ⟨⟨r, hr, rfl⟩, h⟩, rfl⟩

theorem mem_addKeys_num {d : List (Data.Bytes × Int)} {n : Nat} : n ∈ addKeys (numRows d) ↔ ∃ r ∈ d, 0 ≤ r.2 ∧ digitsValue r.1 = n := by
  simp only [addKeys, numRows, List.mem_toFinset, List.mem_map, List.mem_filter, decide_eq_true_eq]
  constructor
  · rintro ⟨a, ⟨⟨r, hr, rfl⟩, h⟩, rfl⟩
    exact ⟨r, hr, h, rfl⟩
  · rintro ⟨r, hr, h, rfl⟩
    exact ⟨_, ⟨⟨r, hr, rfl⟩, h⟩, rfl⟩

theorem numRows_nodup {L B : Nat} {d : List (Data.Bytes × Int)} (hd : ∀ r ∈ d, DigitString L B r.1) (hn : (d.map Prod.fst).Nodup) :
    ((numRows d).map Prod.fst).Nodup := by
  have : (numRows d).map Prod.fst = (d.map Prod.fst).map digitsValue := by simp [numRows, Function.comp_def]
  rw [this]
  refine nodup_values (L := L) (B := B) (fun e he => ?_) hn
  obtain ⟨r, hr, rfl⟩ := List.mem_map.1 he
  exact hd r hr

theorem day_disjoint {L B : Nat} {d : List (Data.Bytes × Int)} (hd : ∀ r ∈ d, DigitString L B r.1) (hn : (d.map Prod.fst).Nodup) :
    Disjoint (delKeys (numRows d)) (addKeys (numRows d)) := by
  rw [Finset.disjoint_left]
  intro n h1 h2
  obtain ⟨r, hr, h3, rfl⟩ := mem_delKeys_num.1 h1
  obtain ⟨r', hr', h4, e⟩ := mem_addKeys_num.1 h2
  have he := digits_inj ((hd r' hr').1.trans (hd r hr).1.symm) (hd r' hr').2.1 (hd r hr).2.1 e
  have := List.inj_on_of_nodup_map hn hr' hr he
  rw [this] at h4
  omega

/-- A generated day is consistent with what is held before it, and what is held after it is what the rows say. -/
theorem validDay_num {L B : Nat} {val : Data.Bytes → Int} {v : Nat → Int} {before d : List (Data.Bytes × Int)}
    (hb : ∀ r ∈ before, DigitString L B r.1) (hr : RowsOK L B val d) (hval : ∀ r ∈ d, val r.1 = v (digitsValue r.1))
    (hpos : ∀ r ∈ d, 0 < digitsValue r.1) (hn : (d.map Prod.fst).Nodup) (hv : ValidHistory before d) :
    ValidDay v B (heldN before) (numRows d) ∧ after (heldN before) (numRows d) = heldN (before ++ d) := by
  have hd : ∀ r ∈ d, DigitString L B r.1 := fun r h => (hr r h).1
  have hbd : ∀ r ∈ before ++ d, DigitString L B r.1 := fun r h => by
    rcases List.mem_append.1 h with h | h
    · exact hb r h
    · exact hd r h
  have vr := validRow_day d before hn hv
  have hnn := numRows_nodup hd hn
  have fs : ∀ p : EP → Bool, (((numRows d).filter p).map Prod.fst).Nodup := fun p =>
    hnn.sublist ((List.filter_sublist).map _)
  have dh : ∀ r ∈ d, r.2 < 0 → net before r.1 ≠ 0 := by
    intro r h h0
    rcases vr r h with ⟨h1, h2⟩ | ⟨h1, h2⟩ <;> omega
  have an : ∀ r ∈ d, 0 ≤ r.2 → net before r.1 = 0 := by
    intro r h h0
    rcases vr r h with ⟨h1, h2⟩ | ⟨h1, h2⟩ <;> omega
  have netd : ∀ r ∈ d, net d r.1 = r.2 := fun r h => net_entry hn h
  refine ⟨⟨?_, ?_, fs _, fs _, ?_, ?_⟩, ?_⟩
  · intro e he
    obtain ⟨r, h, rfl⟩ := List.mem_map.1 he
    exact ⟨hpos r h, (hd r h).2.2⟩
  · intro e he
    obtain ⟨r, h, rfl⟩ := List.mem_map.1 he
    simp only
    rw [← hval r h]
    exact (hr r h).2.1
  · intro n h
    obtain ⟨r, hr', h3, rfl⟩ := mem_delKeys_num.1 h
    exact (mem_heldN' hb (hd r hr')).2 (dh r hr' h3)
  · rw [Finset.disjoint_left]
    intro n h h'
    obtain ⟨r, hr', h3, rfl⟩ := mem_addKeys_num.1 h
    exact (mem_heldN' hb (hd r hr')).1 (Finset.mem_sdiff.1 h').1 (an r hr' h3)
  · ext n
    unfold after
    rw [Finset.mem_union, Finset.mem_sdiff, mem_heldN hbd]
    constructor
    · rintro (⟨h1, h2⟩ | h)
      · obtain ⟨k, hk, h0, rfl⟩ := (mem_heldN hb).1 h1
        refine ⟨k, hk, ?_, rfl⟩
        rw [Data.net_append]
        by_cases hm : k ∈ d.map Prod.fst
        · obtain ⟨r, hr', rfl⟩ := List.mem_map.1 hm
          by_cases h3 : r.2 < 0
          · exact absurd (mem_delKeys_num.2 ⟨r, hr', h3, rfl⟩) h2
          · exact absurd (an r hr' (by omega)) h0
        · rw [net_absent hm, add_zero]; exact h0
      · obtain ⟨r, hr', h3, rfl⟩ := mem_addKeys_num.1 h
        refine ⟨r.1, hd r hr', ?_, rfl⟩
        rw [Data.net_append, an r hr' h3, netd r hr']
        have := hr r hr'
        rcases this.2.1 with e | e <;> omega
    · rintro ⟨k, hk, h0, rfl⟩
      rw [Data.net_append] at h0
      by_cases hm : k ∈ d.map Prod.fst
      · obtain ⟨r, hr', rfl⟩ := List.mem_map.1 hm
        by_cases h3 : r.2 < 0
        · exfalso
          rw [netd r hr'] at h0
          rcases vr r hr' with ⟨h1, h2⟩ | ⟨h1, h2⟩ <;> omega
        · exact Or.inr (mem_addKeys_num.2 ⟨r, hr', by omega, rfl⟩)
      · rw [net_absent hm, add_zero] at h0
        refine Or.inl ⟨(mem_heldN' hb hk).2 h0, fun hc => hm ?_⟩
        obtain ⟨r, hr', -, e⟩ := mem_delKeys_num.1 hc
        rw [← digits_inj ((hd r hr').1.trans hk.1.symm) (hd r hr').2.1 hk.2.1 e]
        exact List.mem_map_of_mem hr'

theorem validDays_num {L B : Nat} {val : Data.Bytes → Int} {v : Nat → Int} : ∀ (ds : List (List (Data.Bytes × Int))) (before : List (Data.Bytes × Int)),
    (∀ r ∈ before, DigitString L B r.1) → RowsOK L B val ds.flatten → (∀ r ∈ ds.flatten, val r.1 = v (digitsValue r.1)) →
    (∀ r ∈ ds.flatten, 0 < digitsValue r.1) → (∀ d ∈ ds, (d.map Prod.fst).Nodup) → ValidHistory before ds.flatten →
    ValidDays v B (heldN before) (ds.map numRows) ∧ holdings (heldN before) (ds.map numRows) = heldN (before ++ ds.flatten) := by
  intro ds
  induction ds with
  | nil => intro before _ _ _ _ _ _; exact ⟨trivial, by simp [holdings]⟩
  | cons d ds ih =>
    intro before hb hr hval hpos hn hv
    rw [List.flatten_cons] at hr hval hpos hv
    obtain ⟨a1, a2⟩ := validDay_num hb (hr.mono (fun x hx => by simp [hx])) (fun r h => hval r (by simp [h]))
      (fun r h => hpos r (by simp [h])) (hn d (by simp)) (ValidHistory.left hv)
    obtain ⟨b1, b2⟩ := ih (before ++ d) (fun r h => by
        rcases List.mem_append.1 h with h | h
        · exact hb r h
        · exact (hr r (by simp [h])).1) (hr.mono (fun x hx => by rw [List.mem_append]; exact Or.inr hx)) (fun r h => hval r (by rw [List.mem_append]; exact Or.inr h))
      (fun r h => hpos r (by rw [List.mem_append]; exact Or.inr h)) (fun x hx => hn x (by simp [hx])) (ValidHistory.right hv)
    rw [← a2] at b1 b2
    refine ⟨⟨a1, b1⟩, ?_⟩
    rw [List.flatten_cons, ← List.append_assoc, ← b2]
    rfl

/-- The number of common elements is the expected result of the intersection. -/
theorem card_common {L B : Nat} {X Y : List (Data.Bytes × Int)} (hX : ∀ r ∈ X, DigitString L B r.1) (hY : ∀ r ∈ Y, DigitString L B r.1) :
    ((heldN X ∩ heldN Y).card : Int) = expected .PSI X Y := by
  unfold expected
  simp only [if_true]
  rw [Finset.sum_const, nsmul_eq_mul, mul_one]
  have : heldN X ∩ heldN Y = (((X.map Prod.fst).toFinset).filter (fun k => net X k ≠ 0 ∧ net Y k ≠ 0)).image digitsValue := by
    ext n
    rw [Finset.mem_inter, mem_heldN hX, Finset.mem_image]
    constructor
    · rintro ⟨⟨k, hk, h0, rfl⟩, h1⟩
      refine ⟨k, ?_, rfl⟩
      rw [Finset.mem_filter, List.mem_toFinset]
      refine ⟨?_, h0, (mem_heldN' hY hk).1 h1⟩
      by_contra hc
      exact h0 (net_absent hc)
    · rintro ⟨k, hk, rfl⟩
      rw [Finset.mem_filter, List.mem_toFinset] at hk
      obtain ⟨hm, h0, h1⟩ := hk
      obtain ⟨r, hr, rfl⟩ := List.mem_map.1 hm
      exact ⟨⟨r.1, hX r hr, h0, rfl⟩, (mem_heldN' hY (hX r hr)).2 h1⟩
  rw [this, Finset.card_image_of_injOn]
  intro a ha b hb e
  have hd : ∀ k ∈ (((X.map Prod.fst).toFinset).filter (fun k => net X k ≠ 0 ∧ net Y k ≠ 0)), DigitString L B k := by
    intro k hk
    rw [Finset.mem_filter, List.mem_toFinset] at hk
    obtain ⟨r, hr, rfl⟩ := List.mem_map.1 hk.1
    exact hX r hr
  have ha := hd a ha
  have hb := hd b hb
  exact digits_inj (ha.1.trans hb.1.symm) ha.2.1 hb.2.1 e

end Upsi.Main
