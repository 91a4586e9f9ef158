import Verif.Main.DelStart
import Verif.Main.AddEnd
import Verif.Main.NetProps
import Verif.Main.NetOtherProps
import Verif.Data.GenMore
/- Property theorem C75: setup and run of the protocols with deletions together. -/
namespace Upsi.Main
open Upsi Upsi.Rec Upsi.Tree Upsi.Tree.Props Upsi.Proto Upsi.Setup Upsi.Wire Upsi.Data Upsi.Num Upsi.Paillier

/-! ### specification -/

/-- What a party draws in a round: `daily` path identifiers of 256 bits (the intersection protocol uses as many as it needs),
padding elements in `[B, n)`, and path coins as in C46. -/
structure RoundCoins.Day (B n0 n1 daily : Nat) (ρ : RoundCoins) : Prop where
  hsh0 : ρ.hsh0.length = daily ∧ ∀ h ∈ ρ.hsh0, h.length = 256
  hsh1 : ρ.hsh1.length = daily ∧ ∀ h ∈ ρ.hsh1, h.length = 256
  pads0 : ∀ i j, B ≤ (ρ.pads0 i j).1 ∧ (ρ.pads0 i j).1 < n0
  pads1 : ∀ i j, B ≤ (ρ.pads1 i j).1 ∧ (ρ.pads1 i j).1 < n1
  path0 : ∀ i, (ρ.path0 i).WF n1
  path1 : ∀ i, (ρ.path1 i).WF n0

/-- The rows that setup generated: those of the initial trees, and those of each day. -/
structure GeneratedDel (f : DelSetupFlags) (ρ : DelSetupRand) (t0 t1 : List (Data.Bytes × Int)) (ds0 ds1 : List (List (Data.Bytes × Int))) :
    Prop where
  gen : ∃ s, genDeletionSets f.days f.daily f.start (f.maxValue % 2 ^ 32).toNat f.func ρ.data =
    .ok { tree0 := .ofRows t0, tree1 := .ofRows t1, days0 := ds0.map .ofRows, days1 := ds1.map .ofRows, sum := s }

/-- Both parties hold element `k` after the given rows. -/
def Common (rows0 rows1 : List (Data.Bytes × Int)) (k : Data.Bytes) : Prop := net rows0 k ≠ 0 ∧ net rows1 k ≠ 0

/-- The largest payload. -/
def DelSetupFlags.valueBound (f : DelSetupFlags) : Int := if f.func = .SUM then f.maxValue else 1

/-- All entries of a party. -/
def DelSetupFlags.total (f : DelSetupFlags) : Nat := f.start + f.days * f.daily

/-! ### lemmas -/

theorem flatten_length_const : ∀ {ds : List (List α)} {n : Nat}, (∀ d ∈ ds, d.length = n) → ds.flatten.length = ds.length * n
  | [], n, _ => by simp
  | d :: ds, n, h => by
    rw [List.flatten_cons, List.length_append, h d (by simp), flatten_length_const (fun x hx => h x (by simp [hx])), List.length_cons,
      Nat.succ_mul, Nat.add_comm]

theorem GoodHistory.length {start days daily : Nat} {t : List (Data.Bytes × Int)} {ds : List (List (Data.Bytes × Int))}
    (h : GoodHistory start days daily t ds) : (t ++ ds.flatten).length = start + days * daily := by
  rw [List.length_append, h.startSize, flatten_length_const (fun d hd => (h.shape d hd).1), h.dayCount]

/-- Bounds of the expected result. -/
theorem expected_range {L B : Nat} {val : Data.Bytes → Int} {X Y : List (Data.Bytes × Int)} {func : Functionality} {M : Int}
    (hX : RowsOK L B val X) (vX : ValidHistory [] X) (hM : ∀ r ∈ X, val r.1 ≤ M) (h1 : 1 ≤ M) :
    0 ≤ expected func X Y ∧ expected func X Y ≤ X.length * M := by
  unfold expected
  have hk : ∀ k ∈ (X.map Prod.fst).toFinset.filter (fun k => net X k ≠ 0 ∧ net Y k ≠ 0),
      0 ≤ (if func = .PSI then 1 else net X k) ∧ (if func = .PSI then 1 else net X k) ≤ M := by
    intro k hk
    rw [Finset.mem_filter, List.mem_toFinset] at hk
    obtain ⟨r, hr, rfl⟩ := List.mem_map.1 hk.1
    split
    · omega
    · have h2 := hX r hr
      have h3 := hM r hr
      rcases net_range_nil vX hX r.1 with e | e <;> omega
  refine ⟨Finset.sum_nonneg (fun k h => (hk k h).1), le_trans (Finset.sum_le_card_nsmul _ _ M (fun k h => (hk k h).2)) ?_⟩
  rw [nsmul_eq_mul]
  refine Int.mul_le_mul_of_nonneg_right ?_ (by omega)
  have := le_trans (Finset.card_le_card (Finset.filter_subset (fun k => net X k ≠ 0 ∧ net Y k ≠ 0) (X.map Prod.fst).toFinset))
    (List.toFinset_card_le (X.map Prod.fst))
  rw [List.length_map] at this
  exact_mod_cast this

theorem wrap64_small {z : Int} (h0 : -2 ^ 63 ≤ z) (h1 : z < 2 ^ 63) : wrap64 z = z := by
  unfold wrap64; omega

theorem ofInt_toNat (z : Int) : ((UInt64.ofInt z).toNat : Int) = z % 2 ^ 64 := by
  unfold UInt64.ofInt
  rw [UInt64.toNat_ofNat']
  omega

theorem GoodHistory.left {start days daily : Nat} {t : List (Data.Bytes × Int)} {ds : List (List (Data.Bytes × Int))}
    (h : GoodHistory start days daily t ds) : ValidHistory [] t := ValidHistory.left h.valid

section found
variable {mont : Int → Option Mont} {tries : Nat} {hashOf : Nat → List Bool} {L B stash node : Nat} {f : DelSetupFlags} {ρ : DelSetupRand}
  {o : DelSetupOut} {g : GenSets} {t0 t1 : List (Data.Bytes × Int)} {ds0 ds1 : List (List (Data.Bytes × Int))} {val : Data.Bytes → Int}

theorem FoundDel.generated (F : FoundDel mont tries hashOf L B stash node f ρ o g t0 t1 ds0 ds1 val)
    (hg : genDeletionSets f.days f.daily f.start (f.maxValue % 2 ^ 32).toNat f.func ρ.data = .ok g) : GeneratedDel f ρ t0 t1 ds0 ds1 := by
  refine ⟨g.sum, hg.trans (congrArg Outcome.ok ?_)⟩
  rw [← F.facts.tree0, ← F.facts.tree1, ← F.facts.days0, ← F.facts.days1]

/-- The number setup prints is the difference itself: it does not wrap. -/
theorem FoundDel.printed_eq (hf : DelSizesOK L B stash node f) (F : FoundDel mont tries hashOf L B stash node f ρ o g t0 t1 ds0 ds1 val) :
    o.printed = expected f.func (t0 ++ ds0.flatten) (t1 ++ ds1.flatten) - expected f.func t0 t1 := by
  have htot := hf.total
  rw [F.printed, F.facts.sum]
  have key : ∀ (func : Functionality) (X Y : List (Data.Bytes × Int)), func = f.func → (∀ r ∈ X, r ∈ t0 ++ ds0.flatten) → X.length < 2 ^ 30 →
      ValidHistory [] X → 0 ≤ expected func X Y ∧ expected func X Y < 2 ^ 61 := by
    intro func X Y e hs hl hv
    have hr := F.facts.rows0.mono hs
    have hle : (X.length : Int) ≤ 2 ^ 30 - 1 := by omega
    have fin : ∀ M : Int, 1 ≤ M → M ≤ 2 ^ 31 → 0 ≤ expected func X Y ∧ expected func X Y ≤ X.length * M → 0 ≤ expected func X Y ∧ expected func X Y < 2 ^ 61 := by
      intro M h1 h2 h3
      refine ⟨h3.1, lt_of_le_of_lt h3.2 (lt_of_le_of_lt (Int.mul_le_mul hle h2 (by omega) (by norm_num)) (by norm_num))⟩
    rcases hf.func with e' | e' | e'
    · exact fin 1 (by norm_num) (by norm_num) (expected_range hr hv (fun r h => by rw [F.facts.valCA e' r (hs r h)]) (by norm_num))
    · refine fin (2 ^ 31) (by norm_num) (le_refl _) (expected_range hr hv (fun r h => ?_) (by norm_num))
      have := F.facts.valSum e' r (hs r h)
      have := hf.maxValue e'
      omega
    · -- the value of an element may be large, but only elements are counted
      have hp : func = .PSI := e.trans e'
      have hc := card_common (X := X) (Y := Y) (L := L) (B := B)
      have h0 : 0 ≤ expected func X Y := by
        unfold expected
        exact Finset.sum_nonneg (fun k _ => by rw [if_pos hp]; norm_num)
      refine ⟨h0, ?_⟩
      unfold expected
      simp only [hp, if_true]
      rw [Finset.sum_const, nsmul_eq_mul, mul_one]
      have := le_trans (Finset.card_le_card (Finset.filter_subset (fun k => net X k ≠ 0 ∧ net Y k ≠ 0) (X.map Prod.fst).toFinset))
        (List.toFinset_card_le (X.map Prod.fst))
      rw [List.length_map] at this
      have : ((((X.map Prod.fst).toFinset.filter (fun k => net X k ≠ 0 ∧ net Y k ≠ 0)).card : Nat) : Int) ≤ X.length := by exact_mod_cast this
      omega
  have a1 := key f.func (t0 ++ ds0.flatten) (t1 ++ ds1.flatten) rfl (fun _ h => h) (by rw [GoodHistory.length F.facts.good0]; exact htot) F.facts.good0.valid
  have a2 := key f.func t0 t1 rfl (fun _ h => by simp [h]) (by rw [F.facts.good0.startSize]; omega) (GoodHistory.left F.facts.good0)
  exact wrap64_small (by omega) (by omega)

theorem FoundDel.mass0 (hf : DelSizesOK L B stash node f) (hp : f.func ≠ .PSI) (F : FoundDel mont tries hashOf L B stash node f ρ o g t0 t1 ds0 ds1 val) :
    mass (numRows (t0 ++ ds0.flatten)) ≤ f.total * f.valueBound := by
  have := mass_le (l := numRows (t0 ++ ds0.flatten)) (M := f.valueBound) (fun e he => by
    obtain ⟨r, hr, rfl⟩ := List.mem_map.1 he
    obtain ⟨-, h1, h2⟩ := F.facts.rows0 r hr
    have h3 : val r.1 ≤ f.valueBound := by
      unfold DelSetupFlags.valueBound
      rcases hf.func with e' | e' | e'
      · rw [F.facts.valCA e' r hr]; simp [e']
      · rw [if_pos e']; exact le_of_lt (F.facts.valSum e' r hr)
      · exact absurd e' hp
    simp only
    rcases h1 with e | e <;> rw [abs_le] <;> omega)
  rw [numRows, List.length_map, GoodHistory.length F.facts.good0] at this
  exact this

theorem FoundDel.mass1 (F : FoundDel mont tries hashOf L B stash node f ρ o g t0 t1 ds0 ds1 val) :
    mass (numRows (t1 ++ ds1.flatten)) ≤ f.total := by
  have := mass_le (l := numRows (t1 ++ ds1.flatten)) (M := 1) (fun e he => by
    obtain ⟨r, hr, rfl⟩ := List.mem_map.1 he
    obtain ⟨-, h1, h2⟩ := F.facts.rows1 r hr
    simp only
    rcases h1 with e | e <;> rw [e] <;> norm_num)
  rw [numRows, List.length_map, GoodHistory.length F.facts.good1, mul_one] at this
  exact this

theorem FoundDel.below0 (F : FoundDel mont tries hashOf L B stash node f ρ o g t0 t1 ds0 ds1 val) :
    ∀ e ∈ numRows (t0 ++ ds0.flatten), e.1 < B := by
  intro e he
  obtain ⟨r, hr, rfl⟩ := List.mem_map.1 he
  exact (F.facts.rows0 r hr).1.2.2

theorem FoundDel.below1 (F : FoundDel mont tries hashOf L B stash node f ρ o g t0 t1 ds0 ds1 val) :
    ∀ e ∈ numRows (t1 ++ ds1.flatten), e.1 < B := by
  intro e he
  obtain ⟨r, hr, rfl⟩ := List.mem_map.1 he
  exact (F.facts.rows1 r hr).1.2.2

end found

theorem mkDelDays_x {xs ys : List (List EP)} (h : xs.length = ys.length) (coins : Nat → DelCoins) : delX (mkDelDays xs ys coins) = xs.flatten := by
  unfold delX mkDelDays
  rw [mapIdx_flatMap (fun i p => (⟨p.1, p.2, coins i⟩ : DayDelIn)) _ (fun e : List EP × List EP => e.1) (fun _ _ => rfl),
    zip_flatMap_l (fun x => x) xs ys h]
  exact List.flatMap_id

theorem mkDelDays_y {xs ys : List (List EP)} (h : xs.length = ys.length) (coins : Nat → DelCoins) : delY (mkDelDays xs ys coins) = ys.flatten := by
  unfold delY mkDelDays
  rw [mapIdx_flatMap (fun i p => (⟨p.1, p.2, coins i⟩ : DayDelIn)) _ (fun e : List EP × List EP => e.2) (fun _ _ => rfl),
    zip_flatMap_r (fun x => x) xs ys h]
  exact List.flatMap_id

theorem mem_mkDelDays {xs ys : List (List EP)} {coins : Nat → DelCoins} {d : DayDelIn} (h : d ∈ mkDelDays xs ys coins) :
    ∃ i, i < xs.length ∧ d.xs ∈ xs ∧ d.ys ∈ ys ∧ d.coins = coins i := by
  unfold mkDelDays at h
  obtain ⟨i, hi, e⟩ := List.mem_mapIdx.1 h
  have hm : ((xs.zip ys)[i]) ∈ xs.zip ys := List.getElem_mem hi
  obtain ⟨m1, m2⟩ := List.of_mem_zip (a := ((xs.zip ys)[i]).1) (b := ((xs.zip ys)[i]).2) hm
  subst e
  rw [List.length_zip] at hi
  exact ⟨i, by omega, m1, m2, rfl⟩

theorem RoundCoins.Day.wf {B n0 n1 daily : Nat} {ρ : RoundCoins} (h : RoundCoins.Day B n0 n1 daily ρ) {xs ys : List EP} (hx : xs.length = daily)
    (hy : ys.length = daily) : ρ.WF B n0 n1 xs ys :=
  ⟨⟨h.hsh0.1.trans hx.symm, h.hsh0.2⟩, ⟨h.hsh1.1.trans hy.symm, h.hsh1.2⟩, h.pads0, h.pads1, h.path0, h.path1⟩

theorem RoundCoins.Day.cut {B n0 n1 daily : Nat} {ρ : RoundCoins} (h : RoundCoins.Day B n0 n1 daily ρ) {xs ys : List EP} (hx : xs.length ≤ daily)
    (hy : ys.length ≤ daily) : (RoundCoins.cut ρ xs ys).WF B n0 n1 xs ys := by
  refine ⟨⟨?_, fun b hb => h.hsh0.2 b (List.mem_of_mem_take hb)⟩, ⟨?_, fun b hb => h.hsh1.2 b (List.mem_of_mem_take hb)⟩,
    h.pads0, h.pads1, h.path0, h.path1⟩
  · show (ρ.hsh0.take xs.length).length = xs.length
    rw [List.length_take, h.hsh0.1, Nat.min_eq_left hx]
  · show (ρ.hsh1.take ys.length).length = ys.length
    rw [List.length_take, h.hsh1.1, Nat.min_eq_left hy]

/-! ### theorems -/

/-- **C75** (printed value) The number `deletion/setup.cc` prints is exactly the difference of the correct results at the end and
at the start for the rows it generated: for those functionalities and sizes it does not overflow. -/
theorem C75_printed (mont : Int → Option Mont) (tries : Nat) (hashOf : Nat → List Bool) (hh : ∀ e, (hashOf e).length = 256)
    (L B stash node : Nat) (f : DelSetupFlags) (hf : DelSizesOK L B stash node f) (ρ : DelSetupRand) (hρ : ρ.OK L B f) (fs : FS)
    (o : DelSetupOut) (h : setupMainDel mont tries hashOf stash node f ρ fs = .ok o) :
    ∃ t0 t1 ds0 ds1, GeneratedDel f ρ t0 t1 ds0 ds1 ∧
      o.printed = expected f.func (t0 ++ ds0.flatten) (t1 ++ ds1.flatten) - expected f.func t0 t1 := by
  obtain ⟨g, t0, t1, ds0, ds1, val, hg, F⟩ := del_found hh hf hρ h
  exact ⟨t0, t1, ds0, ds1, F.generated hg, F.printed_eq hf⟩

/-- **C75** (cardinality and sum) `deletion/setup.cc` draws keys and data for any flags, writes key files, data sets and (with
`--start_size`) initial trees and prints the expected result; both parties of `deletion/run.cc` then read these files and run the
protocol over the network.  If everything ends normally, no tree drops an entry, no 64-bit hashes collide and no share wraps
(`Clean`, C46), the number party zero prints is the printed one as an unsigned 64-bit number: the same if it is not negative, and
`2^64` more if it is (when more common elements were removed than added). -/
theorem C75_cardinality_sum (ro : List UInt8 → Nat) (mont : Int → Option Mont) (hm : MontOK mont) (tries : Nat)
    (hashOf : Nat → List Bool) (hh : ∀ e, (hashOf e).length = 256) (L B stash node : Nat) (f : DelSetupFlags)
    (hf : DelSizesOK L B stash node f) (hp : f.func ≠ .PSI) (ρ : DelSetupRand) (hρ : ρ.OK L B f)
    (hB0 : B ≤ ρ.p0 * ρ.q0) (hB1 : B ≤ ρ.p1 * ρ.q1)
    (b0 : 2 * (f.total * f.valueBound * f.total) < ((ρ.p0 * ρ.q0 : Nat) : Int))
    (b1 : 2 * (f.total * f.valueBound * f.total) < ((ρ.p1 * ρ.q1 : Nat) : Int)) (x0 x1 : Int)
    (hx0 : Int.gcd x0 ((ρ.p1 * ρ.q1 : Nat) : Int) = 1) (hx1 : Int.gcd x1 ((ρ.p0 * ρ.q0 : Nat) : Int) = 1) (coins : Nat → DelCoins)
    (hc : ∀ i < f.days, RoundCoins.Day B (ρ.p0 * ρ.q0) (ρ.p1 * ρ.q1) f.daily (coins i).round) (fs : FS) (o : DelSetupOut)
    (h : setupMainDel mont tries hashOf stash node f ρ fs = .ok o) (l0 : o.lost0 = []) (l1 : o.lost1 = []) (func : Functionality)
    (s : StDel) (ns : List (Nat × Nat)) (hr : mainDel ro mont tries x0 x1 hashOf stash node (.of f func) coins o.fs = .ok (s, ns))
    (e0 : s.p0.lost = []) (e1 : s.p1.lost = []) (hcl : ∀ p ∈ s.trace, p.Clean ro) :
    (shownDel s : Int) = (if 0 ≤ o.printed then o.printed else o.printed + 2 ^ 64) ∧ ns.length = f.days := by
  obtain ⟨g, t0, t1, ds0, ds1, val, hg, F⟩ := del_found hh hf hρ h
  have hpr := F.printed_eq hf
  have htot := hf.total
  have hran : -2 ^ 63 ≤ o.printed ∧ o.printed < 2 ^ 63 := by
    rw [F.printed, F.facts.sum]; exact ⟨(wrap64_spec _).1, (wrap64_spec _).2.1⟩
  simp only [mainDel, Outcome.bind_eq_ok] at hr
  obtain ⟨b, hb, hr⟩ := hr
  have bg := del_begun hm hh hf hρ F l0 l1 hx0 hx1 hb
  rw [bg.xs, bg.ys] at hr
  have hlen : (ds0.map numRows).length = (ds1.map numRows).length := by
    rw [List.length_map, List.length_map, F.facts.good0.dayCount, F.facts.good1.dayCount]
  obtain ⟨h1, h2⟩ := runNet_runDays (step := fun s (d : DayDelIn) => dayDelNet ro mont hashOf b.k0 b.k1 s d.xs d.ys d.coins)
    (step' := fun s d => dayDel ro mont hashOf b.k0 b.k1 s d.xs d.ys d.coins)
    (fun s d s' n e => ((C73_deletion ro mont hashOf b.k0 b.k1 s s' d.xs d.ys d.coins n.1 n.2).1 e).1) _ _ _ _ hr
  have dx := mkDelDays_x hlen coins
  have dy := mkDelDays_y hlen coins
  rw [← numRows_flatten] at dx dy
  obtain ⟨_, _, _, _, k5⟩ := runDel_spec bg.keys hh hB0 hB1 (mkDelDays (ds0.map numRows) (ds1.map numRows) coins) (numRows t0) (numRows t1)
    ⟨b.s0, b.s1, 0, []⟩ s bg.inv (fun d hd => by
      obtain ⟨i, hi, m0, m1, ec⟩ := mem_mkDelDays hd
      rw [List.length_map, F.facts.good0.dayCount] at hi
      obtain ⟨d0, hd0, q0⟩ := List.mem_map.1 m0
      obtain ⟨d1, hd1, q1⟩ := List.mem_map.1 m1
      rw [ec, ← q0, ← q1]
      exact (hc i hi).wf (by rw [numRows, List.length_map, (F.facts.good0.shape d0 hd0).1])
        (by rw [numRows, List.length_map, (F.facts.good1.shape d1 hd1).1]))
    (by rw [dx]; exact fun e he => F.below0 e (by rw [numRows_append]; exact List.mem_append_right _ he))
    (by rw [dy]; exact fun e he => F.below1 e (by rw [numRows_append]; exact List.mem_append_right _ he))
    (by rw [dx, ← numRows_append, numRows, List.length_map, GoodHistory.length F.facts.good0]; exact htot)
    (by rw [dy, ← numRows_append, numRows, List.length_map, GoodHistory.length F.facts.good1]; exact htot) h1
  rw [dx, dy, ← numRows_append, ← numRows_append] at k5
  have hmass : 2 * (mass (numRows (t0 ++ ds0.flatten)) * mass (numRows (t1 ++ ds1.flatten))) ≤ 2 * (f.total * f.valueBound * f.total) := by
    have := Int.mul_le_mul (F.mass0 hf hp) F.mass1 (mass_nonneg _) (le_trans (mass_nonneg _) (F.mass0 hf hp))
    omega
  have hres := k5 e0 e1 hcl (lt_of_le_of_lt hmass b0) (lt_of_le_of_lt hmass b1) (UInt64.ofInt (-join (numRows t0) (numRows t1))) (by
    rw [← UInt64.ofInt_add, neg_add_cancel]; rfl)
  rw [← UInt64.ofInt_add, join_eq_innerProduct, join_eq_innerProduct,
    innerProduct_numRows hp (fun r hr => (F.facts.rows0 r hr).1) F.facts.rows1 F.facts.good1.valid,
    innerProduct_numRows hp (fun r hr => (F.facts.rows0 r (by simp [hr])).1) (F.facts.rows1.mono (fun r hr => by simp [hr])) (GoodHistory.left F.facts.good1)] at hres
  refine ⟨?_, ?_⟩
  · rw [shownDel, hres, ofInt_toNat]
    split <;> omega
  · rw [h2]
    simp [mkDelDays, F.facts.good0.dayCount, F.facts.good1.dayCount]

theorem mkPsiDays_map {xs ys : List (List EP)} (h : xs.length = ys.length) (coins : Nat → DelPsiCoins) :
    (mkPsiDays xs ys coins).map (·.xs) = xs ∧ (mkPsiDays xs ys coins).map (·.ys) = ys := by
  unfold mkPsiDays
  constructor
  · refine List.ext_getElem (by simp [h]) (fun i h1 h2 => by simp)
  · refine List.ext_getElem (by simp [h]) (fun i h1 h2 => by simp)

theorem mem_mkPsiDays {xs ys : List (List EP)} {coins : Nat → DelPsiCoins} {d : DayPsiIn} (h : d ∈ mkPsiDays xs ys coins) :
    ∃ i, i < xs.length ∧ d.xs ∈ xs ∧ d.ys ∈ ys ∧ d.coins = DelPsiCoins.cut (coins i) d.xs d.ys := by
  unfold mkPsiDays at h
  obtain ⟨i, hi, e⟩ := List.mem_mapIdx.1 h
  have hm : ((xs.zip ys)[i]) ∈ xs.zip ys := List.getElem_mem hi
  obtain ⟨m1, m2⟩ := List.of_mem_zip (a := ((xs.zip ys)[i]).1) (b := ((xs.zip ys)[i]).2) hm
  subst e
  rw [List.length_zip] at hi
  exact ⟨i, by omega, m1, m2, rfl⟩

/-- **C75** (intersection) `deletion-psi/setup.cc` and both parties of `deletion-psi/run.cc` together, for elements from 1 to
`B - 1` and keys of at least 65 bits: if everything ends normally, no tree drops an entry, no 64-bit hashes collide and no share
wraps, the number party zero prints is the one printed by setup (also when it is negative), and the elements it collects are exactly
those that both parties hold at the end and did not both hold at the start, and the negations of those both held at the start and
not at the end – in terms of the rows setup generated; they are printed if there are fewer than ten. -/
theorem C75_intersection (ro : List UInt8 → Nat) (mont : Int → Option Mont) (hm : MontOK mont) (tries : Nat)
    (hashOf : Nat → List Bool) (hh : ∀ e, (hashOf e).length = 256) (L B stash node : Nat) (f : DelSetupFlags)
    (hf : DelSizesOK L B stash node f) (hp : f.func = .PSI) (ρ : DelSetupRand) (hρ : ρ.OK L B f)
    (hB0 : 2 * B ≤ ρ.p0 * ρ.q0) (hB1 : 2 * B ≤ ρ.p1 * ρ.q1) (wide : 2 ^ 65 ≤ ρ.p0 * ρ.q0) (x0 x1 : Int)
    (hx0 : Int.gcd x0 ((ρ.p1 * ρ.q1 : Nat) : Int) = 1) (hx1 : Int.gcd x1 ((ρ.p0 * ρ.q0 : Nat) : Int) = 1) (coins : Nat → DelPsiCoins)
    (hc : ∀ i < f.days, RoundCoins.Day B (ρ.p0 * ρ.q0) (ρ.p1 * ρ.q1) f.daily (coins i).round1 ∧
      RoundCoins.Day B (ρ.p0 * ρ.q0) (ρ.p1 * ρ.q1) f.daily (coins i).round2 ∧ ∀ l, ((coins i).shuffle l).Perm l) (fs : FS) (o : DelSetupOut)
    (h : setupMainDel mont tries hashOf stash node f ρ fs = .ok o) (l0 : o.lost0 = []) (l1 : o.lost1 = []) (func : Functionality)
    (s : StDelPsi) (ns : List (Nat × Nat)) (hr : mainDelPsi ro mont tries x0 x1 hashOf stash node (.of f func) coins o.fs = .ok (s, ns))
    (e0 : s.p0.lost = []) (e1 : s.p1.lost = []) (hcl : ∀ p ∈ s.trace, p.Clean ro) :
    (shownPsi s).1 = o.printed ∧ (shownPsi s).2 = (if s.inter.length < 10 then some s.inter else none) ∧ ns.length = f.days ∧
    ∃ t0 t1 ds0 ds1, GeneratedDel f ρ t0 t1 ds0 ds1 ∧ s.inter.Nodup ∧ ∀ z, z ∈ s.inter ↔
      (∃ k, Common (t0 ++ ds0.flatten) (t1 ++ ds1.flatten) k ∧ ¬ Common t0 t1 k ∧ z = (digitsValue k : Int)) ∨
      (∃ k, Common t0 t1 k ∧ ¬ Common (t0 ++ ds0.flatten) (t1 ++ ds1.flatten) k ∧ z = -(digitsValue k : Int)) := by
  obtain ⟨g, t0, t1, ds0, ds1, val, hg, F⟩ := del_found hh hf hρ h
  have hpr := F.printed_eq hf
  have htot := hf.total
  have hran : -2 ^ 63 ≤ o.printed ∧ o.printed < 2 ^ 63 := by
    rw [F.printed, F.facts.sum]; exact ⟨(wrap64_spec _).1, (wrap64_spec _).2.1⟩
  simp only [mainDelPsi, Outcome.bind_eq_ok] at hr
  obtain ⟨b, hb, hr⟩ := hr
  have bg := del_begun hm hh hf hρ F l0 l1 hx0 hx1 hb
  rw [bg.xs, bg.ys] at hr
  have hlen : (ds0.map numRows).length = (ds1.map numRows).length := by
    rw [List.length_map, List.length_map, F.facts.good0.dayCount, F.facts.good1.dayCount]
  obtain ⟨h1, h2⟩ := runNet_runDays (step := fun s (d : DayPsiIn) => dayDelPsiNet ro mont hashOf b.k0 b.k1 s d.xs d.ys d.coins)
    (step' := fun s d => dayDelPsi ro mont hashOf b.k0 b.k1 s d.xs d.ys d.coins)
    (fun s d s' n e => ((C73_deletion_psi ro mont hashOf b.k0 b.k1 s s' d.xs d.ys d.coins n.1 n.2).1 e).1) _ _ _ _ hr
  obtain ⟨mx, my⟩ := mkPsiDays_map hlen coins
  -- strings and rows
  have r0 := F.facts.rows0
  have r1 := F.facts.rows1
  have s0 : RowsOK L B val t0 := r0.mono (fun r hr => by simp [hr])
  have s1 : RowsOK L B (fun _ => 1) t1 := r1.mono (fun r hr => by simp [hr])
  have f0 : RowsOK L B val ds0.flatten := r0.mono (fun r hr => List.mem_append_right _ hr)
  have f1 : RowsOK L B (fun _ => 1) ds1.flatten := r1.mono (fun r hr => List.mem_append_right _ hr)
  have d0 : ∀ r ∈ t0, DigitString L B r.1 := fun r h => (s0 r h).1
  have d1 : ∀ r ∈ t1, DigitString L B r.1 := fun r h => (s1 r h).1
  have a0 : ∀ r ∈ t0 ++ ds0.flatten, DigitString L B r.1 := fun r h => (r0 r h).1
  have a1 : ∀ r ∈ t1 ++ ds1.flatten, DigitString L B r.1 := fun r h => (r1 r h).1
  have c0 : Carries (fun k => (k : Int)) (numRows t0) (heldN t0) := carries_numRows s0 (GoodHistory.left F.facts.good0)
    (fun r hr => F.facts.valPsi hp r (by simp [hr]))
  have c1 : Carries (fun _ => 1) (numRows t1) (heldN t1) := carries_numRows s1 (GoodHistory.left F.facts.good1) (fun _ _ => rfl)
  have rg : ∀ {l : List (Data.Bytes × Int)}, (∀ r ∈ l, DigitString L B r.1) → (∀ r ∈ l, 0 < digitsValue r.1) → ∀ k ∈ heldN l, 0 < k ∧ k < B := by
    intro l hd hpos n hn
    obtain ⟨k, hk, h0, rfl⟩ := (mem_heldN hd).1 hn
    have hmem : k ∈ l.map Prod.fst := by
      by_contra hc'
      exact h0 (net_absent hc')
    obtain ⟨r, hr, rfl⟩ := List.mem_map.1 hmem
    exact ⟨hpos r hr, hk.2.2⟩
  have g0 := rg d0 (fun r hr => F.facts.pos0 hp r (by simp [hr]))
  have g1 := rg d1 (fun r hr => F.facts.pos1 hp r (by simp [hr]))
  obtain ⟨v0, w0⟩ := validDays_num (v := fun k => (k : Int)) ds0 t0 d0 f0 (fun r hr => F.facts.valPsi hp r (List.mem_append_right _ hr))
    (fun r hr => F.facts.pos0 hp r (List.mem_append_right _ hr)) (fun d hd => (F.facts.good0.shape d hd).2.1)
    (by have := ValidHistory.right F.facts.good0.valid; rwa [List.nil_append] at this)
  obtain ⟨v1, w1⟩ := validDays_num (v := fun _ => 1) ds1 t1 d1 f1 (fun _ _ => rfl)
    (fun r hr => F.facts.pos1 hp r (List.mem_append_right _ hr)) (fun d hd => (F.facts.good1.shape d hd).2.1)
    (by have := ValidHistory.right F.facts.good1.valid; rwa [List.nil_append] at this)
  have day : ∀ d ∈ mkPsiDays (ds0.map numRows) (ds1.map numRows) coins, ∃ i < f.days, ∃ u ∈ ds0, ∃ w ∈ ds1, d.xs = numRows u ∧ d.ys = numRows w ∧
      d.coins = DelPsiCoins.cut (coins i) d.xs d.ys := by
    intro d hd
    obtain ⟨i, hi, m0, m1, ec⟩ := mem_mkPsiDays hd
    rw [List.length_map, F.facts.good0.dayCount] at hi
    obtain ⟨u, hu, q0⟩ := List.mem_map.1 m0
    obtain ⟨w, hw, q1⟩ := List.mem_map.1 m1
    exact ⟨i, hi, u, hu, w, hw, q0.symm, q1.symm, ec⟩
  have hle : ∀ (p : EP → Bool) (u : List (Data.Bytes × Int)), u.length = f.daily → ((numRows u).filter p).length ≤ f.daily := by
    intro p u hu
    refine le_trans (List.length_filter_le _ _) ?_
    rw [numRows, List.length_map, hu]
  have flX : (mkPsiDays (ds0.map numRows) (ds1.map numRows) coins).flatMap (·.xs) = numRows ds0.flatten := by
    rw [List.flatMap_def, mx, numRows_flatten]
  have flY : (mkPsiDays (ds0.map numRows) (ds1.map numRows) coins).flatMap (·.ys) = numRows ds1.flatten := by
    rw [List.flatMap_def, my, numRows_flatten]
  have tX : (numRows t0).length + (numRows ds0.flatten).length < 2 ^ 30 := by
    have := GoodHistory.length F.facts.good0
    rw [List.length_append] at this
    rw [numRows, numRows, List.length_map, List.length_map]; omega
  have tY : (numRows t1).length + (numRows ds1.flatten).length < 2 ^ 30 := by
    have := GoodHistory.length F.facts.good1
    rw [List.length_append] at this
    rw [numRows, numRows, List.length_map, List.length_map]; omega
  obtain ⟨_, _, _, _, k5⟩ := runDelPsi_spec bg.keys hh hB0 hB1 hf.bound wide (v := fun k => (k : Int)) (w := fun _ => 1)
    (fun k hk _ => ⟨by exact_mod_cast hk, by norm_num, by simp⟩) (E := heldN t0 ∩ heldN t1) (fun k hk => (g0 k (Finset.mem_inter.1 hk).1).1)
    (UInt64.ofInt (-((heldN t0 ∩ heldN t1).card : Int))) (mkPsiDays (ds0.map numRows) (ds1.map numRows) coins) (numRows t0) (numRows t1)
    (heldN t0) (heldN t1) ⟨b.s0, b.s1, 0, [], [], []⟩ s bg.inv c0 c1 g0 g1
    (fun d hd => by
      obtain ⟨i, hi, u, hu, w, hw, q0, q1, ec⟩ := day d hd
      rw [ec, q0, q1]
      exact (hc i hi).1.cut (hle _ u (F.facts.good0.shape u hu).1) (hle _ w (F.facts.good1.shape w hw).1))
    (fun d hd => by
      obtain ⟨i, hi, u, hu, w, hw, q0, q1, ec⟩ := day d hd
      rw [ec, q0, q1]
      exact (hc i hi).2.1.cut (hle _ u (F.facts.good0.shape u hu).1) (hle _ w (F.facts.good1.shape w hw).1))
    (fun d hd l => by
      obtain ⟨i, hi, u, hu, w, hw, q0, q1, ec⟩ := day d hd
      rw [ec]
      exact (hc i hi).2.2 l)
    (by rw [mx]; exact v0) (by rw [my]; exact v1) (by rw [flX]; exact tX) (by rw [flY]; exact tY) h1
  rw [mx, my, w0, w1] at k5
  obtain ⟨k6, k7, -⟩ := k5 e0 e1 hcl
  have hres := k6 (by rw [← UInt64.ofInt_add, neg_add_cancel]; rfl)
  have hrep := k7 ⟨by simp, by simp⟩ (Or.inr (fun d hd => by
    obtain ⟨i, hi, u, hu, w, hw, q0, q1, ec⟩ := day d hd
    rw [q0, q1]
    exact ⟨day_disjoint (fun r hr => a0 r (List.mem_append_right _ (List.mem_flatten.2 ⟨u, hu, hr⟩))) (F.facts.good0.shape u hu).2.1,
      day_disjoint (fun r hr => a1 r (List.mem_append_right _ (List.mem_flatten.2 ⟨w, hw, hr⟩))) (F.facts.good1.shape w hw).2.1⟩))
  rw [← UInt64.ofInt_add, card_common a0 a1, card_common d0 d1] at hres
  rw [hp] at hpr
  have inC : ∀ {X Y : List (Data.Bytes × Int)}, (∀ r ∈ X, DigitString L B r.1) → (∀ r ∈ Y, DigitString L B r.1) → ∀ {k : Data.Bytes}, DigitString L B k →
      (digitsValue k ∈ heldN X ∩ heldN Y ↔ Common X Y k) := by
    intro X Y hX hY k hk
    rw [Finset.mem_inter, mem_heldN' hX hk, mem_heldN' hY hk]; rfl
  have isD : ∀ {X Y : List (Data.Bytes × Int)}, (∀ r ∈ X, DigitString L B r.1) → ∀ {k : Data.Bytes}, Common X Y k → DigitString L B k := by
    intro X Y hX k hk
    have : k ∈ X.map Prod.fst := by
      by_contra hc'
      exact hk.1 (net_absent hc')
    obtain ⟨r, hr, rfl⟩ := List.mem_map.1 this
    exact hX r hr
  refine ⟨?_, rfl, ?_, t0, t1, ds0, ds1, F.generated hg, hrep.1, fun z => (hrep.2 z).trans (or_congr ?_ ?_)⟩
  · show wrap64 s.result.toNat = o.printed
    rw [hres, ofInt_toNat, hpr]
    rw [hpr] at hran
    unfold wrap64
    omega
  · rw [h2]
    simp [mkPsiDays, F.facts.good0.dayCount, F.facts.good1.dayCount]
  · constructor
    · rintro ⟨n, hn, rfl⟩
      obtain ⟨hn, hn'⟩ := Finset.mem_sdiff.1 hn
      obtain ⟨k, hk, -, rfl⟩ := (mem_heldN a0).1 (Finset.mem_inter.1 hn).1
      exact ⟨k, (inC a0 a1 hk).1 hn, fun hc' => hn' ((inC d0 d1 hk).2 hc'), rfl⟩
    · rintro ⟨k, h3, h4, rfl⟩
      have hk := isD a0 h3
      exact ⟨_, Finset.mem_sdiff.2 ⟨(inC a0 a1 hk).2 h3, fun hc' => h4 ((inC d0 d1 hk).1 hc')⟩, rfl⟩
  · constructor
    · rintro ⟨n, hn, rfl⟩
      obtain ⟨hn, hn'⟩ := Finset.mem_sdiff.1 hn
      obtain ⟨k, hk, -, rfl⟩ := (mem_heldN d0).1 (Finset.mem_inter.1 hn).1
      exact ⟨k, (inC d0 d1 hk).1 hn, fun hc' => hn' ((inC a0 a1 hk).2 hc'), rfl⟩
    · rintro ⟨k, h3, h4, rfl⟩
      have hk := isD d0 h3
      exact ⟨_, Finset.mem_sdiff.2 ⟨(inC d0 d1 hk).2 h3, fun hc' => h4 ((inC a0 a1 hk).1 hc')⟩, rfl⟩

/-- **C75** (functionality) `deletion/run.cc` only runs cardinality and sum, `deletion-psi/run.cc` only the intersection: whatever
the files and coins, with any other functionality neither program finishes. -/
theorem C75_functionality (ro : List UInt8 → Nat) (mont : Int → Option Mont) (tries : Nat) (x0 x1 : Int) (hashOf : Nat → List Bool)
    (stash node : Nat) (f : DelRunFlags) (fs : FS) :
    (∀ coins r, mainDel ro mont tries x0 x1 hashOf stash node f coins fs = .ok r → f.func = .CA ∨ f.func = .SUM) ∧
    (∀ coins r, mainDelPsi ro mont tries x0 x1 hashOf stash node f coins fs = .ok r → f.func = .PSI) := by
  have key : ∀ (accept : Functionality → Bool) b, startDel accept tries x0 x1 stash node f fs = .ok b → accept f.func = true := by
    intro accept b h
    simp only [startDel, Outcome.bind_eq_ok] at h
    obtain ⟨_, _, _, _, h⟩ := h
    by_contra hc
    rw [if_neg hc] at h
    cases h
  constructor
  · intro coins r h
    simp only [mainDel, Outcome.bind_eq_ok] at h
    obtain ⟨b, hb, -⟩ := h
    have := key _ _ hb
    cases hf : f.func <;> rw [hf] at this <;> simp [acceptDel] at this ⊢
  · intro coins r h
    simp only [mainDelPsi, Outcome.bind_eq_ok] at h
    obtain ⟨b, hb, -⟩ := h
    have := key _ _ hb
    cases hf : f.func <;> rw [hf] at this <;> simp [acceptDelPsi] at this ⊢

end Upsi.Main
