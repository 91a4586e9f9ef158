import Verif.Main.MockProps
/-
Property theorems C84 (deletions): after a setup without initial sets, the parties run with `--start_size` report what setup printed.
-/
namespace Upsi.Main
open Upsi Upsi.Rec Upsi.Tree Upsi.Tree.Props Upsi.Proto Upsi.Setup Upsi.Wire Upsi.Data Upsi.Num Upsi.Paillier Upsi.Mock

/-- The elements of all rows of all days, as numbers. -/
def rowElements (ds : List (List (Data.Bytes × Int))) : List Nat := ds.flatten.map (fun r => digitsValue r.1)

theorem numRows_keys (l : List (Data.Bytes × Int)) : (numRows l).map Prod.fst = l.map (fun r => digitsValue r.1) := by
  rw [numRows, List.map_map]; rfl

/-- What both parties read before the protocol starts, and their mock trees. -/
theorem mock_begun {mont : Int → Option Mont} (hm : MontOK mont) {tries : Nat} {hashOf : Nat → List Bool} (hh : ∀ e, (hashOf e).length = 256)
    {L B stash node : Nat} {f : DelSetupFlags} (hf : DelSizesOK L B stash node f) {ρ : DelSetupRand} (hρ : ρ.OK L B f) (h0 : f.start = 0)
    {o : DelSetupOut} {g : GenSets} {t0 t1 : List (Data.Bytes × Int)} {ds0 ds1 : List (List (Data.Bytes × Int))} {val : Data.Bytes → Int}
    (hF : FoundDel mont tries hashOf L B stash node f ρ o g t0 t1 ds0 ds1 val) {x0 x1 : Int}
    (hx0 : Int.gcd x0 ((ρ.p1 * ρ.q1 : Nat) : Int) = 1) (hx1 : Int.gcd x1 ((ρ.p0 * ρ.q0 : Nat) : Int) = 1) {accept : Functionality → Bool}
    {func : Functionality} {size : Int} {m0 m1 : MockCoins} {b : StartedDel}
    (h : startDelMock accept mont tries x0 x1 hashOf stash node (.of f func) size size m0 m1 o.fs = .ok b) :
    Keys ρ.p0 ρ.q0 ρ.p1 ρ.q1 mont b.k0 b.k1 ∧ b.xs = ds0.map numRows ∧ b.ys = ds1.map numRows ∧
      Mock.startDel hashOf mont b.k0 b.k1 stash node size size m0 m1 = .ok (b.s0, b.s1) ∧ t0 = [] ∧ t1 = [] := by
  have ht : (DelRunFlags.of f func).trees = false := by simp [DelRunFlags.of, h0]
  rw [startDelMock, ht] at h
  simp only [Bool.false_and, Bool.false_eq_true, if_false, Outcome.bind_eq_ok, Prod.exists, Outcome.pure_eq, Outcome.ok.injEq] at h
  obtain ⟨b', hb, s0, s1, hs, rfl⟩ := h
  obtain ⟨l0, l1⟩ := hF.fresh h0
  have bg := del_begun hm hh hf hρ hF l0 l1 hx0 hx1 hb
  exact ⟨bg.keys, bg.xs, bg.ys, hs, List.length_eq_zero_iff.1 (by rw [hF.facts.good0.startSize, h0]),
    List.length_eq_zero_iff.1 (by rw [hF.facts.good1.startSize, h0])⟩

/-- **C84** (cardinality and sum) After a `deletion/setup.cc` without initial sets, both parties of `deletion/run.cc` run with the same
positive `--start_size`: if the random initial elements of either party are no elements of the other one's data sets, everything ends
normally, no tree drops an entry, no 64-bit hashes collide and no share wraps (`Clean`, C46), the number party zero prints is the one
setup printed, as an unsigned 64-bit number – as without mock trees (C75). -/
theorem C84_cardinality_sum (ro : List UInt8 → Nat) (mont : Int → Option Mont) (hm : MontOK mont) (tries : Nat)
    (hashOf : Nat → List Bool) (hh : ∀ e, (hashOf e).length = 256) (L B stash node : Nat) (f : DelSetupFlags)
    (hf : DelSizesOK L B stash node f) (h0 : f.start = 0) (hp : f.func ≠ .PSI) (ρ : DelSetupRand) (hρ : ρ.OK L B f)
    (hB0 : B < ρ.p0 * ρ.q0) (hB1 : B < ρ.p1 * ρ.q1)
    (b0 : 2 * (f.total * f.valueBound * f.total) < ((ρ.p0 * ρ.q0 : Nat) : Int))
    (b1 : 2 * (f.total * f.valueBound * f.total) < ((ρ.p1 * ρ.q1 : Nat) : Int)) (x0 x1 : Int)
    (hx0 : Int.gcd x0 ((ρ.p1 * ρ.q1 : Nat) : Int) = 1) (hx1 : Int.gcd x1 ((ρ.p0 * ρ.q0 : Nat) : Int) = 1) (coins : Nat → DelCoins)
    (hc : ∀ i < f.days, RoundCoins.Day B (ρ.p0 * ρ.q0) (ρ.p1 * ρ.q1) f.daily (coins i).round) (fs : FS) (o : DelSetupOut)
    (h : setupMainDel mont tries hashOf stash node f ρ fs = .ok o)
    (size : Int) (hs0 : 0 < size) (hs : size.toNat + f.days * f.daily < 2 ^ 30) (m0 m1 : MockCoins)
    (w0 : m0.WF size.toNat (ρ.p1 * ρ.q1) 0) (w1 : m1.WF size.toNat (ρ.p0 * ρ.q0) 0)
    (hap : ∀ t0 t1 ds0 ds1, GeneratedDel f ρ t0 t1 ds0 ds1 → Apart B size.toNat m0 m1 (rowElements ds0) (rowElements ds1))
    (func : Functionality) (s : StDel) (ns : List (Nat × Nat))
    (hr : mainDelMock ro mont tries x0 x1 hashOf stash node (.of f func) size size m0 m1 coins o.fs = .ok (s, ns))
    (e0 : s.p0.lost = []) (e1 : s.p1.lost = []) (hcl : ∀ p ∈ s.trace, p.Clean ro) :
    (shownDel s : Int) = (if 0 ≤ o.printed then o.printed else o.printed + 2 ^ 64) ∧ ns.length = f.days := by
  obtain ⟨g, t0, t1, ds0, ds1, val, hg, F⟩ := del_found hh hf hρ h
  have AP := hap _ _ _ _ (F.generated hg)
  have hpr := F.printed_eq hf
  have hran : -2 ^ 63 ≤ o.printed ∧ o.printed < 2 ^ 63 := by
    rw [F.printed, F.facts.sum]; exact ⟨(wrap64_spec _).1, (wrap64_spec _).2.1⟩
  simp only [mainDelMock, Outcome.bind_eq_ok] at hr
  obtain ⟨b, hb, hr⟩ := hr
  obtain ⟨K, bx, byy, hst, rfl, rfl⟩ := mock_begun hm hh hf hρ h0 F hx0 hx1 hb
  rw [bx, byy] at hr
  have hlen : (ds0.map numRows).length = (ds1.map numRows).length := by
    rw [List.length_map, List.length_map, F.facts.good0.dayCount, F.facts.good1.dayCount]
  obtain ⟨h1, h2⟩ := runNet_runDays (step := fun s (d : DayDelIn) => dayDelNet ro mont hashOf b.k0 b.k1 s d.xs d.ys d.coins)
    (step' := fun s d => dayDel ro mont hashOf b.k0 b.k1 s d.xs d.ys d.coins)
    (fun s d s' n e => ((C73_deletion ro mont hashOf b.k0 b.k1 s s' d.xs d.ys d.coins n.1 n.2).1 e).1) _ _ _ _ hr
  have dx := mkDelDays_x hlen coins
  have dy := mkDelDays_y hlen coins
  rw [← numRows_flatten] at dx dy
  have kx : (delX (mkDelDays (ds0.map numRows) (ds1.map numRows) coins)).map Prod.fst = rowElements ds0 := by rw [dx, numRows_keys]; rfl
  have ky : (delY (mkDelDays (ds0.map numRows) (ds1.map numRows) coins)).map Prod.fst = rowElements ds1 := by rw [dy, numRows_keys]; rfl
  have g0 := GoodHistory.length F.facts.good0
  have g1 := GoodHistory.length F.facts.good1
  rw [List.nil_append, h0, Nat.zero_add] at g0 g1
  have adm : DelMockAdmissible B (ρ.p0 * ρ.q0) (ρ.p1 * ρ.q1) size.toNat (mkDelDays (ds0.map numRows) (ds1.map numRows) coins) :=
    { bound0 := hB0
      bound1 := hB1
      coins := fun d hd => by
        obtain ⟨i, hi, m0, m1, ec⟩ := mem_mkDelDays hd
        rw [List.length_map, F.facts.good0.dayCount] at hi
        obtain ⟨d0, hd0, q0⟩ := List.mem_map.1 m0
        obtain ⟨d1, hd1, q1⟩ := List.mem_map.1 m1
        rw [ec, ← q0, ← q1]
        exact (hc i hi).wf (by rw [numRows, List.length_map, (F.facts.good0.shape d0 hd0).1])
          (by rw [numRows, List.length_map, (F.facts.good1.shape d1 hd1).1])
      x := fun e he => ⟨AP.pos0 _ (kx ▸ List.mem_map_of_mem he), F.below0 e (by rw [List.nil_append, ← dx]; exact he)⟩
      y := fun e he => ⟨AP.pos1 _ (ky ▸ List.mem_map_of_mem he), F.below1 e (by rw [List.nil_append, ← dy]; exact he)⟩
      sizeX := by rw [dx, numRows, List.length_map, g0]; exact hs
      sizeY := by rw [dy, numRows, List.length_map, g1]; exact hs }
  have hmass : 2 * (mass (numRows ds0.flatten) * mass (numRows ds1.flatten)) ≤ 2 * (f.total * f.valueBound * f.total) := by
    have := Int.mul_le_mul (F.mass0 hf hp) F.mass1 (mass_nonneg _) (le_trans (mass_nonneg _) (F.mass0 hf hp))
    rw [List.nil_append, List.nil_append] at this
    omega
  obtain ⟨M0, M1, s0, s1, a0, a1, -, hst', k⟩ := C78_inner_product K ro hashOf hh B stash node size hs0 m0 m1 w0 w1 _ adm
    (by rw [dx, dy]; exact lt_of_le_of_lt hmass b0) (by rw [dx, dy]; exact lt_of_le_of_lt hmass b1)
  have hss := hst.symm.trans hst'
  rw [Outcome.ok.injEq, Prod.mk.injEq] at hss
  rw [← hss.1, ← hss.2] at k
  have hres := k s (fun x hx => by
      rcases List.mem_append.1 hx with hx | hx
      · exact (AP.mock0 _ a0 x hx).1
      · exact (AP.mock1 _ a1 x hx).1)
    (fun x hx => by rw [ky]; exact (AP.mock0 _ a0 x hx).2) (fun x hx => by rw [kx]; exact (AP.mock1 _ a1 x hx).2) h1 e0 e1 hcl
  have z : expected f.func ([] : List (Data.Bytes × Int)) [] = 0 := by simp [expected]
  have ip := innerProduct_numRows hp (fun r hr => (F.facts.rows0 r hr).1) F.facts.rows1 F.facts.good1.valid
  rw [List.nil_append, List.nil_append] at ip
  rw [z, sub_zero, List.nil_append, List.nil_append] at hpr
  rw [dx, dy, ip, ← hpr] at hres
  refine ⟨?_, ?_⟩
  · rw [shownDel, hres, ofInt_toNat]
    split <;> omega
  · rw [h2]
    simp [mkDelDays, F.facts.good0.dayCount, F.facts.good1.dayCount]

/-- **C84** (intersection) The same for `deletion-psi/setup.cc` and `deletion-psi/run.cc`: the number party zero prints is the one printed by
setup, and the elements it collects are exactly those both parties hold at the end, in terms of the rows setup generated – no random initial
element is among them. -/
theorem C84_intersection (ro : List UInt8 → Nat) (mont : Int → Option Mont) (hm : MontOK mont) (tries : Nat)
    (hashOf : Nat → List Bool) (hh : ∀ e, (hashOf e).length = 256) (L B stash node : Nat) (f : DelSetupFlags)
    (hf : DelSizesOK L B stash node f) (h0 : f.start = 0) (hp : f.func = .PSI) (ρ : DelSetupRand) (hρ : ρ.OK L B f)
    (hB0 : 2 * B ≤ ρ.p0 * ρ.q0) (hB1 : 2 * B ≤ ρ.p1 * ρ.q1) (wide : 2 ^ 65 ≤ ρ.p0 * ρ.q0) (x0 x1 : Int)
    (hx0 : Int.gcd x0 ((ρ.p1 * ρ.q1 : Nat) : Int) = 1) (hx1 : Int.gcd x1 ((ρ.p0 * ρ.q0 : Nat) : Int) = 1) (coins : Nat → DelPsiCoins)
    (hc : ∀ i < f.days, RoundCoins.Day B (ρ.p0 * ρ.q0) (ρ.p1 * ρ.q1) f.daily (coins i).round1 ∧
      RoundCoins.Day B (ρ.p0 * ρ.q0) (ρ.p1 * ρ.q1) f.daily (coins i).round2 ∧ ∀ l, ((coins i).shuffle l).Perm l) (fs : FS) (o : DelSetupOut)
    (h : setupMainDel mont tries hashOf stash node f ρ fs = .ok o)
    (size : Int) (hs0 : 0 < size) (hs : size.toNat + f.days * f.daily < 2 ^ 30) (m0 m1 : MockCoins)
    (w0 : m0.WF size.toNat (ρ.p1 * ρ.q1) 0) (w1 : m1.WF size.toNat (ρ.p0 * ρ.q0) 0)
    (hap : ∀ t0 t1 ds0 ds1, GeneratedDel f ρ t0 t1 ds0 ds1 → Apart B size.toNat m0 m1 (rowElements ds0) (rowElements ds1))
    (func : Functionality) (s : StDelPsi) (ns : List (Nat × Nat))
    (hr : mainDelPsiMock ro mont tries x0 x1 hashOf stash node (.of f func) size size m0 m1 coins o.fs = .ok (s, ns))
    (e0 : s.p0.lost = []) (e1 : s.p1.lost = []) (hcl : ∀ p ∈ s.trace, p.Clean ro) :
    (shownPsi s).1 = o.printed ∧ (shownPsi s).2 = (if s.inter.length < 10 then some s.inter else none) ∧ ns.length = f.days ∧
    ∃ ds0 ds1, GeneratedDel f ρ [] [] ds0 ds1 ∧ s.inter.Nodup ∧
      ∀ z, z ∈ s.inter ↔ ∃ k, Common ds0.flatten ds1.flatten k ∧ z = (digitsValue k : Int) := by
  obtain ⟨g, t0, t1, ds0, ds1, val, hg, F⟩ := del_found hh hf hρ h
  have AP := hap _ _ _ _ (F.generated hg)
  have hpr := F.printed_eq hf
  have hran : -2 ^ 63 ≤ o.printed ∧ o.printed < 2 ^ 63 := by
    rw [F.printed, F.facts.sum]; exact ⟨(wrap64_spec _).1, (wrap64_spec _).2.1⟩
  simp only [mainDelPsiMock, Outcome.bind_eq_ok] at hr
  obtain ⟨b, hb, hr⟩ := hr
  obtain ⟨K, bx, byy, hst, rfl, rfl⟩ := mock_begun hm hh hf hρ h0 F hx0 hx1 hb
  rw [bx, byy] at hr
  have hlen : (ds0.map numRows).length = (ds1.map numRows).length := by
    rw [List.length_map, List.length_map, F.facts.good0.dayCount, F.facts.good1.dayCount]
  obtain ⟨h1, h2⟩ := runNet_runDays (step := fun s (d : DayPsiIn) => dayDelPsiNet ro mont hashOf b.k0 b.k1 s d.xs d.ys d.coins)
    (step' := fun s d => dayDelPsi ro mont hashOf b.k0 b.k1 s d.xs d.ys d.coins)
    (fun s d s' n e => ((C73_deletion_psi ro mont hashOf b.k0 b.k1 s s' d.xs d.ys d.coins n.1 n.2).1 e).1) _ _ _ _ hr
  obtain ⟨mx, my⟩ := mkPsiDays_map hlen coins
  have r0 : RowsOK L B val ds0.flatten := by have := F.facts.rows0; rwa [List.nil_append] at this
  have r1 : RowsOK L B (fun _ => 1) ds1.flatten := by have := F.facts.rows1; rwa [List.nil_append] at this
  have a0 : ∀ r ∈ ds0.flatten, DigitString L B r.1 := fun r h => (r0 r h).1
  have a1 : ∀ r ∈ ds1.flatten, DigitString L B r.1 := fun r h => (r1 r h).1
  have he : heldN ([] : List (Data.Bytes × Int)) = ∅ := by simp [heldN]
  obtain ⟨v0, w0'⟩ := validDays_num (v := fun k => (k : Int)) ds0 [] (by simp) r0 (fun r hr => F.facts.valPsi hp r (List.mem_append_right _ hr))
    (fun r hr => F.facts.pos0 hp r (List.mem_append_right _ hr)) (fun d hd => (F.facts.good0.shape d hd).2.1) F.facts.good0.valid
  obtain ⟨v1, w1'⟩ := validDays_num (v := fun _ => 1) ds1 [] (by simp) r1 (fun _ _ => rfl)
    (fun r hr => F.facts.pos1 hp r (List.mem_append_right _ hr)) (fun d hd => (F.facts.good1.shape d hd).2.1) F.facts.good1.valid
  rw [he] at v0 v1 w0' w1'
  rw [List.nil_append] at w0' w1'
  have day : ∀ d ∈ mkPsiDays (ds0.map numRows) (ds1.map numRows) coins, ∃ i < f.days, ∃ u ∈ ds0, ∃ w ∈ ds1, d.xs = numRows u ∧ d.ys = numRows w ∧
      d.coins = DelPsiCoins.cut (coins i) d.xs d.ys := by
    intro d hd
    obtain ⟨i, hi, m0, m1, ec⟩ := mem_mkPsiDays hd
    rw [List.length_map, F.facts.good0.dayCount] at hi
    obtain ⟨u, hu, q0⟩ := List.mem_map.1 m0
    obtain ⟨w, hw, q1⟩ := List.mem_map.1 m1
    exact ⟨i, hi, u, hu, w, hw, q0.symm, q1.symm, ec⟩
  have hle : ∀ (p : EP → Bool) (u : List (Data.Bytes × Int)), u.length = f.daily → ((numRows u).filter p).length ≤ f.daily := by
    intro p u hu
    refine le_trans (List.length_filter_le _ _) ?_
    rw [numRows, List.length_map, hu]
  have flX : (mkPsiDays (ds0.map numRows) (ds1.map numRows) coins).flatMap (·.xs) = numRows ds0.flatten := by
    rw [List.flatMap_def, mx, numRows_flatten]
  have flY : (mkPsiDays (ds0.map numRows) (ds1.map numRows) coins).flatMap (·.ys) = numRows ds1.flatten := by
    rw [List.flatMap_def, my, numRows_flatten]
  have g0 := GoodHistory.length F.facts.good0
  have g1 := GoodHistory.length F.facts.good1
  rw [List.nil_append, h0, Nat.zero_add] at g0 g1
  have tX : size.toNat + (numRows ds0.flatten).length < 2 ^ 30 := by rw [numRows, List.length_map, g0]; exact hs
  have tY : size.toNat + (numRows ds1.flatten).length < 2 ^ 30 := by rw [numRows, List.length_map, g1]; exact hs
  have adm : PsiAdmissible (fun k => (k : Int)) (fun _ => 1) B (ρ.p0 * ρ.q0) (ρ.p1 * ρ.q1) (mkPsiDays (ds0.map numRows) (ds1.map numRows) coins) :=
    { bound0 := hB0
      bound1 := hB1
      bound64 := hf.bound
      wide := wide
      weights := fun k hk _ => ⟨by exact_mod_cast hk, by norm_num, by simp⟩
      coins1 := fun d hd => by
        obtain ⟨i, hi, u, hu, w, hw, q0, q1, ec⟩ := day d hd
        rw [ec, q0, q1]
        exact (hc i hi).1.cut (hle _ u (F.facts.good0.shape u hu).1) (hle _ w (F.facts.good1.shape w hw).1)
      coins2 := fun d hd => by
        obtain ⟨i, hi, u, hu, w, hw, q0, q1, ec⟩ := day d hd
        rw [ec, q0, q1]
        exact (hc i hi).2.1.cut (hle _ u (F.facts.good0.shape u hu).1) (hle _ w (F.facts.good1.shape w hw).1)
      shuffle := fun d hd l => by
        obtain ⟨i, hi, u, hu, w, hw, q0, q1, ec⟩ := day d hd
        rw [ec]
        exact (hc i hi).2.2 l
      valid0 := by rw [mx]; exact v0
      valid1 := by rw [my]; exact v1
      sizeX := by rw [flX]; omega
      sizeY := by rw [flY]; omega }
  obtain ⟨M0, M1, s0, s1, q0, q1, -, hst', k⟩ := C78_intersection K ro hashOf hh _ _ B stash node size hs0 m0 m1 w0 w1 _ adm
    (by rw [flX]; exact tX) (by rw [flY]; exact tY)
  have hss := hst.symm.trans hst'
  rw [Outcome.ok.injEq, Prod.mk.injEq] at hss
  rw [← hss.1, ← hss.2] at k
  obtain ⟨hres, hrep⟩ := k s (fun x hx => by
      rcases List.mem_append.1 hx with hx | hx
      · exact (AP.mock0 _ q0 x hx).1
      · exact (AP.mock1 _ q1 x hx).1)
    (fun x hx => by rw [flY, numRows_keys]; exact (AP.mock0 _ q0 x hx).2) (fun x hx => by rw [flX, numRows_keys]; exact (AP.mock1 _ q1 x hx).2) h1 e0 e1 hcl
  replace hrep := hrep (Or.inr (fun d hd => by
    obtain ⟨i, hi, u, hu, w, hw, q0, q1, ec⟩ := day d hd
    rw [q0, q1]
    exact ⟨day_disjoint (fun r hr => a0 r (List.mem_flatten.2 ⟨u, hu, hr⟩)) (F.facts.good0.shape u hu).2.1,
      day_disjoint (fun r hr => a1 r (List.mem_flatten.2 ⟨w, hw, hr⟩)) (F.facts.good1.shape w hw).2.1⟩))
  rw [mx, my, w0', w1'] at hres hrep
  have z : expected f.func ([] : List (Data.Bytes × Int)) [] = 0 := by simp [expected]
  rw [z, sub_zero, List.nil_append, List.nil_append, hp, ← card_common a0 a1] at hpr
  have isD : ∀ {k : Data.Bytes}, Common ds0.flatten ds1.flatten k → DigitString L B k := by
    intro k hk
    have : k ∈ ds0.flatten.map Prod.fst := by
      by_contra hc'
      exact hk.1 (net_absent hc')
    obtain ⟨r, hr, rfl⟩ := List.mem_map.1 this
    exact a0 r hr
  refine ⟨?_, rfl, ?_, ds0, ds1, F.generated hg, hrep.1, fun z => (hrep.2 z).trans ?_⟩
  · show wrap64 s.result.toNat = o.printed
    rw [hres, ← hpr]
    exact wrap64_small (by omega) hran.2
  · rw [h2]
    simp [mkPsiDays, F.facts.good0.dayCount, F.facts.good1.dayCount]
  · constructor
    · rintro ⟨n, hn, rfl⟩
      obtain ⟨k, hk, h3, rfl⟩ := (mem_heldN a0).1 (Finset.mem_inter.1 hn).1
      exact ⟨k, ⟨h3, (mem_heldN' a1 hk).1 (Finset.mem_inter.1 hn).2⟩, rfl⟩
    · rintro ⟨k, h3, rfl⟩
      have hk := isD h3
      exact ⟨_, Finset.mem_inter.2 ⟨(mem_heldN' a0 hk).2 h3.1, (mem_heldN' a1 hk).2 h3.2⟩, rfl⟩

/-- **C84** (refused) Both parties of `deletion/run.cc` and of `deletion-psi/run.cc` refuse a positive `--start_size` together with
`--import`, whatever the files, the other flags and the coins. -/
theorem C84_refused (ro : List UInt8 → Nat) (mont : Int → Option Mont) (tries : Nat) (x0 x1 : Int) (hashOf : Nat → List Bool)
    (stash node : Nat) (f : DelRunFlags) (ht : f.trees = true) (start0 start1 : Int) (h : 0 < start0 ∨ 0 < start1) (m0 m1 : MockCoins) (fs : FS) :
    (∀ coins, ∃ e, mainDelMock ro mont tries x0 x1 hashOf stash node f start0 start1 m0 m1 coins fs = .err e) ∧
    (∀ coins, ∃ e, mainDelPsiMock ro mont tries x0 x1 hashOf stash node f start0 start1 m0 m1 coins fs = .err e) := by
  have key : (f.trees && (decide (0 < start0) || decide (0 < start1))) = true := by simpa [ht] using h
  constructor <;> intro coins
  · exact ⟨_, by rw [mainDelMock, startDelMock, if_pos key]; rfl⟩
  · exact ⟨_, by rw [mainDelPsiMock, startDelMock, if_pos key]; rfl⟩

end Upsi.Main
