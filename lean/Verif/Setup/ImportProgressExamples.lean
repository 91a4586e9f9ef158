import Verif.Setup.GenProgress
import Verif.Setup.ImportExamples
import Verif.Setup.ImportOg
import Verif.Proto.ProgressExamples
import Verif.Proto.ProgressDelExamples
/- Non-vacuity of C83: generation, import and a day for every protocol. -/
namespace Upsi.Setup
open Upsi Upsi.ElGamal Upsi.Tree Upsi.Num Upsi.Proto Upsi.Paillier Upsi.Proto.Examples Upsi.Tree.Props

theorem gen0_ok : ∃ r, genToy0 = .ok r := by
  obtain ⟨s, h, -⟩ := impCA_ok
  obtain ⟨f0, l0, f1, l1, s1, h0, h1, h2, h3⟩ := impRun_ok h
  exact ⟨_, h0⟩

theorem gen1_ok : ∃ r, genToy1 = .ok r := by
  obtain ⟨s, h, -⟩ := impCA_ok
  obtain ⟨f0, l0, f1, l1, s1, h0, h1, h2, h3⟩ := impRun_ok h
  exact ⟨_, h1⟩

theorem gen0SS_ok : ∃ r, genToy0SS = .ok r := by
  obtain ⟨s, h, -⟩ := C60_shares_value_witness
  obtain ⟨f0, l0, f1, l1, s1, h0, h1, h2, h3⟩ := impRun_ok h
  exact ⟨_, h0⟩

/-- Generation, addition-only. -/
example : (genToy0 = .err "EC_POINT_point2oct failed" ∨ ∃ r, genToy0 = .ok r) ∧
    (genToy1 = .err "EC_POINT_point2oct failed" ∨ ∃ r, genToy1 = .ok r) :=
  C83_generation_addition toyCodec65521 toyHash toyHash_len toySetup.pk 4 1 _ _ coinsX0 coinsY0 coinsX0_wf.hsh coinsY0_wf.hsh
    (by decide) (by decide) (by decide)

/-- Generation, secret sharing. -/
example : genToy0SS = .err "EC_POINT_point2oct failed" ∨ ∃ r, genToy0SS = .ok r :=
  C83_generation_shares toySetup toyCodec65521 toySSKeys toyHash toyHash_len 4 1 _ coinsX0SS coinsX0SS_wf.hsh (by decide) (by decide)
    (fun i j => ⟨by simp [coinsX0SS], by simp [coinsX0SS]⟩) (fun i j => by
      have := smallCoin_range (i + 10 * j) 6 1
      exact ⟨this.1, by change smallCoin _ 6 1 ≤ 77; omega⟩)

/-- Cardinality. -/
example : ∃ f0 f1 l0 l1 s0 s1, genToy0 = .ok (f0, l0) ∧ genToy1 = .ok (f1, l1) ∧
    importAdd toyCodec65521 decNat (deserTreeCt toyCodec65521) f0 f1 (l0.map Prod.fst) l1 = .ok (s0, s1) ∧
    (runCAFrom toySetup toyCodec65521 toyHash ⟨s0, s1, 0⟩ (impDays Unit) = .err "EC_POINT_point2oct failed" ∨
     ∃ s, runCAFrom toySetup toyCodec65521 toyHash ⟨s0, s1, 0⟩ (impDays Unit) = .ok s ∧ s.cardinality + 1 = 3) := by
  obtain ⟨⟨f0, l0⟩, h0⟩ := gen0_ok
  obtain ⟨⟨f1, l1⟩, h1⟩ := gen1_ok
  obtain ⟨s0, s1, a, b⟩ := C83_cardinality_small toySetup toyCodec65521 toyHash toyHash_len 50 4 1 _ _ f0 f1 l0 l1
    (toy_files h0 h1) (impDays Unit) impDays_adm (by decide) (by decide) (by decide) (by decide)
  exact ⟨f0, f1, l0, l1, s0, s1, h0, h1, a, b⟩

/-- Intersection. -/
example : ∃ f0 f1 l0 l1 s0 s1, genToy0 = .ok (f0, l0) ∧ genToy1 = .ok (f1, l1) ∧
    importAdd toyCodec65521 decNat (deserTreeCt toyCodec65521) f0 f1 (l0.map Prod.fst) l1 = .ok (s0, s1) ∧
    (runPSIFrom toySetup toyCodec65521 toyCodec65521 toyHash ⟨s0, s1, [], []⟩ (impDays _) = .err "EC_POINT_point2oct failed" ∨
     ∃ s, runPSIFrom toySetup toyCodec65521 toyCodec65521 toyHash ⟨s0, s1, [], []⟩ (impDays _) = .ok s ∧
      (s.intersection ++ [none]).Perm [none, none, some 8]) := by
  obtain ⟨⟨f0, l0⟩, h0⟩ := gen0_ok
  obtain ⟨⟨f1, l1⟩, h1⟩ := gen1_ok
  obtain ⟨s0, s1, a, b⟩ := C83_psi_small toySetup toyCodec65521 toyCodec65521 toyHash toyHash_len 50 4 1 _ _ f0 f1 l0 l1
    (toy_files h0 h1) (impDays _) impDays_adm (by decide) (by decide) (by decide) (by decide)
  exact ⟨f0, f1, l0, l1, s0, s1, h0, h1, a, b⟩

/-- Sum. -/
example : ∃ f0 f1 l0 l1 s0 s1, genToy0 = .ok (f0, l0) ∧ genToy1 = .ok (f1, l1) ∧
    importAdd toyCodec65521 decNatPair (deserElGamal toyCodec65521) f0 f1 l0 l1 = .ok (s0, s1) ∧
    (runSumFrom toySetup toyCodec65521 100 toyHash ⟨s0, s1, 0, 0⟩ impDaysSum = .err "EC_POINT_point2oct failed" ∨
     ∃ s, runSumFrom toySetup toyCodec65521 100 toyHash ⟨s0, s1, 0, 0⟩ impDaysSum = .ok s ∧
      s.cardinality + 1 = 3 ∧ (s.sum.toNat : Int) + 20 = 60) := by
  obtain ⟨⟨f0, l0⟩, h0⟩ := gen0_ok
  obtain ⟨⟨f1, l1⟩, h1⟩ := gen1_ok
  obtain ⟨s0, s1, a, b⟩ := C83_sum_small toySetup toyCodec65521 100 (by decide) (by decide) (by decide) toyHash toyHash_len 50 4 1 _ _
    f0 f1 l0 l1 (toy_files h0 h1) impDaysSum impDaysSum_adm (by decide) (by decide) (by decide) (by decide) (by decide)
  exact ⟨f0, f1, l0, l1, s0, s1, h0, h1, a, b⟩

/-- Secret sharing. -/
example : ∃ f0 f1 l0 l1 s0 s1, genToy0SS = .ok (f0, l0) ∧ genToy1 = .ok (f1, l1) ∧
    importAdd toyCodec65521 decNatPair (deserPaillier toyCodec65521) f0 f1 l0 l1 = .ok (s0, s1) ∧
    (runSSFrom toySetup toyCodec65521 (fun _ => none) toyA toyB toyHash ⟨s0, s1, [], []⟩ impDaysSS = .err "EC_POINT_point2oct failed" ∨
     ∃ s, runSSFrom toySetup toyCodec65521 (fun _ => none) toyA toyB toyHash ⟨s0, s1, [], []⟩ impDaysSS = .ok s ∧
      s.shares0.length = s.shares1.length) := by
  obtain ⟨⟨f0, l0⟩, h0⟩ := gen0SS_ok
  obtain ⟨⟨f1, l1⟩, h1⟩ := gen1_ok
  obtain ⟨s0, s1, a, b⟩ := C83_shares_small toySetup toyCodec65521 toySSKeys toySSKeys toyHash toyHash_len 50 4 1 _ _
    f0 f1 l0 l1 (toy_filesSS h0 h1) impDaysSS impDaysSS_adm (by
      intro d hd
      simp only [impDaysSS, List.mem_cons, List.not_mem_nil, or_false] at hd
      subst hd
      exact toySSCoins _ _) (by decide) (by decide) (by decide) (by decide) (by decide)
  exact ⟨f0, f1, l0, l1, s0, s1, h0, h1, a, b.imp id (fun ⟨s, h, e, _⟩ => ⟨s, h, e⟩)⟩

/-- The original protocol. -/
example : ∃ f1 hx l1 s0, genOg1 toyCodec65521 toyHash toySetup.og 4 1 [5, 8] (toyTreeCoins [toyHash 1, toyHash 2] 60) = .ok (f1, l1) ∧
    writeHX toyCodec65521 ogHash toySetup.og [3, 5] = .ok hx ∧ importOg toyCodec65521 toyCodec65521 f1 hx l1 = .ok s0 ∧
    (runOgFrom toySetup.og toyCodec65521 toyCodec65521 ogHash toyHash s0 ogImportDays = .err "EC_POINT_point2oct failed" ∨
     ∃ s, runOgFrom toySetup.og toyCodec65521 toyCodec65521 ogHash toyHash s0 ogImportDays = .ok s ∧
      (s.p0.intersection ++ [5]).Perm [3, 5, 8]) := by
  obtain ⟨s, h, -⟩ := ogImportRun_ok
  simp only [ogImportRun, Outcome.bind_eq_ok] at h
  obtain ⟨⟨f1, lost1⟩, hg, hx, hw, s0, hi, hr⟩ := h
  obtain ⟨s0', k1, k2⟩ := C83_original_small toySetup toyCodec65521 toyCodec65521 ogHash toyHash
    toyHash_len 50 4 1 [3, 5] [5, 8] f1 hx lost1
    ⟨⟨_, ⟨⟨rfl, by
        intro y hy; simp only [toyTreeCoins, List.mem_cons, List.not_mem_nil, or_false] at hy
        rcases hy with rfl | rfl <;> exact toyHash_len _⟩,
        fun _ _ => by simp only [toyTreeCoins, toySetup, id]; omega⟩, hg⟩, hw⟩ ogImportDays ogImportDays_adm (by decide)
  exact ⟨f1, hx, lost1, s0', hg, hw, k1, k2⟩

/-! ### with deletions -/

theorem delCoins_wf41 (X : List EP) (hs : List Nat) (hl : X.length = hs.length) {n : Nat} (hn : 51 ≤ n) :
    (delCoins (hs.map toyHash)).WF Prod.fst 41 n X :=
  ⟨⟨by simp [delCoins, hl], by
    intro h hh; simp only [delCoins, List.mem_map] at hh
    obtain ⟨a, _, rfl⟩ := hh; exact toyHash_len _⟩, fun _ _ => by simp only [delCoins]; omega⟩

theorem genDel_ok {p q : Nat} {pk : Public} {sk : Private} (K : KeyPair p q (fun _ => none) pk sk) (X : List EP) (hs : List Nat)
    (hl : X.length = hs.length) (hX : X.length < 2 ^ 30) (hel : ∀ e ∈ X, e.1 < 51) (hval : ∀ e ∈ X, 0 ≤ e.2) (hm : absMass X < 51)
    (hn : 51 ≤ p * q) : ∃ r, genDel (fun _ => none) sk toyHash 4 1 X (delCoins (hs.map toyHash)) = .ok r :=
  C83_generation_deletion K toyHash toyHash_len 4 1 X _ (delCoins_wf41 X hs hl hn).hsh hX (fun e he => lt_of_lt_of_le (hel e he) hn)
    hval (lt_of_lt_of_le hm hn) (fun i j => by change 50 < p * q ∧ 0 < p * q; omega)
    (fun i j k => by have := tiny_range (i + 10 * j) 6 k; change 0 ≤ tiny _ 6 k; omega)

theorem impDelDays_adm41 : DelAdmissibleFrom 41 (7 * 11) (11 * 13) [(3, 1), (5, 1)] [(5, 1), (8, 1)] impDelDays where
  bound0 := by norm_num
  bound1 := by norm_num
  coins := by
    intro d hd
    simp only [impDelDays, List.mem_cons, List.not_mem_nil, or_false] at hd
    subst hd
    exact toyRound_wf41 _ _ [3] [] rfl rfl (by norm_num) (by norm_num)
  x := by simp [delX, impDelDays]
  y := by simp [delY, impDelDays]
  sizeX := by simp [delX, impDelDays]
  sizeY := by simp [delY, impDelDays]

theorem impDelDays_usable : ∀ d ∈ impDelDays, d.coins.Usable 41 (7 * 11) (11 * 13) := by
  intro d hd
  simp only [impDelDays, List.mem_cons, List.not_mem_nil, or_false] at hd
  subst hd
  exact ⟨toyRound_usable _ _ (by norm_num) (by norm_num), toyGc_usable _ (by norm_num), toyGc_usable _ (by norm_num)⟩

/-- Cardinality with deletions: generation, import and the run all succeed. -/
example : ∃ f0 f1 l0 l1 s0 s1, genDel (fun _ => none) sk0 toyHash 4 1 [(3, 1), (5, 1)] (delCoins ([0, 1].map toyHash)) = .ok (f0, l0) ∧
    genDel (fun _ => none) sk1 toyHash 4 1 [(5, 1), (8, 1)] (delCoins ([1, 2].map toyHash)) = .ok (f1, l1) ∧
    importDel f0 f1 l0 l1 = .ok (s0, s1) ∧
    ∃ s, runDelFrom toyRo (fun _ => none) toyHash ⟨sk0, pk1⟩ ⟨sk1, pk0⟩ ⟨s0, s1, 0, []⟩ impDelDays = .ok s := by
  obtain ⟨⟨f0, l0⟩, h0⟩ := genDel_ok toyKeys.own0 [(3, 1), (5, 1)] [0, 1] rfl (by decide) (by decide) (by decide) (by decide) (by decide)
  obtain ⟨⟨f1, l1⟩, h1⟩ := genDel_ok toyKeys.own1 [(5, 1), (8, 1)] [1, 2] rfl (by decide) (by decide) (by decide) (by decide) (by decide)
  obtain ⟨s0, s1, a, s, b, -⟩ := C83_deletion_small toyKeys toyRo toyHash toyHash_len 41 4 1 _ _ f0 f1 l0 l1
    ⟨⟨_, delCoins_wf41 _ [0, 1] rfl (by norm_num), h0⟩, ⟨_, delCoins_wf41 _ [1, 2] rfl (by norm_num), h1⟩⟩
    impDelDays impDelDays_adm41 impDelDays_usable (by decide +kernel) (by decide +kernel) (by decide +kernel) (by decide) (by decide)
    (fun x _ => toyRo_long x)
  exact ⟨f0, f1, l0, l1, s0, s1, h0, h1, a, s, b⟩

theorem impPsiDays_adm41 : PsiAdmissibleFrom (fun k => (k : Int)) (fun _ => 1) 41 (17 * mers) (19 * mers)
    [(3, 3), (5, 5)] [(5, 1), (8, 1)] {3, 5} {5, 8} impPsiDays where
  bound0 := by norm_num
  bound1 := by norm_num
  bound64 := by norm_num
  wide := by norm_num
  weights k h _ := ⟨by simpa using h, by norm_num, by simp⟩
  coins1 := by
    intro d hd
    simp only [impPsiDays, List.mem_cons, List.not_mem_nil, or_false] at hd
    subst hd
    exact toyRound_wf41 _ _ [3] [] rfl rfl (by norm_num) (by norm_num)
  coins2 := by
    intro d hd
    simp only [impPsiDays, List.mem_cons, List.not_mem_nil, or_false] at hd
    subst hd
    exact toyRound_wf41 _ _ [4] [0] rfl rfl (by norm_num) (by norm_num)
  shuffle := impPsiDays_adm.shuffle
  x := by decide
  y := by decide
  start0 := impPsiDays_adm.start0
  start1 := impPsiDays_adm.start1
  range0 := by decide
  range1 := by decide
  valid0 := ⟨⟨by decide, by decide, by decide, by decide, by decide, by decide⟩, trivial⟩
  valid1 := ⟨⟨by decide, by decide, by decide, by decide, by decide, by decide⟩, trivial⟩
  sizeX := impPsiDays_adm.sizeX
  sizeY := impPsiDays_adm.sizeY

theorem delFiles_of41 {n0 n1 : Nat} (k0 k1 : DKeys) {X Y : List EP} (a b : List Nat) (la : X.length = a.length)
    (lb : Y.length = b.length) (hn0 : 51 ≤ n0) (hn1 : 51 ≤ n1) {f0 f1 : TreeFiles} {l0 l1 : List EP}
    (h0 : genDel (fun _ => none) k0.sk toyHash 4 1 X (delCoins (a.map toyHash)) = .ok (f0, l0))
    (h1 : genDel (fun _ => none) k1.sk toyHash 4 1 Y (delCoins (b.map toyHash)) = .ok (f1, l1)) :
    SetupFilesDel (fun _ => none) k0 k1 toyHash 41 n0 n1 4 1 X Y f0 f1 l0 l1 :=
  ⟨⟨_, delCoins_wf41 _ a la hn0, h0⟩, ⟨_, delCoins_wf41 _ b lb hn1, h1⟩⟩

theorem impPsiDays_usable : ∀ d ∈ impPsiDays, d.coins.Usable 41 (17 * mers) (19 * mers) := by
  intro d hd
  simp only [impPsiDays, List.mem_cons, List.not_mem_nil, or_false] at hd
  subst hd
  exact psiCoins_usable _ _ _ _ _ (by norm_num) (by norm_num)

/-- Intersection with deletions: generation and import succeed; the run ends normally or stops where a hash collided. -/
example : ∃ f0 f1 l0 l1 s0 s1, genDel (fun _ => none) bsk0 toyHash 4 1 [(3, 3), (5, 5)] (delCoins ([0, 1].map toyHash)) = .ok (f0, l0) ∧
    genDel (fun _ => none) bsk1 toyHash 4 1 [(5, 1), (8, 1)] (delCoins ([1, 2].map toyHash)) = .ok (f1, l1) ∧
    importDel f0 f1 l0 l1 = .ok (s0, s1) ∧
    ((∃ s, runDelPsiFrom toyRo (fun _ => none) toyHash ⟨bsk0, bpk1⟩ ⟨bsk1, bpk0⟩ ⟨s0, s1, 0, [], [], []⟩ impPsiDays = .ok s) ∨
     StopsAt toyRo (fun _ => none) toyHash ⟨bsk0, bpk1⟩ ⟨bsk1, bpk0⟩ ⟨s0, s1, 0, [], [], []⟩ impPsiDays
      (fun x => ∃ f ∈ x.phases, ¬ f.Clean toyRo)) := by
  have big : 51 ≤ 17 * mers ∧ 51 ≤ 19 * mers := by norm_num [mers]
  have g0 := bigKeys.own0
  have g1 := bigKeys.own1
  dsimp only at g0 g1
  obtain ⟨⟨f0, l0⟩, h0⟩ := genDel_ok g0 [(3, 3), (5, 5)] [0, 1] rfl (by decide) (by decide) (by decide) (by decide) big.1
  obtain ⟨⟨f1, l1⟩, h1⟩ := genDel_ok g1 [(5, 1), (8, 1)] [1, 2] rfl (by decide) (by decide) (by decide) (by decide) big.2
  have hf := delFiles_of41 (n0 := 17 * mers) (n1 := 19 * mers) ⟨bsk0, bpk1⟩ ⟨bsk1, bpk0⟩
    (X := [(3, 3), (5, 5)]) (Y := [(5, 1), (8, 1)]) [0, 1] [1, 2] rfl rfl
    big.1 big.2 (f0 := f0) (f1 := f1) (l0 := l0) (l1 := l1) (by dsimp only; exact h0) (by dsimp only; exact h1)
  obtain ⟨s0, s1, a, b⟩ := C83_deletion_psi_only bigKeys toyRo toyHash toyHash_len (fun k => (k : Int)) (fun _ => 1) 41 4 1 [(3, 3), (5, 5)] [(5, 1), (8, 1)] f0 f1 l0 l1 hf {3, 5} {5, 8}
    impPsiDays impPsiDays_adm41 impPsiDays_usable (by decide +kernel) (by decide +kernel)
  refine ⟨f0, f1, l0, l1, s0, s1, by exact h0, by exact h1, by exact a, ?_⟩
  rcases b with ⟨s, h, _⟩ | ⟨_, ⟨x, _, hx⟩ | ⟨pre, d, post, s', x, e, a, b, _, c⟩⟩
  · exact Or.inl ⟨s, h⟩
  · have := toyRo_long x; omega
  · exact Or.inr ⟨pre, d, post, s', x, e, a, b, c (by decide +kernel) (by decide +kernel)⟩

end Upsi.Setup
