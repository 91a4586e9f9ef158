import Verif.Setup.ImportSum
import Verif.Setup.ImportOg
import Verif.Setup.ImportDel
import Verif.Proto.SSExamples
import Verif.Proto.DelPsiExamples
/-
Non-vacuity of C60 and C62 and witnesses of the surprising parts: runs from generated and imported trees.
-/
namespace Upsi.Setup
open Upsi Upsi.ElGamal Upsi.Tree Upsi.Tree.Props Upsi.Num Upsi.Proto Upsi.Proto.Examples

/-! ### addition-only: `X0 = {3 ↦ 10, 5 ↦ 20}`, `Y0 = {5, 8}`, then party zero adds `8 ↦ 30` and party one 3 -/

def coinsX0 : TreeCoins (Nat × Int) := toyTreeCoins [toyHash 0, toyHash 1] (50, 0)
def coinsY0 : TreeCoins Nat := toyTreeCoins [toyHash 1, toyHash 2] 60

theorem coinsX0_wf : coinsX0.WF Prod.fst 50 toySetup.q [(3, 10), (5, 20)] :=
  ⟨⟨rfl, by
    intro y hy; simp only [coinsX0, toyTreeCoins, List.mem_cons, List.not_mem_nil, or_false] at hy
    rcases hy with rfl | rfl <;> exact toyHash_len _⟩,
    fun _ _ => by simp only [coinsX0, toyTreeCoins, toySetup]; omega⟩

theorem coinsY0_wf : coinsY0.WF id 50 toySetup.q [5, 8] :=
  ⟨⟨rfl, by
    intro y hy; simp only [coinsY0, toyTreeCoins, List.mem_cons, List.not_mem_nil, or_false] at hy
    rcases hy with rfl | rfl <;> exact toyHash_len _⟩,
    fun _ _ => by simp only [coinsY0, toyTreeCoins, toySetup, id]; omega⟩

def genToy0 := genAdd0 toyCodec65521 toyHash toySetup.pk 4 1 [(3, 10), (5, 20)] coinsX0
def coinsX0SS : TreeCoins (Nat × Int) := ⟨[toyHash 0, toyHash 1], fun _ _ => (50, 0), fun i j k => smallCoin (i + 10 * j) 6 k⟩
def genToy0SS := genAdd0SS toyCodec65521 (fun _ => none) toyA toyHash toySetup.pk 4 1 [(3, 10), (5, 20)] coinsX0SS
def genToy1 := genAdd1 toyCodec65521 toyHash toySetup.pk 4 1 [5, 8] coinsY0

def impDays (κ : Type) : List (DayIn (ZMod 65521) Nat κ) := [⟨[8], [3], toyCoins 50 [toyHash 2] [toyHash 0]⟩]
def impDaysSum : List (DayIn (ZMod 65521) (Nat × Int) (Ct (ZMod 65521))) :=
  [⟨[(8, 30)], [3], toyCoins (50, 0) [toyHash 2] [toyHash 0]⟩]
def impDaysSS : List (DayIn (ZMod 65521) (Nat × Int) Int) := [⟨[(8, 30)], [3], toyCoinsSS [toyHash 2] [toyHash 0]⟩]

theorem impDays_adm : AdmissibleFrom (κ := κ) toySetup id 50 [3, 5] [5, 8] (impDays κ) where
  bound := by simp [toySetup]
  coins := by
    intro d hd
    simp only [impDays, List.mem_cons, List.not_mem_nil, or_false] at hd
    subst hd
    exact toyCoins_wf id 50 rfl _ _ [2] [0] rfl rfl
  x := by simp [allX, impDays]
  y := by simp [allY, impDays]
  sizeX := by simp [allX, impDays]
  sizeY := by simp [allY, impDays]

theorem impDaysSum_adm : AdmissibleFrom toySetup Prod.fst 50 [(3, 10), (5, 20)] [5, 8] impDaysSum where
  bound := by simp [toySetup]
  coins := by
    intro d hd
    simp only [impDaysSum, List.mem_cons, List.not_mem_nil, or_false] at hd
    subst hd
    exact toyCoins_wf Prod.fst (50, 0) rfl _ _ [2] [0] rfl rfl
  x := by simp [allX, impDaysSum]
  y := by simp [allY, impDaysSum]
  sizeX := by simp [allX, impDaysSum]
  sizeY := by simp [allY, impDaysSum]

theorem impDaysSS_adm : AdmissibleFrom toySetup Prod.fst 50 [(3, 10), (5, 20)] [5, 8] impDaysSS where
  bound := by simp [toySetup]
  coins := by
    intro d hd
    simp only [impDaysSS, List.mem_cons, List.not_mem_nil, or_false] at hd
    subst hd
    have h := toyCoins_wf (κ := Int) Prod.fst (50, 0) rfl [(8, 30)] [3] [2] [0] rfl rfl
    exact ⟨h.hsh0, h.hsh1, h.pads0, h.pads1, h.shuffle, h.masks⟩
  x := by simp [allX, impDaysSS]
  y := by simp [allY, impDaysSS]
  sizeX := by simp [allX, impDaysSS]
  sizeY := by simp [allY, impDaysSS]

/-- Setup, import and run. -/
def impRun (gen0 : Outcome (TreeFiles × List (Nat × Int))) (imp : TreeFiles → TreeFiles → List (Nat × Int) → List Nat → Outcome σ)
    (run : σ → Outcome τ) : Outcome τ := do
  let (f0, l0) ← gen0
  let (f1, l1) ← genToy1
  let s ← imp f0 f1 l0 l1
  run s

def impCA : Outcome (StCA (ZMod 65521)) :=
  impRun genToy0 (fun f0 f1 l0 l1 => importAdd toyCodec65521 decNat (deserTreeCt toyCodec65521) f0 f1 (l0.map Prod.fst) l1)
    (fun s => runCAFrom toySetup toyCodec65521 toyHash ⟨s.1, s.2, 0⟩ (impDays Unit))

def impPSI : Outcome (StPSI (ZMod 65521)) :=
  impRun genToy0 (fun f0 f1 l0 l1 => importAdd toyCodec65521 decNat (deserTreeCt toyCodec65521) f0 f1 (l0.map Prod.fst) l1)
    (fun s => runPSIFrom toySetup toyCodec65521 toyCodec65521 toyHash ⟨s.1, s.2, [], []⟩ (impDays _))

def impSum : Outcome (StSum (ZMod 65521)) :=
  impRun genToy0 (fun f0 f1 l0 l1 => importAdd toyCodec65521 decNatPair (deserElGamal toyCodec65521) f0 f1 l0 l1)
    (fun s => runSumFrom toySetup toyCodec65521 50 toyHash ⟨s.1, s.2, 0, 0⟩ impDaysSum)

def impSS : Outcome (StSS (ZMod 65521)) :=
  impRun genToy0SS (fun f0 f1 l0 l1 => importAdd toyCodec65521 decNatPair (deserPaillier toyCodec65521) f0 f1 l0 l1)
    (fun s => runSSFrom toySetup toyCodec65521 (fun _ => none) toyA toyB toyHash ⟨s.1, s.2, [], []⟩ impDaysSS)

theorem impCA_ok : ∃ s, impCA = .ok s ∧ (s.p0.lost == [] && s.p1.lost == [] && s.cardinality == 2) = true :=
  holds_ok (by decide +kernel)

/-- **C60** (witness) Both 3 and 8 became common; the imported element 3 is printed as an empty string. -/
theorem C60_psi_empty_witness : ∃ s, impPSI = .ok s ∧
    (s.p0.lost == [] && s.p1.lost == [] && s.intersection == [none, some 8]) = true :=
  holds_ok (by decide +kernel)

theorem impSum_ok : ∃ s, impSum = .ok s ∧
    (s.p0.lost == [] && s.p1.lost == [] && s.cardinality == 2 && s.sum == 40) = true :=
  holds_ok (by decide +kernel)

/-- **C60** (witness) The shares of the imported common element 3 open to its value 10, those of the element
8 added during the run to the element. -/
theorem C60_shares_value_witness : ∃ s, impSS = .ok s ∧ (s.p0.lost == [] && s.p1.lost == [] &&
    List.zipWith (fun x y => (x + y) % 77) s.shares0 s.shares1 == [10, 8]) = true :=
  holds_ok (by decide +kernel)

theorem toy_files {f0 f1 : TreeFiles} {l0 : List (Nat × Int)} {l1 : List Nat} (h0 : genToy0 = .ok (f0, l0))
    (h1 : genToy1 = .ok (f1, l1)) :
    SetupFiles toySetup toyCodec65521 toyHash 50 4 1 [(3, 10), (5, 20)] [5, 8] f0 f1 l0 l1 :=
  ⟨⟨_, coinsX0_wf, h0⟩, ⟨_, coinsY0_wf, h1⟩⟩

theorem coinsX0SS_wf : coinsX0SS.WF Prod.fst 50 toySetup.q [(3, 10), (5, 20)] :=
  ⟨⟨rfl, by
    intro y hy; simp only [coinsX0SS, List.mem_cons, List.not_mem_nil, or_false] at hy
    rcases hy with rfl | rfl <;> exact toyHash_len _⟩,
    fun _ _ => by simp only [coinsX0SS, toySetup]; omega⟩

theorem toy_filesSS {f0 f1 : TreeFiles} {l0 : List (Nat × Int)} {l1 : List Nat} (h0 : genToy0SS = .ok (f0, l0))
    (h1 : genToy1 = .ok (f1, l1)) :
    SetupFilesSS toySetup toyCodec65521 (fun _ => none) toyA toyHash 50 4 1 [(3, 10), (5, 20)] [5, 8] f0 f1 l0 l1 :=
  ⟨⟨coinsX0SS, coinsX0SS_wf, h0⟩, ⟨_, coinsY0_wf, h1⟩⟩

theorem impRun_ok {gen0 : Outcome (TreeFiles × List (Nat × Int))}
    {imp : TreeFiles → TreeFiles → List (Nat × Int) → List Nat → Outcome σ} {run : σ → Outcome τ} {t : τ}
    (h : impRun gen0 imp run = .ok t) : ∃ f0 l0 f1 l1 s, gen0 = .ok (f0, l0) ∧ genToy1 = .ok (f1, l1) ∧
      imp f0 f1 l0 l1 = .ok s ∧ run s = .ok t := by
  simp only [impRun, Outcome.bind_eq_ok] at h
  obtain ⟨⟨f0, l0⟩, h0, ⟨f1, l1⟩, h1, s, h2, h3⟩ := h
  exact ⟨f0, l0, f1, l1, s, h0, h1, h2, h3⟩

/-- The hypotheses of `C60_cardinality` are met. -/
example : ∃ s, impCA = .ok s ∧ s.cardinality + 1 = 3 := by
  obtain ⟨s, h, hp⟩ := impCA_ok
  simp only [Bool.and_eq_true, beq_iff_eq] at hp
  obtain ⟨f0, l0, f1, l1, s1, h0, h1, h2, h3⟩ := impRun_ok h
  obtain ⟨a, b, hi, hr⟩ := C60_cardinality toySetup toyCodec65521 toyHash toyHash_len 50 4 1 _ _ f0 f1 l0 l1
    (toy_files h0 h1) (impDays Unit) impDays_adm (by decide) (by decide)
  obtain rfl := Outcome.ok.inj (h2.symm.trans hi)
  exact ⟨s, h, hr s h3 hp.1.1 hp.1.2⟩

/-- The hypotheses of `C60_psi` are met. -/
example : ∃ s, impPSI = .ok s ∧ (s.intersection ++ [none]).Perm [none, none, some 8] := by
  obtain ⟨s, h, hp⟩ := C60_psi_empty_witness
  simp only [Bool.and_eq_true, beq_iff_eq] at hp
  obtain ⟨f0, l0, f1, l1, s1, h0, h1, h2, h3⟩ := impRun_ok h
  obtain ⟨a, b, hi, hr⟩ := C60_psi toySetup toyCodec65521 toyCodec65521 toyHash toyHash_len 50 4 1 _ _ f0 f1 l0 l1
    (toy_files h0 h1) (impDays _) impDays_adm (by decide) (by decide)
  obtain rfl := Outcome.ok.inj (h2.symm.trans hi)
  exact ⟨s, h, hr s h3 hp.1.1 hp.1.2⟩

/-- The hypotheses of `C60_sum` are met: 60 in all, 20 of it already common at setup. -/
example : ∃ s, impSum = .ok s ∧ s.cardinality + 1 = 3 ∧ (s.sum.toNat : Int) = (60 - 20) % 2 ^ 64 := by
  obtain ⟨s, h, hp⟩ := impSum_ok
  simp only [Bool.and_eq_true, beq_iff_eq] at hp
  obtain ⟨f0, l0, f1, l1, s1, h0, h1, h2, h3⟩ := impRun_ok h
  obtain ⟨a, b, hi, hr⟩ := C60_sum toySetup toyCodec65521 50 toyHash toyHash_len 50 4 1 _ _ f0 f1 l0 l1
    (toy_files h0 h1) impDaysSum impDaysSum_adm (by decide) (by decide) (by decide) (by decide) (by decide)
  obtain rfl := Outcome.ok.inj (h2.symm.trans hi)
  exact ⟨s, h, hr s h3 hp.1.1.1 hp.1.1.2⟩

/-- The hypotheses of `C60_shares` are met. -/
example : ∃ s, impSS = .ok s ∧
    (List.zipWith (fun x y => (x + y) % 77) s.shares0 s.shares1 ++ [20]).Perm [10, 20, 8] := by
  obtain ⟨s, h, hp⟩ := C60_shares_value_witness
  simp only [Bool.and_eq_true, beq_iff_eq] at hp
  obtain ⟨f0, l0, f1, l1, s1, h0, h1, h2, h3⟩ := impRun_ok h
  obtain ⟨a, b, hi, hr⟩ := C60_shares toySetup toyCodec65521 toySSKeys toySSKeys toyHash toyHash_len 50 4 1 _ _ f0 f1 l0 l1
    (toy_filesSS h0 h1) impDaysSS impDaysSS_adm (by decide)
  obtain rfl := Outcome.ok.inj (h2.symm.trans hi)
  exact ⟨s, h, (hr s h3 hp.1.1 hp.1.2).2⟩

/-- **C60** (witness) Trees generated for another functionality are not usable for secret sharing, nor the
other way round: the party dies at start. -/
theorem C60_wrong_functionality_witness :
    (impRun genToy0 (fun f0 f1 l0 l1 => importAdd toyCodec65521 decNatPair (deserPaillier toyCodec65521) f0 f1 l0 l1)
      (fun s => .ok s) matches .abort) = true ∧
    (impRun genToy0SS (fun f0 f1 l0 l1 => importAdd toyCodec65521 decNatPair (deserElGamal toyCodec65521) f0 f1 l0 l1)
      (fun s => .ok s) matches .abort) = true := by
  constructor <;> decide +kernel

/-! ### with deletions: `X0 = {3, 5}`, `Y0 = {5, 8}`, then party zero deletes 5 and adds 8, party one adds 3 -/

def delCoins (h : List (List Bool)) : TreeCoins EP where
  hsh := h
  pads _ _ := (50, 0)
  enc i j k := tiny (i + 10 * j) 6 k

theorem delCoins_wf (X : List EP) (hs : List Nat) (hl : X.length = hs.length) {n : Nat} (hn : 51 ≤ n) :
    (delCoins (hs.map toyHash)).WF Prod.fst 50 n X :=
  ⟨⟨by simp [delCoins, hl], by
    intro h hh; simp only [delCoins, List.mem_map] at hh
    obtain ⟨a, _, rfl⟩ := hh; exact toyHash_len _⟩, fun _ _ => by simp only [delCoins]; omega⟩

theorem delFiles_of {n0 n1 : Nat} (k0 k1 : DKeys) {X Y : List EP} (a b : List Nat) (la : X.length = a.length)
    (lb : Y.length = b.length) (hn0 : 51 ≤ n0) (hn1 : 51 ≤ n1) {f0 f1 : TreeFiles} {l0 l1 : List EP}
    (h0 : genDel (fun _ => none) k0.sk toyHash 4 1 X (delCoins (a.map toyHash)) = .ok (f0, l0))
    (h1 : genDel (fun _ => none) k1.sk toyHash 4 1 Y (delCoins (b.map toyHash)) = .ok (f1, l1)) :
    SetupFilesDel (fun _ => none) k0 k1 toyHash 50 n0 n1 4 1 X Y f0 f1 l0 l1 :=
  ⟨⟨_, delCoins_wf _ a la hn0, h0⟩, ⟨_, delCoins_wf _ b lb hn1, h1⟩⟩

def impDel : Outcome StDel := do
  let (f0, l0) ← genDel (fun _ => none) sk0 toyHash 4 1 [(3, 1), (5, 1)] (delCoins ([0, 1].map toyHash))
  let (f1, l1) ← genDel (fun _ => none) sk1 toyHash 4 1 [(5, 1), (8, 1)] (delCoins ([1, 2].map toyHash))
  let s ← importDel f0 f1 l0 l1
  runDelFrom toyRo (fun _ => none) toyHash ⟨sk0, pk1⟩ ⟨sk1, pk0⟩ ⟨s.1, s.2, 0, []⟩
    [⟨[(5, -1)], [], toyRound [toyHash 3] [], toyGc 2, toyGc 3⟩]

/-- **C62** (witness) 5 was common at setup; after its deletion the reported cardinality is `2^64 - 1`. -/
theorem C62_wrap_witness : ∃ s, impDel = .ok s ∧ (s.p0.lost == [] && s.p1.lost == [] &&
    s.trace.all (cleanB toyRo) && s.result == 18446744073709551615) = true :=
  holds_ok (by decide +kernel)

def impDelPsi : Outcome StDelPsi := do
  let (f0, l0) ← genDel (fun _ => none) bsk0 toyHash 4 1 [(3, 3), (5, 5)] (delCoins ([0, 1].map toyHash))
  let (f1, l1) ← genDel (fun _ => none) bsk1 toyHash 4 1 [(5, 1), (8, 1)] (delCoins ([1, 2].map toyHash))
  let s ← importDel f0 f1 l0 l1
  runDelPsiFrom toyRo (fun _ => none) toyHash ⟨bsk0, bpk1⟩ ⟨bsk1, bpk0⟩ ⟨s.1, s.2, 0, [], [], []⟩
    [⟨[(5, -5), (8, 8)], [(3, 1)], psiCoins [toyHash 3] [] [toyHash 4] [toyHash 0] id⟩]

/-- **C62** (witness) The reported set contains the negation of 5, which was common at setup. -/
theorem C62_negated_witness : ∃ s, impDelPsi = .ok s ∧ (s.p0.lost == [] && s.p1.lost == [] &&
    s.trace.all (cleanB toyRo) && s.result == 1 && s.inter == [3, 8, -5]) = true :=
  holds_ok (by decide +kernel)

def impDelDays : List DayDelIn := [⟨[(5, -1)], [], toyRound [toyHash 3] [], toyGc 2, toyGc 3⟩]

theorem impDelDays_adm : DelAdmissibleFrom 50 (7 * 11) (11 * 13) [(3, 1), (5, 1)] [(5, 1), (8, 1)] impDelDays where
  bound0 := by norm_num
  bound1 := by norm_num
  coins := by
    intro d hd
    simp only [impDelDays, List.mem_cons, List.not_mem_nil, or_false] at hd
    subst hd
    exact toyRound_wf _ _ [3] [] rfl rfl
  x := by simp [delX, impDelDays]
  y := by simp [delY, impDelDays]
  sizeX := by simp [delX, impDelDays]
  sizeY := by simp [delY, impDelDays]

/-- The hypotheses of `C62_inner_product` are met. -/
example : ∃ s, impDel = .ok s ∧ s.result = UInt64.ofInt (0 - 1) := by
  obtain ⟨s, h, hp⟩ := C62_wrap_witness
  simp only [Bool.and_eq_true, beq_iff_eq, List.all_eq_true] at hp
  refine ⟨s, h, ?_⟩
  simp only [impDel, Outcome.bind_eq_ok] at h
  obtain ⟨⟨f0, l0⟩, h0, ⟨f1, l1⟩, h1, s1, h2, h3⟩ := h
  obtain ⟨a, b, hi, hr⟩ := C62_inner_product toyKeys toyRo toyHash toyHash_len 50 4 1 _ _ f0 f1 l0 l1
    ⟨⟨_, delCoins_wf _ [0, 1] rfl (by norm_num), h0⟩, ⟨_, delCoins_wf _ [1, 2] rfl (by norm_num), h1⟩⟩
    impDelDays impDelDays_adm (by decide +kernel) (by decide +kernel)
  obtain rfl := Outcome.ok.inj (h2.symm.trans hi)
  rw [hr s h3 hp.1.1.1 hp.1.1.2 (fun f hf => clean_of (hp.1.2 f hf))]
  decide +kernel

def impPsiDays : List DayPsiIn :=
  [⟨[(5, -5), (8, 8)], [(3, 1)], psiCoins [toyHash 3] [] [toyHash 4] [toyHash 0] id⟩]

theorem impPsiDays_adm : PsiAdmissibleFrom (fun k => (k : Int)) (fun _ => 1) 50 (17 * mers) (19 * mers)
    [(3, 3), (5, 5)] [(5, 1), (8, 1)] {3, 5} {5, 8} impPsiDays where
  bound0 := by norm_num
  bound1 := by norm_num
  bound64 := by norm_num
  wide := by norm_num
  weights k h _ := ⟨by simpa using h, by norm_num, by simp⟩
  coins1 := by
    intro d hd
    simp only [impPsiDays, List.mem_cons, List.not_mem_nil, or_false] at hd
    subst hd
    exact toyRound_wf' _ _ [3] [] rfl rfl
  coins2 := by
    intro d hd
    simp only [impPsiDays, List.mem_cons, List.not_mem_nil, or_false] at hd
    subst hd
    exact toyRound_wf' _ _ [4] [0] rfl rfl
  shuffle := by
    intro d hd l
    simp only [impPsiDays, List.mem_cons, List.not_mem_nil, or_false] at hd
    subst hd
    exact List.Perm.refl l
  x := by decide
  y := by decide
  start0 := by
    intro k
    simp only [payloadSum_cons, Finset.mem_insert, Finset.mem_singleton]
    simp only [payloadSum, List.filter_nil, List.map_nil, List.sum_nil]
    split_ifs <;> omega
  start1 := by
    intro k
    simp only [payloadSum_cons, Finset.mem_insert, Finset.mem_singleton]
    simp only [payloadSum, List.filter_nil, List.map_nil, List.sum_nil]
    split_ifs <;> omega
  range0 := by decide
  range1 := by decide
  valid0 := ⟨⟨by decide, by decide, by decide, by decide, by decide, by decide⟩, trivial⟩
  valid1 := ⟨⟨by decide, by decide, by decide, by decide, by decide, by decide⟩, trivial⟩
  sizeX := by simp [impPsiDays]
  sizeY := by simp [impPsiDays]

/-- The hypotheses of `C62_intersection` are met. -/
example : ∃ s, impDelPsi = .ok s ∧ s.result = UInt64.ofInt (2 - 1) ∧ s.inter.Nodup ∧ (-5 : Int) ∈ s.inter := by
  obtain ⟨s, h, hp⟩ := C62_negated_witness
  simp only [Bool.and_eq_true, beq_iff_eq, List.all_eq_true] at hp
  refine ⟨s, h, ?_⟩
  simp only [impDelPsi, Outcome.bind_eq_ok] at h
  obtain ⟨⟨f0, l0⟩, h0, ⟨f1, l1⟩, h1, s1, h2, h3⟩ := h
  have hf := delFiles_of (n0 := 17 * mers) (n1 := 19 * mers) ⟨bsk0, bpk1⟩ ⟨bsk1, bpk0⟩
    (X := [(3, 3), (5, 5)]) (Y := [(5, 1), (8, 1)]) [0, 1] [1, 2] rfl rfl
    (by norm_num [mers]) (by norm_num [mers]) (f0 := f0) (f1 := f1) (l0 := l0) (l1 := l1) (by dsimp only; exact h0) (by dsimp only; exact h1)
  obtain ⟨a, b, hi, hr⟩ := C62_intersection bigKeys toyRo toyHash toyHash_len _ _ 50 4 1 _ _ f0 f1 l0 l1 hf
    {3, 5} {5, 8} impPsiDays impPsiDays_adm
  obtain rfl := Outcome.ok.inj (h2.symm.trans hi)
  obtain ⟨r1, r2⟩ := hr s h3 hp.1.1.1.1 hp.1.1.1.2 (fun f hf => clean_of (hp.1.1.2 f hf))
  obtain ⟨r3, r4⟩ := r2 (Or.inr (by
    intro d hd
    simp only [impPsiDays, List.mem_cons, List.not_mem_nil, or_false] at hd
    subst hd
    exact ⟨by decide, by decide⟩))
  have hmem : (5 : Nat) ∈ (({3, 5} : Finset Nat) ∩ {5, 8}) \ (holdings {3, 5} (impPsiDays.map (·.xs)) ∩
      holdings {5, 8} (impPsiDays.map (·.ys))) := by decide +kernel
  exact ⟨r1.trans (by decide +kernel), r3, (r4 _).2 (Or.inr ⟨5, hmem, rfl⟩)⟩

/-- **C62** (witness) A negative payload in an initial set ends the setup program. -/
theorem C62_negative_initial_witness :
    (genDel (fun _ => none) sk0 toyHash 4 1 [(3, -1)] (delCoins ([0].map toyHash)) matches .abort) = true := by
  decide +kernel

end Upsi.Setup
