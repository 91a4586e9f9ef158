import Verif.Proto.DelProps
import Verif.Proto.SSExamples
/- Non-vacuity of C46: a concrete history with deletions, moduli `7 * 11` and `11 * 13`. -/
namespace Upsi.Proto.Examples
open Upsi Upsi.Tree Upsi.Tree.Props Upsi.Num Upsi.Paillier Upsi.Proto

theorem primes_11_13 : Primes 11 13 1 :=
  ⟨by norm_num, by norm_num, by norm_num, by norm_num, by norm_num, by norm_num, by norm_num, by norm_num⟩

/-- The key a constructor returned. -/
def getOk {α : Type} (x : Outcome α) (h : x.isOk = true) : α :=
  match x, h with
  | .ok a, _ => a

theorem getOk_eq {α : Type} {x : Outcome α} {h : x.isOk = true} : x = .ok (getOk x h) := by
  cases x with
  | ok a => rfl
  | _ => simp [Outcome.isOk] at h

def sk0 : Private := getOk (Private.new 20 (7 : Nat) (11 : Nat) 1) (by decide +kernel)
def sk1 : Private := getOk (Private.new 20 (11 : Nat) (13 : Nat) 1) (by decide +kernel)
def pk0 : Public := getOk (Public.new 2 ((7 * 11 : Nat) : Int) 1) (by decide +kernel)
def pk1 : Public := getOk (Public.new 2 ((11 * 13 : Nat) : Int) 1) (by decide +kernel)

theorem toyKeys : Keys 7 11 11 13 (fun _ => none) ⟨sk0, pk1⟩ ⟨sk1, pk0⟩ where
  own0 := ⟨primes_7_11, simple_mont, by
    obtain ⟨k, hk, hok⟩ := public_new primes_7_11 2 (by norm_num)
    have := getOk_eq (x := Public.new 2 ((7 * 11 : Nat) : Int) 1) (h := by decide +kernel)
    have := Outcome.ok.inj (hk.symm.trans this)
    show PublicOK _ _ pk0
    rw [pk0, ← this]; exact hok, private_new primes_7_11 (getOk_eq (x := Private.new 20 (7 : Nat) (11 : Nat) 1) (h := by decide +kernel))⟩
  own1 := ⟨primes_11_13, simple_mont, by
    obtain ⟨k, hk, hok⟩ := public_new primes_11_13 2 (by norm_num)
    have := getOk_eq (x := Public.new 2 ((11 * 13 : Nat) : Int) 1) (h := by decide +kernel)
    have := Outcome.ok.inj (hk.symm.trans this)
    show PublicOK _ _ pk1
    rw [pk1, ← this]; exact hok, private_new primes_11_13 (getOk_eq (x := Private.new 20 (11 : Nat) (13 : Nat) 1) (h := by decide +kernel))⟩

/-- An injective stand-in for the random oracle. -/
def toyRo (b : List UInt8) : Nat := 2 ^ 64 + ofBytes b

/-- Coins between 1 and 30. -/
def tiny (a b k : Nat) : Int := coin a b k % 30 + 1

def toyRound (h0 h1 : List (List Bool)) : RoundCoins where
  hsh0 := h0
  pads0 _ _ := (50, 0)
  enc0 i j k := tiny i j k
  path0 i := ⟨fun j => 40 + tiny i j 0, fun j => tiny i j 1⟩
  hsh1 := h1
  pads1 _ _ := (51, 0)
  enc1 i j k := tiny i j (k + 9)
  path1 i := ⟨fun j => 40 + tiny i j 2, fun j => tiny i j 3⟩

def toyGc (a : Nat) : GcCoins where
  bit i := tiny a i 0 % 2 == 0
  beta i := tiny a i 1
  coin i := tiny a i 2

/-- Day 1: `+3, +5` and `+5`; day 2: `-3, +8` and `+3, +8`; day 3: nothing and `-5`. -/
def toyDaysDel : List DayDelIn :=
  [⟨[(3, 1), (5, 1)], [(5, 1)], toyRound [toyHash 0, toyHash 1] [toyHash 1], toyGc 0, toyGc 1⟩,
   ⟨[(3, -1), (8, 1)], [(3, 1), (8, 1)], toyRound [toyHash 2, toyHash 5] [toyHash 0, toyHash 3], toyGc 2, toyGc 3⟩,
   ⟨[], [(5, -1)], toyRound [] [toyHash 9], toyGc 4, toyGc 5⟩]

/-- Executable form of `Phase.Clean`. -/
def cleanB (ro : List UInt8 → Nat) (f : Phase) : Bool :=
  f.compared.all (fun pr => !(bigNum2bool ro pr.1 72 == bigNum2bool ro pr.2 72) || pr.1 == pr.2) &&
    decide (2 * |centered f.modulus f.sumS + centered f.modulus f.sumR| < f.modulus)

theorem clean_of {ro : List UInt8 → Nat} {f : Phase} (h : cleanB ro f = true) : f.Clean ro := by
  simp only [cleanB, Bool.and_eq_true, List.all_eq_true, Bool.or_eq_true, Bool.not_eq_true', beq_eq_false_iff_ne,
    beq_iff_eq, decide_eq_true_eq] at h
  refine ⟨fun pr hpr he => ?_, h.2⟩
  rcases h.1 pr hpr with h | h
  · exact absurd he h
  · exact h

theorem toyRound_wf (xs ys : List EP) (hx hy : List Nat) (lx : xs.length = hx.length) (ly : ys.length = hy.length) :
    (toyRound (hx.map toyHash) (hy.map toyHash)).WF 50 (7 * 11) (11 * 13) xs ys where
  hsh0 := ⟨by simp [toyRound, lx], by
    intro h hh; simp only [toyRound, List.mem_map] at hh
    obtain ⟨a, _, rfl⟩ := hh; exact toyHash_len _⟩
  hsh1 := ⟨by simp [toyRound, ly], by
    intro h hh; simp only [toyRound, List.mem_map] at hh
    obtain ⟨a, _, rfl⟩ := hh; exact toyHash_len _⟩
  pads0 _ _ := by simp [toyRound]
  pads1 _ _ := by simp [toyRound]
  path0 i j := by simp only [toyRound, tiny]; omega
  path1 i j := by simp only [toyRound, tiny]; omega

theorem toyDaysDel_adm : DelAdmissible 50 (7 * 11) (11 * 13) toyDaysDel where
  bound0 := by norm_num
  bound1 := by norm_num
  coins := by
    intro d hd
    simp only [toyDaysDel, List.mem_cons, List.not_mem_nil, or_false] at hd
    rcases hd with rfl | rfl | rfl
    · exact toyRound_wf _ _ [0, 1] [1] rfl rfl
    · exact toyRound_wf _ _ [2, 5] [0, 3] rfl rfl
    · exact toyRound_wf _ _ [] [9] rfl rfl
  x := by simp [delX, toyDaysDel]
  y := by simp [delY, toyDaysDel]
  sizeX := by simp [delX, toyDaysDel]
  sizeY := by simp [delY, toyDaysDel]

theorem toyDel_run : ∃ s, runDelDays toyRo (fun _ => none) toyHash ⟨sk0, pk1⟩ ⟨sk1, pk0⟩ 4 1 toyDaysDel = .ok s ∧
    (s.p0.lost == [] && s.p1.lost == [] && s.trace.all (cleanB toyRo)) = true :=
  holds_ok (by decide +kernel)

theorem toyX_carries : Carries (fun _ => 1) (delX toyDaysDel) {5, 8} := by
  intro k
  simp only [delX, toyDaysDel, List.flatMap_cons, List.flatMap_nil, List.append_nil, List.cons_append, List.nil_append,
    payloadSum_cons, Finset.mem_insert, Finset.mem_singleton]
  simp only [payloadSum, List.filter_nil, List.map_nil, List.sum_nil]
  split_ifs <;> omega

theorem toyY_carries : Carries (fun _ => 1) (delY toyDaysDel) {3, 8} := by
  intro k
  simp only [delY, toyDaysDel, List.flatMap_cons, List.flatMap_nil, List.append_nil, List.cons_append, List.nil_append,
    payloadSum_cons, Finset.mem_insert, Finset.mem_singleton]
  simp only [payloadSum, List.filter_nil, List.map_nil, List.sum_nil]
  split_ifs <;> omega

/-- The hypotheses of C46 are met by a run in which elements are added, deleted and matched; the
result is `|{5, 8} ∩ {3, 8}| = 1`. -/
example : ∃ s, runDelDays toyRo (fun _ => none) toyHash ⟨sk0, pk1⟩ ⟨sk1, pk0⟩ 4 1 toyDaysDel = .ok s ∧
    s.result.toNat = 1 := by
  obtain ⟨s, hs, hp⟩ := toyDel_run
  simp only [Bool.and_eq_true, beq_iff_eq, List.all_eq_true] at hp
  refine ⟨s, hs, ?_⟩
  have := C46_cardinality toyKeys toyRo toyHash toyHash_len 50 4 1 toyDaysDel toyDaysDel_adm s hs hp.1.1 hp.1.2
    (fun f hf => clean_of (hp.2 f hf)) (by decide +kernel) (by decide +kernel) _ _ toyX_carries toyY_carries
  rw [this]; decide

/-- One day: both parties add element 3. -/
def wrapDay (β : Nat → Int) : List DayDelIn :=
  [⟨[(3, 1)], [(3, 1)], toyRound [toyHash 0] [toyHash 1], toyGc 0, ⟨fun _ => false, β, fun _ => 2⟩⟩]

/-- Why the no-wrap hypothesis is needed: with these shares the run completes without any loss or
collision, but party zero's result is `1 - 77` modulo `2^64` although the intersection has one element. -/
theorem C46_wrap_witness : ∃ s, runDelDays toyRo (fun _ => none) toyHash ⟨sk0, pk1⟩ ⟨sk1, pk0⟩ 4 1
      (wrapDay (fun i => if i = 0 then 35 else 1)) = .ok s ∧
    (s.p0.lost == [] && s.p1.lost == [] && s.result == UInt64.ofInt (1 - 77)) = true :=
  holds_ok (by decide +kernel)

/-- A share of zero, which `GenerateRandLessThan` may draw, makes the day fail: the sender then encrypts
`n - 0`, which is out of range. -/
theorem C46_zero_share_fails : (runDelDays toyRo (fun _ => none) toyHash ⟨sk0, pk1⟩ ⟨sk1, pk0⟩ 4 1
    (wrapDay (fun _ => 0))).isOk = false := by decide +kernel

end Upsi.Proto.Examples
