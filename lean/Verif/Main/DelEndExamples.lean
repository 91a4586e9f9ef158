import Verif.Main.DelEndProps
import Verif.Proto.DelPsiExamples
import Verif.Setup.ImportExamples
/- Non-vacuity of C75: setup and both parties of the protocols with deletions, run in the kernel over a file system. -/
namespace Upsi.Main
open Upsi Upsi.Rec Upsi.Tree Upsi.Tree.Props Upsi.Proto Upsi.Setup Upsi.Wire Upsi.Data Upsi.Num Upsi.Paillier Upsi.Proto.Examples

/-- One day of four updates per party, `start` initial elements per party. -/
def delFlags (start : Nat) (func : Functionality) : DelSetupFlags := ⟨1, 4, start, 10, 1536, func, "data/", "out/"⟩

/-- With two initial elements: both start with 1 and 2, party zero removes 1 and adds 3, 4, 5, party one removes 2 and adds 8, 9, 4.
Without: party zero adds 1, 3, 4, 5 and party one 3, 8, 4, 1. -/
def delData (start : Nat) : DelRand where
  shared := if start = 2 then [[49], [50]] else [[49]]
  diff0 := if start = 2 then [[51], [52], [53], [54]] else [[51], [52], [53]]
  diff1 := if start = 2 then [[55], [56], [57], [52]] else [[51], [56], [52]]
  payload _ := 1
  idx0 _ := 0
  idx1 _ := 1
  start0 _ := 0
  start1 _ := 0

def delRand (start p0 q0 p1 q1 : Nat) : DelSetupRand where
  p0 := p0
  q0 := q0
  p1 := p1
  q1 := q1
  data := delData start
  tree0 := delCoins ((List.range start).map toyHash)
  tree1 := delCoins ((List.range start).map toyHash)

def fourHash (a : Nat) : List (List Bool) := [toyHash a, toyHash (a + 3), toyHash (a + 5), toyHash (a + 8)]

def delDay (i : Nat) : DelCoins := ⟨toyRound (fourHash i) (fourHash (i + 1)), toyGc (2 * i), toyGc (2 * i + 1)⟩

def psiDay (i : Nat) : DelPsiCoins := psiCoins (fourHash i) (fourHash (i + 1)) (fourHash (i + 2)) (fourHash (i + 3)) List.reverse

def delFS : FS := ⟨fun _ => none, fun _ => true⟩

/-- Setup, then both parties. -/
def delBoth (start p0 q0 p1 q1 : Nat) (func : Functionality) (main : DelRunFlags → FS → Outcome σ) : Outcome (DelSetupOut × σ) := do
  let o ← setupMainDel (fun _ => none) 20 toyHash 8 1 (delFlags start func) (delRand start p0 q0 p1 q1) delFS
  let r ← main (.of (delFlags start func) func) o.fs
  pure (o, r)

theorem delBoth_ok {start p0 q0 p1 q1 : Nat} {func : Functionality} {main : DelRunFlags → FS → Outcome σ} {r}
    (h : delBoth start p0 q0 p1 q1 func main = .ok r) :
    setupMainDel (fun _ => none) 20 toyHash 8 1 (delFlags start func) (delRand start p0 q0 p1 q1) delFS = .ok r.1 ∧
    main (.of (delFlags start func) func) r.1.fs = .ok r.2 := by
  simp only [delBoth, Outcome.bind_eq_ok, Outcome.pure_eq, Outcome.ok.injEq] at h
  obtain ⟨o, h1, r', h2, rfl⟩ := h
  exact ⟨h1, h2⟩

theorem delSizes (start : Nat) (h : start ≤ 2) (func : Functionality) (hf : func = .CA ∨ func = .SUM ∨ func = .PSI) :
    DelSizesOK 1 50 8 1 (delFlags start func) where
  total := by simp only [delFlags]; omega
  days := by simp [delFlags]
  daily := by simp [delFlags]
  func := hf
  maxValue _ := by simp [delFlags]
  stash := by norm_num
  node := by norm_num
  len := by norm_num
  bound := by norm_num

theorem delData_ok (start : Nat) (h : start = 0 ∨ start = 2) (func : Functionality) : DelDrawsOK 1 50 1 4 start 10 func (delData start) := by
  rcases h with rfl | rfl <;>
    exact ⟨by decide, by decide, by decide, by decide, by decide, by unfold DigitString; decide, fun _ j => by simp [delData], fun _ => by decide⟩

theorem delRand_ok (start : Nat) (h : start = 0 ∨ start = 2) (func : Functionality) {p0 q0 p1 q1 : Nat} (h0 : Primes p0 q0 1)
    (h1 : Primes p1 q1 1) (n0 : 51 ≤ p0 * q0) (n1 : 51 ≤ p1 * q1) : (delRand start p0 q0 p1 q1).OK 1 50 (delFlags start func) where
  primes0 := h0
  primes1 := h1
  draws := delData_ok start h func
  hsh0 := ⟨by simp [delRand, delCoins, delFlags], by
    intro x hx; simp only [delRand, delCoins, List.mem_map] at hx
    obtain ⟨a, _, rfl⟩ := hx; exact toyHash_len _⟩
  hsh1 := ⟨by simp [delRand, delCoins, delFlags], by
    intro x hx; simp only [delRand, delCoins, List.mem_map] at hx
    obtain ⟨a, _, rfl⟩ := hx; exact toyHash_len _⟩
  pads0 i j := by simp only [delRand, delCoins]; omega
  pads1 i j := by simp only [delRand, delCoins]; omega

theorem fourHash_len (a : Nat) : (fourHash a).length = 4 ∧ ∀ h ∈ fourHash a, h.length = 256 := by
  refine ⟨rfl, fun h hh => ?_⟩
  simp only [fourHash, List.mem_cons, List.not_mem_nil, or_false] at hh
  rcases hh with rfl | rfl | rfl | rfl <;> exact toyHash_len _

theorem toyRound_day {n0 n1 : Nat} (h0 : 77 ≤ n0) (h1 : 77 ≤ n1) (a b : Nat) : RoundCoins.Day 50 n0 n1 4 (toyRound (fourHash a) (fourHash b)) where
  hsh0 := fourHash_len a
  hsh1 := fourHash_len b
  pads0 _ _ := by simp only [toyRound]; omega
  pads1 _ _ := by simp only [toyRound]; omega
  path0 i j := by simp only [toyRound, tiny]; omega
  path1 i j := by simp only [toyRound, tiny]; omega

theorem endDel_run (start : Nat) (h : start = 0 ∨ start = 2) :
    ∃ r, delBoth start 7 11 11 13 .CA (fun f fs => mainDel toyRo (fun _ => none) 20 2 2 toyHash 8 1 f delDay fs) = .ok r ∧
    (r.1.lost0 == [] && r.1.lost1 == [] && r.1.printed == (if start = 0 then 3 else -1) && r.2.1.p0.lost == [] && r.2.1.p1.lost == [] &&
      r.2.1.trace.all (cleanB toyRo)) = true := by
  rcases h with rfl | rfl <;> exact holds_ok (by decide +kernel)

theorem endDelPsi_run :
    ∃ r, delBoth 2 17 mers 19 mers .PSI (fun f fs => mainDelPsi toyRo (fun _ => none) 20 2 2 toyHash 8 1 f psiDay fs) = .ok r ∧
    (r.1.lost0 == [] && r.1.lost1 == [] && r.1.printed == -1 && r.2.1.p0.lost == [] && r.2.1.p1.lost == [] &&
      r.2.1.trace.all (cleanB toyRo) && r.2.1.inter == [-1, -2, 4]) = true :=
  holds_ok (by decide +kernel)

/-- The hypotheses of C75 are met: without initial elements three common elements are reported; starting with two common elements
both of which are then removed while one is added, setup prints `-1` and party zero `2^64 - 1`. -/
example (start : Nat) (h : start = 0 ∨ start = 2) : ∃ o s ns,
    setupMainDel (fun _ => none) 20 toyHash 8 1 (delFlags start .CA) (delRand start 7 11 11 13) delFS = .ok o ∧
    o.printed = (if start = 0 then 3 else -1) ∧
    mainDel toyRo (fun _ => none) 20 2 2 toyHash 8 1 (.of (delFlags start .CA) .CA) delDay o.fs = .ok (s, ns) ∧
    (shownDel s : Int) = (if start = 0 then 3 else 2 ^ 64 - 1) := by
  obtain ⟨r, hr, hp⟩ := endDel_run start h
  simp only [Bool.and_eq_true, beq_iff_eq, List.all_eq_true] at hp
  obtain ⟨⟨⟨⟨⟨a, b⟩, p⟩, u⟩, v⟩, w⟩ := hp
  obtain ⟨h1, h2⟩ := delBoth_ok hr
  refine ⟨_, r.2.1, r.2.2, h1, p, h2, ?_⟩
  have hb : 2 * (((delFlags start .CA).total : Int) * (delFlags start .CA).valueBound * (delFlags start .CA).total) < 77 := by
    rcases h with rfl | rfl <;> decide
  have := (C75_cardinality_sum toyRo (fun _ => none) simple_mont 20 toyHash toyHash_len 1 50 8 1 (delFlags start .CA)
    (delSizes start (by omega) .CA (Or.inl rfl)) (by simp [delFlags]) (delRand start 7 11 11 13)
    (delRand_ok start h .CA primes_7_11 primes_11_13 (by norm_num) (by norm_num)) (by simp [delRand]) (by simp [delRand])
    (by simp only [delRand]; omega) (by simp only [delRand]; omega) 2 2 (by simp only [delRand]; decide) (by simp only [delRand]; decide) delDay
    (fun i _ => toyRound_day (by norm_num [delRand]) (by norm_num [delRand]) i (i + 1)) delFS r.1 h1 a b .CA r.2.1 r.2.2 h2 u v
    (fun f hf => clean_of (w f hf))).1
  rw [this, p]
  rcases h with rfl | rfl <;> decide

/-- And for the intersection: setup and party zero both print `-1`; 1 and 2 are no longer common, 4 is. -/
example : ∃ o s ns,
    setupMainDel (fun _ => none) 20 toyHash 8 1 (delFlags 2 .PSI) (delRand 2 17 mers 19 mers) delFS = .ok o ∧ o.printed = -1 ∧
    mainDelPsi toyRo (fun _ => none) 20 2 2 toyHash 8 1 (.of (delFlags 2 .PSI) .PSI) psiDay o.fs = .ok (s, ns) ∧
    shownPsi s = (-1, some [-1, -2, 4]) := by
  obtain ⟨r, hr, hp⟩ := endDelPsi_run
  simp only [Bool.and_eq_true, beq_iff_eq, List.all_eq_true] at hp
  obtain ⟨⟨⟨⟨⟨⟨a, b⟩, p⟩, u⟩, v⟩, w⟩, x⟩ := hp
  obtain ⟨h1, h2⟩ := delBoth_ok hr
  refine ⟨_, r.2.1, r.2.2, h1, p, h2, ?_⟩
  obtain ⟨c1, c2, -⟩ := C75_intersection toyRo (fun _ => none) simple_mont 20 toyHash toyHash_len 1 50 8 1 (delFlags 2 .PSI)
    (delSizes 2 (by omega) .PSI (Or.inr (Or.inr rfl))) rfl (delRand 2 17 mers 19 mers)
    (delRand_ok 2 (Or.inr rfl) .PSI primes_17 primes_19 (by norm_num) (by norm_num)) (by norm_num [delRand, mers]) (by norm_num [delRand, mers])
    (by norm_num [delRand, mers]) 2 2 (by simp only [delRand]; decide +kernel) (by simp only [delRand]; decide +kernel) psiDay
    (fun i _ => ⟨toyRound_day (by norm_num [delRand]) (by norm_num [delRand]) i (i + 1),
      toyRound_day (by norm_num [delRand]) (by norm_num [delRand]) (i + 2) (i + 3), fun l => List.reverse_perm l⟩)
    delFS r.1 h1 a b .PSI r.2.1 r.2.2 h2 u v (fun f hf => clean_of (w f hf))
  rw [x] at c2
  exact Prod.ext (c1.trans p) (c2.trans rfl)

end Upsi.Main
