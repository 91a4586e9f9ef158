import Verif.Main.OnlyDel
import Verif.Main.DelEndExamples
import Verif.Proto.ProgressDelExamples
/- Non-vacuity of C85 for the protocols with deletions. -/
namespace Upsi.Main
open Upsi Upsi.Rec Upsi.Tree Upsi.Tree.Props Upsi.Proto Upsi.Setup Upsi.Wire Upsi.Data Upsi.Num Upsi.Paillier Upsi.Proto.Examples

theorem delSizes41 (start : Nat) (h : start ≤ 2) (func : Functionality) (hf : func = .CA ∨ func = .SUM ∨ func = .PSI) :
    DelSizesOK 1 41 8 1 (delFlags start func) :=
  { delSizes start h func hf with bound := by norm_num }

theorem delData_ok41 (start : Nat) (h : start = 0 ∨ start = 2) (func : Functionality) : DelDrawsOK 1 41 1 4 start 10 func (delData start) := by
  rcases h with rfl | rfl <;>
    exact ⟨by decide, by decide, by decide, by decide, by decide, by unfold DigitString; decide, fun _ j => by simp [delData], fun _ => by decide⟩

theorem delRand_ok41 (start : Nat) (h : start = 0 ∨ start = 2) (func : Functionality) {p0 q0 p1 q1 : Nat} (h0 : Primes p0 q0 1)
    (h1 : Primes p1 q1 1) (n0 : 51 ≤ p0 * q0) (n1 : 51 ≤ p1 * q1) : (delRand start p0 q0 p1 q1).OK 1 41 (delFlags start func) where
  primes0 := h0
  primes1 := h1
  draws := delData_ok41 start h func
  hsh0 := (delRand_ok start h func h0 h1 n0 n1).hsh0
  hsh1 := (delRand_ok start h func h0 h1 n0 n1).hsh1
  pads0 i j := by simp only [delRand, delCoins]; omega
  pads1 i j := by simp only [delRand, delCoins]; omega

theorem toyRound_day41 {n0 n1 : Nat} (h0 : 77 ≤ n0) (h1 : 77 ≤ n1) (a b : Nat) : RoundCoins.Day 41 n0 n1 4 (toyRound (fourHash a) (fourHash b)) where
  hsh0 := fourHash_len a
  hsh1 := fourHash_len b
  pads0 _ _ := by simp only [toyRound]; omega
  pads1 _ _ := by simp only [toyRound]; omega
  path0 := (toyRound_day h0 h1 a b).path0
  path1 := (toyRound_day h0 h1 a b).path1

theorem key_found {p q : Nat} (h : (Private.new 20 p q 1).isOk = true) : ∃ sk, Private.new 20 p q 1 = .ok sk := by
  cases e : Private.new 20 p q 1 with
  | ok k => exact ⟨k, rfl⟩
  | _ => rw [e] at h; simp [Outcome.isOk] at h

/-- The hypotheses of C85 are met with and without initial elements; the stash holds everything. -/
example (start : Nat) (h : start = 0 ∨ start = 2) : ∃ o,
    setupMainDel (fun _ => none) 20 toyHash 8 1 (delFlags start .CA) (delRand start 7 11 11 13) delFS = .ok o ∧
    mainDel toyRo (fun _ => none) 20 2 2 toyHash 8 1 (.of (delFlags start .CA) .CA) delDay o.fs ≠ .abort ∧
    mainDel toyRo (fun _ => none) 20 2 2 toyHash 8 1 (.of (delFlags start .CA) .CA) delDay o.fs ≠ .ub := by
  obtain ⟨r, hr, -⟩ := endDel_run start h
  obtain ⟨h1, -⟩ := delBoth_ok hr
  refine ⟨_, h1, ?_⟩
  have hb : ((delFlags start .CA).total : Int) * (delFlags start .CA).valueBound < 77 := by rcases h with rfl | rfl <;> decide
  have hb2 : 2 * (((delFlags start .CA).total : Int) * (delFlags start .CA).valueBound * (delFlags start .CA).total) < 77 := by
    rcases h with rfl | rfl <;> decide
  rcases C85_deletion_small toyRo (fun _ => none) simple_mont 20 toyHash toyHash_len 1 41 8 1 (delFlags start .CA)
    (delSizes41 start (by omega) .CA (Or.inl rfl)) (by simp [delFlags]) (delRand start 7 11 11 13)
    (delRand_ok41 start h .CA primes_7_11 primes_11_13 (by norm_num) (by norm_num)) (by simp [delRand]) (by simp [delRand])
    (by simp only [delRand]; omega) (by simp only [delRand]; omega) (by simp only [delRand]; omega) (by simp only [delRand]; omega)
    2 2 (by simp only [delRand]; decide) (by simp only [delRand]; decide)
    (key_found (p := 7) (q := 11) (by decide +kernel)) (key_found (p := 11) (q := 13) (by decide +kernel)) delDay
    (fun i _ => ⟨toyRound_day41 (by norm_num [delRand]) (by norm_num [delRand]) i (i + 1),
      ⟨toyRound_usable _ _ (by norm_num [delRand]) (by norm_num [delRand]), toyGc_usable _ (by norm_num [delRand]), toyGc_usable _ (by norm_num [delRand])⟩⟩)
    delFS r.1 h1 .CA (Or.inl rfl) (fun x _ => by unfold toyRo; omega) (by rcases h with rfl | rfl <;> decide)
    with e | ⟨s, ns, e, -⟩ <;> rw [e] <;> simp

/-- The case of a normal end occurs. -/
example (start : Nat) (h : start = 0 ∨ start = 2) : ∃ o s,
    setupMainDel (fun _ => none) 20 toyHash 8 1 (delFlags start .CA) (delRand start 7 11 11 13) delFS = .ok o ∧
    mainDel toyRo (fun _ => none) 20 2 2 toyHash 8 1 (.of (delFlags start .CA) .CA) delDay o.fs = .ok s := by
  obtain ⟨r, hr, -⟩ := endDel_run start h
  obtain ⟨h1, h2⟩ := delBoth_ok hr
  exact ⟨_, _, h1, h2⟩

/-- And for the intersection. -/
example : ∃ o, setupMainDel (fun _ => none) 20 toyHash 8 1 (delFlags 2 .PSI) (delRand 2 17 mers 19 mers) delFS = .ok o ∧
    mainDelPsi toyRo (fun _ => none) 20 2 2 toyHash 8 1 (.of (delFlags 2 .PSI) .PSI) psiDay o.fs ≠ .abort := by
  obtain ⟨r, hr, hp⟩ := endDelPsi_run
  simp only [Bool.and_eq_true, beq_iff_eq, List.all_eq_true] at hp
  obtain ⟨⟨⟨⟨⟨⟨a, b⟩, p⟩, u⟩, v⟩, w⟩, x⟩ := hp
  obtain ⟨h1, -⟩ := delBoth_ok hr
  refine ⟨_, h1, ?_⟩
  rcases C85_deletion_psi toyRo (fun _ => none) simple_mont 20 toyHash toyHash_len 1 41 8 1 (delFlags 2 .PSI)
    (delSizes41 2 (by omega) .PSI (Or.inr (Or.inr rfl))) rfl (delRand 2 17 mers 19 mers)
    (delRand_ok41 2 (Or.inr rfl) .PSI primes_17 primes_19 (by norm_num) (by norm_num)) (by norm_num [delRand, mers]) (by norm_num [delRand, mers])
    (by norm_num [delRand, mers]) (by norm_num [delRand, mers, delFlags, DelSetupFlags.total]) (by norm_num [delRand, mers, delFlags, DelSetupFlags.total])
    2 2 (by simp only [delRand]; decide +kernel) (by simp only [delRand]; decide +kernel)
    (key_found (by decide +kernel)) (key_found (by decide +kernel)) psiDay
    (fun i _ => ⟨toyRound_day41 (by norm_num [delRand]) (by norm_num [delRand]) i (i + 1),
      toyRound_day41 (by norm_num [delRand]) (by norm_num [delRand]) (i + 2) (i + 3), fun l => List.reverse_perm l,
      psiCoins_usable _ _ _ _ _ (by norm_num [delRand]) (by norm_num [delRand])⟩)
    delFS r.1 h1 a b .PSI rfl with e | ⟨s, ns, e, -⟩ | ⟨e, -⟩ <;> rw [e] <;> simp

/-- `C85_deletion_psi_small`: no abort, and no undefined behaviour from the random oracle. -/
example : ∃ o, setupMainDel (fun _ => none) 20 toyHash 8 1 (delFlags 2 .PSI) (delRand 2 17 mers 19 mers) delFS = .ok o ∧
    mainDelPsi toyRo (fun _ => none) 20 2 2 toyHash 8 1 (.of (delFlags 2 .PSI) .PSI) psiDay o.fs ≠ .abort := by
  obtain ⟨r, hr, hp⟩ := endDelPsi_run
  obtain ⟨h1, -⟩ := delBoth_ok hr
  refine ⟨_, h1, ?_⟩
  rcases C85_deletion_psi_small toyRo (fun _ => none) simple_mont 20 toyHash toyHash_len 1 41 8 1 (delFlags 2 .PSI)
    (delSizes41 2 (by omega) .PSI (Or.inr (Or.inr rfl))) rfl (delRand 2 17 mers 19 mers)
    (delRand_ok41 2 (Or.inr rfl) .PSI primes_17 primes_19 (by norm_num) (by norm_num)) (by norm_num [delRand, mers]) (by norm_num [delRand, mers])
    (by norm_num [delRand, mers]) (by norm_num [delRand, mers, delFlags, DelSetupFlags.total]) (by norm_num [delRand, mers, delFlags, DelSetupFlags.total])
    2 2 (by simp only [delRand]; decide +kernel) (by simp only [delRand]; decide +kernel)
    (key_found (by decide +kernel)) (key_found (by decide +kernel)) psiDay
    (fun i _ => ⟨toyRound_day41 (by norm_num [delRand]) (by norm_num [delRand]) i (i + 1),
      toyRound_day41 (by norm_num [delRand]) (by norm_num [delRand]) (i + 2) (i + 3), fun l => List.reverse_perm l,
      psiCoins_usable _ _ _ _ _ (by norm_num [delRand]) (by norm_num [delRand])⟩)
    delFS r.1 h1 .PSI rfl (fun x _ => by unfold toyRo; omega) (by decide) with e | ⟨s, ns, e, -⟩ | ⟨e, -⟩ <;> rw [e] <;> simp

end Upsi.Main
