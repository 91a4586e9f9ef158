import Verif.Proto.DelPsiProps
import Verif.Proto.DelExamples
import Mathlib.NumberTheory.LucasLehmer
/- Non-vacuity of C47: concrete histories with moduli `17 * (2^61 - 1)` and `19 * (2^61 - 1)`, and the
witnesses that the side conditions are needed. -/
namespace Upsi.Proto.Examples
open Upsi Upsi.Tree Upsi.Tree.Props Upsi.Num Upsi.Paillier Upsi.Proto

/-- `2^61 - 1`. -/
abbrev mers : Nat := 2305843009213693951

theorem mers_prime : Nat.Prime mers := by
  have : (mersenne 61).Prime := lucas_lehmer_sufficiency _ (by simp) (by norm_num)
  exact this

theorem primes_17 : Primes 17 mers 1 :=
  ⟨by norm_num, mers_prime, by norm_num, by norm_num, by norm_num, by norm_num, by norm_num, by norm_num⟩
theorem primes_19 : Primes 19 mers 1 :=
  ⟨by norm_num, mers_prime, by norm_num, by norm_num, by norm_num, by norm_num, by norm_num, by norm_num⟩

def bsk0 : Private := getOk (Private.new 20 (17 : Nat) (mers : Nat) 1) (by decide +kernel)
def bsk1 : Private := getOk (Private.new 20 (19 : Nat) (mers : Nat) 1) (by decide +kernel)
def bpk0 : Public := getOk (Public.new 2 ((17 * mers : Nat) : Int) 1) (by decide +kernel)
def bpk1 : Public := getOk (Public.new 2 ((19 * mers : Nat) : Int) 1) (by decide +kernel)

theorem keys_of {p0 q0 p1 q1 : Nat} (h0 : Primes p0 q0 1) (h1 : Primes p1 q1 1) {s0 s1 : Private} {k0 k1 : Public}
    (g0 : Int.gcd 2 ((p0 * q0 : Nat) : Int) = 1) (g1 : Int.gcd 2 ((p1 * q1 : Nat) : Int) = 1)
    (e0 : Public.new 2 ((p0 * q0 : Nat) : Int) 1 = .ok k0) (e1 : Public.new 2 ((p1 * q1 : Nat) : Int) 1 = .ok k1)
    (f0 : Private.new 20 p0 q0 1 = .ok s0) (f1 : Private.new 20 p1 q1 1 = .ok s1) :
    Keys p0 q0 p1 q1 (fun _ => none) ⟨s0, k1⟩ ⟨s1, k0⟩ where
  own0 := ⟨h0, simple_mont, by
    obtain ⟨k', hk', hok⟩ := public_new h0 2 g0
    rw [← Outcome.ok.inj (hk'.symm.trans e0)]; exact hok, private_new h0 f0⟩
  own1 := ⟨h1, simple_mont, by
    obtain ⟨k', hk', hok⟩ := public_new h1 2 g1
    rw [← Outcome.ok.inj (hk'.symm.trans e1)]; exact hok, private_new h1 f1⟩

theorem bpk0_eq : Public.new 2 ((17 * mers : Nat) : Int) 1 = .ok bpk0 := getOk_eq
theorem bpk1_eq : Public.new 2 ((19 * mers : Nat) : Int) 1 = .ok bpk1 := getOk_eq
theorem bsk0_eq : Private.new 20 (17 : Nat) (mers : Nat) 1 = .ok bsk0 := getOk_eq
theorem bsk1_eq : Private.new 20 (19 : Nat) (mers : Nat) 1 = .ok bsk1 := getOk_eq

theorem bigKeys : Keys 17 mers 19 mers (fun _ => none) ⟨bsk0, bpk1⟩ ⟨bsk1, bpk0⟩ :=
  keys_of primes_17 primes_19 (by decide +kernel) (by decide +kernel) bpk0_eq bpk1_eq bsk0_eq bsk1_eq

def psiCoins (h0 h1 g0 g1 : List (List Bool)) (sh : List Int → List Int) : DelPsiCoins where
  round1 := toyRound h0 h1
  round2 := toyRound g0 g1
  gc0 i := toyGc i
  gc1 i := toyGc (i + 100)
  enc0 i j := tiny i j 5
  enc1 i := tiny i 0 6
  shuffle := sh

theorem toyRound_wf' (xs ys : List EP) (hx hy : List Nat) (lx : xs.length = hx.length) (ly : ys.length = hy.length) :
    (toyRound (hx.map toyHash) (hy.map toyHash)).WF 50 (17 * mers) (19 * mers) xs ys where
  hsh0 := ⟨by simp [toyRound, lx], by
    intro h hh; simp only [toyRound, List.mem_map] at hh
    obtain ⟨a, _, rfl⟩ := hh; exact toyHash_len _⟩
  hsh1 := ⟨by simp [toyRound, ly], by
    intro h hh; simp only [toyRound, List.mem_map] at hh
    obtain ⟨a, _, rfl⟩ := hh; exact toyHash_len _⟩
  pads0 _ _ := by norm_num [toyRound, mers]
  pads1 _ _ := by norm_num [toyRound, mers]
  path0 i j := by simp only [toyRound, tiny, mers]; omega
  path1 i j := by simp only [toyRound, tiny, mers]; omega

/-- Day 1: party zero adds 3 and 5, party one adds 5 and 8; day 2: party zero adds 8, party one deletes
5 and adds 3.  Party zero's payloads are the elements themselves, party one's are 1. -/
def psiDays : List DayPsiIn :=
  [⟨[(3, 3), (5, 5)], [(5, 1), (8, 1)], psiCoins [] [] [toyHash 0, toyHash 1] [toyHash 1, toyHash 7] List.reverse⟩,
   ⟨[(8, 8)], [(5, -1), (3, 1)], psiCoins [] [toyHash 3] [toyHash 2] [toyHash 0] id⟩]

theorem psiDays_adm : PsiAdmissible (fun k => (k : Int)) (fun _ => 1) 50 (17 * mers) (19 * mers) psiDays where
  bound0 := by norm_num
  bound1 := by norm_num
  bound64 := by norm_num
  wide := by norm_num
  weights k h _ := ⟨by simpa using h, by norm_num, by simp⟩
  coins1 := by
    intro d hd
    simp only [psiDays, List.mem_cons, List.not_mem_nil, or_false] at hd
    rcases hd with rfl | rfl
    · exact toyRound_wf' _ _ [] [] rfl rfl
    · exact toyRound_wf' _ _ [] [3] rfl rfl
  coins2 := by
    intro d hd
    simp only [psiDays, List.mem_cons, List.not_mem_nil, or_false] at hd
    rcases hd with rfl | rfl
    · exact toyRound_wf' _ _ [0, 1] [1, 7] rfl rfl
    · exact toyRound_wf' _ _ [2] [0] rfl rfl
  shuffle := by
    intro d hd l
    simp only [psiDays, List.mem_cons, List.not_mem_nil, or_false] at hd
    rcases hd with rfl | rfl
    · exact List.reverse_perm l
    · exact List.Perm.refl l
  valid0 := by
    refine ⟨⟨by decide, by decide, by decide, by decide, by decide, by decide⟩,
      ⟨by decide, by decide, by decide, by decide, by decide, by decide⟩, trivial⟩
  valid1 := by
    refine ⟨⟨by decide, by decide, by decide, by decide, by decide, by decide⟩,
      ⟨by decide, by decide, by decide, by decide, by decide, by decide⟩, trivial⟩
  sizeX := by simp [psiDays]
  sizeY := by simp [psiDays]

theorem psi_run : ∃ s, runDelPsi toyRo (fun _ => none) toyHash ⟨bsk0, bpk1⟩ ⟨bsk1, bpk0⟩ 4 1 psiDays = .ok s ∧
    (s.p0.lost == [] && s.p1.lost == [] && s.trace.all (cleanB toyRo)) = true :=
  holds_ok (by decide +kernel)

/-- The hypotheses of C47 are met by a two-day run with a deletion; the output is `{3, 8}`. -/
example : ∃ s, runDelPsi toyRo (fun _ => none) toyHash ⟨bsk0, bpk1⟩ ⟨bsk1, bpk0⟩ 4 1 psiDays = .ok s ∧
    s.result.toNat = 2 ∧ Reports s.inter {3, 8} := by
  obtain ⟨s, hs, hp⟩ := psi_run
  simp only [Bool.and_eq_true, beq_iff_eq, List.all_eq_true] at hp
  refine ⟨s, hs, ?_, ?_⟩
  · rw [C47_cardinality bigKeys toyRo toyHash toyHash_len _ _ 50 4 1 psiDays psiDays_adm s hs hp.1.1 hp.1.2
      (fun f hf => clean_of (hp.2 f hf))]
    decide
  · have := C47_intersection bigKeys toyRo toyHash toyHash_len _ _ 50 4 1 psiDays psiDays_adm s hs hp.1.1 hp.1.2
      (fun f hf => clean_of (hp.2 f hf)) (Or.inr (by
        intro d hd
        simp only [psiDays, List.mem_cons, List.not_mem_nil, or_false] at hd
        rcases hd with rfl | rfl <;> exact ⟨by decide, by decide⟩))
    rw [show ({3, 8} : Finset Nat) = _ from (by decide : _ = holdings ∅ (psiDays.map (·.xs)) ∩ holdings ∅ (psiDays.map (·.ys)))]
    exact this

/-- Day 1: both parties add 3; day 2: party zero deletes 3 and adds it again, and the shuffle puts the
insertion before the removal. -/
def reAddDays (sh : List Int → List Int) : List DayPsiIn :=
  [⟨[(3, 3)], [(3, 1)], psiCoins [] [] [toyHash 0] [toyHash 1] id⟩,
   ⟨[(3, -3), (3, 3)], [], psiCoins [toyHash 2] [] [toyHash 4] [] sh⟩]

/-- Why `C47_intersection` needs its last hypothesis: an element that leaves and re-enters on the same
day is dropped from the reported set when the shuffle puts the insertion first — the count is still 1 and
both parties still hold 3, but the reported set is empty. -/
theorem C47_reorder_witness : ∃ s, runDelPsi toyRo (fun _ => none) toyHash ⟨bsk0, bpk1⟩ ⟨bsk1, bpk0⟩ 4 1
      (reAddDays List.reverse) = .ok s ∧
    (s.p0.lost == [] && s.p1.lost == [] && s.trace.all (cleanB toyRo) && s.result == 1 && s.inter == [] &&
      holdings ∅ ((reAddDays List.reverse).map (·.xs)) ∩ holdings ∅ ((reAddDays List.reverse).map (·.ys)) == {3}) = true :=
  holds_ok (by decide +kernel)

/-- With the other order of the same two updates the reported set is right. -/
example : ∃ s, runDelPsi toyRo (fun _ => none) toyHash ⟨bsk0, bpk1⟩ ⟨bsk1, bpk0⟩ 4 1 (reAddDays id) = .ok s ∧
    (s.result == 1 && s.inter == [3] && s.updates == [[3], [-3, 3]]) = true :=
  holds_ok (by decide +kernel)

/-- Element 0 is never reported: both parties hold it, but its contribution is zero. -/
theorem C47_zero_element_witness : ∃ s, runDelPsi toyRo (fun _ => none) toyHash ⟨bsk0, bpk1⟩ ⟨bsk1, bpk0⟩ 4 1
      [⟨[(0, 0)], [(0, 1)], psiCoins [] [] [toyHash 0] [toyHash 1] id⟩] = .ok s ∧
    (s.p0.lost == [] && s.p1.lost == [] && s.result == 0 && s.inter == []) = true :=
  holds_ok (by decide +kernel)

end Upsi.Proto.Examples
