import Verif.Proto.ProgressDelProps
import Verif.Proto.DelPsiExamples
import Verif.Proto.ProgressExamples
import Verif.Proto.OgExamples
/- Non-vacuity of C63 for the protocols with deletions, and witnesses that its conditions are needed. -/
namespace Upsi.Proto.Examples
open Upsi Upsi.Tree Upsi.Tree.Props Upsi.Num Upsi.Paillier Upsi.Proto

theorem tiny_range (a b k : Nat) : 1 ≤ tiny a b k ∧ tiny a b k ≤ 30 := by
  unfold tiny; omega

theorem toyRound_usable (h0 h1 : List (List Bool)) {n0 n1 : Nat} (l0 : 77 ≤ n0) (l1 : 77 ≤ n1) :
    (toyRound h0 h1).Usable 41 n0 n1 where
  enc0 i j k := by have := tiny_range i j k; simp only [toyRound]; omega
  enc1 i j k := by have := tiny_range i j (k + 9); simp only [toyRound]; omega
  pads0 i j := by simp only [toyRound]; omega
  pads1 i j := by simp only [toyRound]; omega
  path0 i j := by have := tiny_range i j 0; have := tiny_range i j 1; simp only [toyRound]; omega
  path1 i j := by have := tiny_range i j 2; have := tiny_range i j 3; simp only [toyRound]; omega

theorem toyGc_usable (a : Nat) {n : Nat} (l : 77 ≤ n) : (toyGc a).Usable n := by
  intro i
  have := tiny_range a i 1
  have := tiny_range a i 2
  simp only [toyGc]; omega

theorem toyRound_wf41 (xs ys : List EP) (hx hy : List Nat) (lx : xs.length = hx.length) (ly : ys.length = hy.length)
    {n0 n1 : Nat} (l0 : 77 ≤ n0) (l1 : 77 ≤ n1) :
    (toyRound (hx.map toyHash) (hy.map toyHash)).WF 41 n0 n1 xs ys where
  hsh0 := ⟨by simp [toyRound, lx], by
    intro h hh; simp only [toyRound, List.mem_map] at hh
    obtain ⟨a, _, rfl⟩ := hh; exact toyHash_len _⟩
  hsh1 := ⟨by simp [toyRound, ly], by
    intro h hh; simp only [toyRound, List.mem_map] at hh
    obtain ⟨a, _, rfl⟩ := hh; exact toyHash_len _⟩
  pads0 _ _ := by simp only [toyRound]; omega
  pads1 _ _ := by simp only [toyRound]; omega
  path0 i j := by have := tiny_range i j 0; simp only [toyRound]; omega
  path1 i j := by have := tiny_range i j 2; simp only [toyRound]; omega

theorem toyDaysDel_adm41 : DelAdmissible 41 (7 * 11) (11 * 13) toyDaysDel where
  bound0 := by norm_num
  bound1 := by norm_num
  coins := by
    intro d hd
    simp only [toyDaysDel, List.mem_cons, List.not_mem_nil, or_false] at hd
    rcases hd with rfl | rfl | rfl
    · exact toyRound_wf41 _ _ [0, 1] [1] rfl rfl (by norm_num) (by norm_num)
    · exact toyRound_wf41 _ _ [2, 5] [0, 3] rfl rfl (by norm_num) (by norm_num)
    · exact toyRound_wf41 _ _ [] [9] rfl rfl (by norm_num) (by norm_num)
  x := by simp [delX, toyDaysDel]
  y := by simp [delY, toyDaysDel]
  sizeX := by simp [delX, toyDaysDel]
  sizeY := by simp [delY, toyDaysDel]

theorem toyDaysDel_usable : ∀ d ∈ toyDaysDel, d.coins.Usable 41 (7 * 11) (11 * 13) := by
  intro d hd
  simp only [toyDaysDel, List.mem_cons, List.not_mem_nil, or_false] at hd
  rcases hd with rfl | rfl | rfl <;>
    exact ⟨toyRound_usable _ _ (by norm_num) (by norm_num), toyGc_usable _ (by norm_num), toyGc_usable _ (by norm_num)⟩

theorem toyRo_long (x : Nat) : 2 ^ 64 ≤ toyRo (natBytes x) := by unfold toyRo; omega

/-- The hypotheses of `C63_deletion_small` are met by a three-day history with additions, deletions and matches. -/
example : ∃ s, runDelDays toyRo (fun _ => none) toyHash ⟨sk0, pk1⟩ ⟨sk1, pk0⟩ 4 1 toyDaysDel = .ok s ∧
    ((∀ f ∈ s.trace, f.Clean toyRo) → s.result = UInt64.ofInt (innerProduct (delX toyDaysDel) (delY toyDaysDel))) :=
  C63_deletion_small toyKeys toyRo toyHash toyHash_len 41 4 1 toyDaysDel toyDaysDel_adm41 toyDaysDel_usable
    (by decide +kernel) (by decide +kernel) (by decide +kernel) (by decide +kernel) (by decide +kernel) (fun x _ => toyRo_long x)

/-- The same history with no room in the stash: it still ends normally (here even without a loss). -/
example : ∃ s, runDelDays toyRo (fun _ => none) toyHash ⟨sk0, pk1⟩ ⟨sk1, pk0⟩ 1 1 toyDaysDel = .ok s := by
  rcases C63_deletion_only toyKeys toyRo toyHash toyHash_len 41 1 1 toyDaysDel toyDaysDel_adm41 toyDaysDel_usable
    (by decide +kernel) (by decide +kernel) with ⟨s, h, _⟩ | ⟨_, x, _, hx⟩
  · exact ⟨s, h⟩
  · have := toyRo_long x; omega

/-- An oracle that returns a short hash for everything. -/
def shortRo (_ : List UInt8) : Nat := 5

/-- Undefined behaviour does occur when a hash is short. -/
theorem C63_short_hash_witness : runDelDays shortRo (fun _ => none) toyHash ⟨sk0, pk1⟩ ⟨sk1, pk0⟩ 4 1 toyDaysDel = .ub :=
  isUb_eq (by decide +kernel)

/-- The call returned an error status. -/
def isErr {σ : Type} (o : Outcome σ) : Bool := match o with | .err _ => true | _ => false

/-- Coins of one day in which the mask is smaller than the element it masks. -/
def lowMask (h0 h1 : List (List Bool)) : RoundCoins :=
  { toyRound h0 h1 with path1 := fun _ => ⟨fun _ => 2, fun _ => 1⟩ }

/-- Why masks must not be smaller than the elements: the code encrypts `alpha - element`, which is then negative. -/
theorem C63_low_mask_witness : isErr (runDelDays toyRo (fun _ => none) toyHash ⟨sk0, pk1⟩ ⟨sk1, pk0⟩ 4 1
    [⟨[(3, 1)], [(3, 1)], lowMask [toyHash 0] [toyHash 1], toyGc 0, toyGc 1⟩]) = true := by decide +kernel

theorem psiDays_adm41 : PsiAdmissible (fun k => (k : Int)) (fun _ => 1) 41 (17 * mers) (19 * mers) psiDays where
  bound0 := by norm_num
  bound1 := by norm_num
  bound64 := by norm_num
  wide := by norm_num
  weights k h _ := ⟨by simpa using h, by norm_num, by simp⟩
  coins1 := by
    intro d hd
    simp only [psiDays, List.mem_cons, List.not_mem_nil, or_false] at hd
    rcases hd with rfl | rfl
    · exact toyRound_wf41 _ _ [] [] rfl rfl (by norm_num) (by norm_num)
    · exact toyRound_wf41 _ _ [] [3] rfl rfl (by norm_num) (by norm_num)
  coins2 := by
    intro d hd
    simp only [psiDays, List.mem_cons, List.not_mem_nil, or_false] at hd
    rcases hd with rfl | rfl
    · exact toyRound_wf41 _ _ [0, 1] [1, 7] rfl rfl (by norm_num) (by norm_num)
    · exact toyRound_wf41 _ _ [2] [0] rfl rfl (by norm_num) (by norm_num)
  shuffle := psiDays_adm.shuffle
  valid0 := by
    refine ⟨⟨by decide, by decide, by decide, by decide, by decide, by decide⟩,
      ⟨by decide, by decide, by decide, by decide, by decide, by decide⟩, trivial⟩
  valid1 := by
    refine ⟨⟨by decide, by decide, by decide, by decide, by decide, by decide⟩,
      ⟨by decide, by decide, by decide, by decide, by decide, by decide⟩, trivial⟩
  sizeX := by simp [psiDays]
  sizeY := by simp [psiDays]

theorem psiCoins_usable (h0 h1 g0 g1 : List (List Bool)) (sh : List Int → List Int) {n0 n1 : Nat} (l0 : 77 ≤ n0)
    (l1 : 77 ≤ n1) : (psiCoins h0 h1 g0 g1 sh).Usable 41 n0 n1 where
  round1 := toyRound_usable _ _ l0 l1
  round2 := toyRound_usable _ _ l0 l1
  gc0 i := toyGc_usable _ l1
  gc1 i := toyGc_usable _ l0
  enc0 i k := by have := tiny_range i k 5; simp only [psiCoins]; omega
  enc1 i := by have := tiny_range i 0 6; simp only [psiCoins]; omega

theorem psiDays_usable : ∀ d ∈ psiDays, d.coins.Usable 41 (17 * mers) (19 * mers) := by
  intro d hd
  simp only [psiDays, List.mem_cons, List.not_mem_nil, or_false] at hd
  rcases hd with rfl | rfl <;> exact psiCoins_usable _ _ _ _ _ (by norm_num) (by norm_num)

/-- The hypotheses of `C63_deletion_psi_only` are met by a two-day history with a deletion. -/
example : (∃ s, runDelPsi toyRo (fun _ => none) toyHash ⟨bsk0, bpk1⟩ ⟨bsk1, bpk0⟩ 4 1 psiDays = .ok s) ∨
    StopsAt toyRo (fun _ => none) toyHash ⟨bsk0, bpk1⟩ ⟨bsk1, bpk0⟩ (StDelPsi.init 4 1) psiDays
      (fun x => ∃ f ∈ x.phases, ¬ f.Clean toyRo) := by
  rcases C63_deletion_psi_only bigKeys toyRo toyHash toyHash_len _ _ 41 4 1 psiDays psiDays_adm41 psiDays_usable
    (by decide +kernel) (by decide +kernel) with ⟨s, h, _⟩ | ⟨_, ⟨x, _, hx⟩ | ⟨pre, d, post, s', x, e, a, b, _, c⟩⟩
  · exact Or.inl ⟨s, h⟩
  · have := toyRo_long x; omega
  · exact Or.inr ⟨pre, d, post, s', x, e, a, b, c (by decide +kernel) (by decide +kernel)⟩

/-- Negating `-2^63` is undefined behaviour, whatever the state. -/
theorem C63_negate_min_witness (st : UInt64 × List Int) : applyUpdates st [-2 ^ 63] = .ub := by
  simp only [applyUpdates, applyUpdate]
  rfl

end Upsi.Proto.Examples
