import Verif.Proto.AddProps
import Mathlib.Tactic.NormNum.Prime
/- Non-vacuity: concrete two-day histories of the addition-only protocols in the group Z/65521. -/
namespace Upsi.Proto.Examples
open Upsi Upsi.ElGamal Upsi.Tree Upsi.Num Upsi.Proto

/-- Z/65521 with generator 1 and key shares 3 and 5. -/
def toySetup : Setup (ZMod 65521) where
  g := 1
  q := 65521
  sk0 := 3
  sk1 := 5
  hq := by norm_num
  hcard := by simp
  hg0 := by decide

/-- Two-byte point encoding. -/
def toyCodec65521 : Codec (ZMod 65521) where
  enc p := [UInt8.ofNat (p.val / 256), UInt8.ofNat (p.val % 256)]
  dec b := match b with
    | [x, y] => some ((x.toNat * 256 + y.toNat : Nat) : ZMod 65521)
    | _ => none
  dec_enc p _ := by
    have h : p.val < 65521 := ZMod.val_lt p
    simp only [Option.some.injEq]
    rw [UInt8.toNat_ofNat', UInt8.toNat_ofNat', Nat.mod_eq_of_lt (a := p.val / 256) (by omega),
      Nat.mod_eq_of_lt (a := p.val % 256) (by omega), Nat.div_add_mod', ZMod.natCast_zmod_val]

/-- Scattered coins, between 1 and 401. -/
def coin (a b k : Nat) : Int := ((7919 * (a + 1) + 104729 * (b + 1) + 1299709 * (k + 1)) ^ 3 % 401 + 1 : Nat)

theorem coin_nz (a b k : Nat) : NonZero toySetup (coin a b k) := by
  simp only [NonZero, toySetup, coin]
  omega

/-- Coins of a day with the given identifiers; the shuffle reverses the candidates. -/
def toyCoins (pad : P) (h0 h1 : List (List Bool)) : Coins (ZMod 65521) P κ where
  hsh0 := h0
  pads0 _ _ := pad
  enc0 i j := fun k => coin (i + 10 * j) 0 k
  x0 i := fun k => coin i 1 k
  rr i j := coin (i + 10 * j) 2 0
  x1 i := coin i 3 0
  shuffle := List.reverse
  masks i := fun k => coin i 4 k
  send i := fun k => coin i 5 k
  hsh1 := h1
  pads1 _ _ := 60
  enc1 i j := coin (i + 10 * j) 6 0
  last i := fun k => coin i 7 k

/-- Day 1: `{3, 5}` and `{5}`; day 2: `{8}` and `{3, 9}`. -/
def toyDays (κ : Type) : List (DayIn (ZMod 65521) Nat κ) :=
  [⟨[3, 5], [5], toyCoins 50 [Props.toyHash 0, Props.toyHash 1] [Props.toyHash 1]⟩,
   ⟨[8], [3, 9], toyCoins 50 [Props.toyHash 2] [Props.toyHash 0, Props.toyHash 3]⟩]

/-- The same with values. -/
def toyDaysSum : List (DayIn (ZMod 65521) (Nat × Int) (Ct (ZMod 65521))) :=
  [⟨[(3, 10), (5, 20)], [5], toyCoins (50, 0) [Props.toyHash 0, Props.toyHash 1] [Props.toyHash 1]⟩,
   ⟨[(8, 30)], [3, 9], toyCoins (50, 0) [Props.toyHash 2] [Props.toyHash 0, Props.toyHash 3]⟩]

/-- The outcome is `ok` with a value satisfying `p`. -/
def holds (o : Outcome σ) (p : σ → Bool) : Bool := match o with | .ok s => p s | _ => false

theorem holds_ok {o : Outcome σ} {p : σ → Bool} (h : holds o p = true) : ∃ s, o = .ok s ∧ p s = true := by
  cases o <;> simp [holds] at h
  exact ⟨_, rfl, h⟩

theorem toyCA_run : ∃ s, runCA toySetup toyCodec65521 Props.toyHash 4 1 (toyDays Unit) = .ok s ∧
    (s.p0.lost == [] && s.p1.lost == [] && s.cardinality == 2) = true :=
  holds_ok (by decide +kernel)

theorem toyPSI_run : ∃ s, runPSI toySetup toyCodec65521 toyCodec65521 Props.toyHash 4 1 (toyDays _) = .ok s ∧
    (s.p0.lost == [] && s.p1.lost == [] && s.intersection == [some 5, some 3]) = true :=
  holds_ok (by decide +kernel)

theorem toySum_run : ∃ s, runSum toySetup toyCodec65521 50 Props.toyHash 4 1 toyDaysSum = .ok s ∧
    (s.p0.lost == [] && s.p1.lost == [] && s.cardinality == 2 && s.sum == 30) = true :=
  holds_ok (by decide +kernel)

theorem toyCoins_wf (key : P → Nat) (pad : P) (hp : key pad = 50) (xs : List P) (ys : List Nat)
    (hx hy : List Nat) (lx : xs.length = hx.length) (ly : ys.length = hy.length) :
    Coins.WF toySetup key 50 (fun t => NonZero toySetup (t 0)) xs ys
      (toyCoins (κ := κ) pad (hx.map Props.toyHash) (hy.map Props.toyHash)) where
  hsh0 := ⟨by simp [toyCoins, lx], by
    intro h hh; simp only [toyCoins, List.mem_map] at hh
    obtain ⟨a, _, rfl⟩ := hh; exact Props.toyHash_len _⟩
  hsh1 := ⟨by simp [toyCoins, ly], by
    intro h hh; simp only [toyCoins, List.mem_map] at hh
    obtain ⟨a, _, rfl⟩ := hh; exact Props.toyHash_len _⟩
  pads0 i j := by simp [toyCoins, hp, toySetup]
  pads1 i j := by simp [toyCoins, toySetup]
  shuffle l := List.reverse_perm l
  masks i := coin_nz _ _ _

theorem toyDays_adm : Admissible (κ := κ) toySetup id 50 (fun t => NonZero toySetup (t 0)) (toyDays κ) where
  bound := by simp [toySetup]
  coins := by
    intro d hd
    simp only [toyDays, List.mem_cons, List.not_mem_nil, or_false] at hd
    rcases hd with rfl | rfl
    · exact toyCoins_wf id 50 rfl _ _ [0, 1] [1] rfl rfl
    · exact toyCoins_wf id 50 rfl _ _ [2] [0, 3] rfl rfl
  x := by simp [allX, toyDays]
  y := by simp [allY, toyDays]
  sizeX := by simp [allX, toyDays]
  sizeY := by simp [allY, toyDays]

theorem toyDaysSum_adm : Admissible toySetup Prod.fst 50 (fun t => NonZero toySetup (t 0)) toyDaysSum where
  bound := by simp [toySetup]
  coins := by
    intro d hd
    simp only [toyDaysSum, List.mem_cons, List.not_mem_nil, or_false] at hd
    rcases hd with rfl | rfl
    · exact toyCoins_wf Prod.fst (50, 0) rfl _ _ [0, 1] [1] rfl rfl
    · exact toyCoins_wf Prod.fst (50, 0) rfl _ _ [2] [0, 3] rfl rfl
  x := by simp [allX, toyDaysSum]
  y := by simp [allY, toyDaysSum]
  sizeX := by simp [allX, toyDaysSum]
  sizeY := by simp [allY, toyDaysSum]

/- The hypotheses of C42-C44 are met by these histories. -/
example : ∃ s, runCA toySetup toyCodec65521 Props.toyHash 4 1 (toyDays Unit) = .ok s ∧
    s.cardinality = ((allX (toyDays Unit)).toFinset ∩ (allY (toyDays Unit)).toFinset).card := by
  obtain ⟨s, hs, hp⟩ := toyCA_run
  simp only [Bool.and_eq_true, beq_iff_eq] at hp
  exact ⟨s, hs, C42_cardinality _ _ _ Props.toyHash_len 50 4 1 _ toyDays_adm s hs hp.1.1 hp.1.2
    (by decide) (by decide)⟩

example : ∃ s, runPSI toySetup toyCodec65521 toyCodec65521 Props.toyHash 4 1 (toyDays _) = .ok s ∧
    s.intersection.Perm [some 3, some 5] := by
  obtain ⟨s, hs, hp⟩ := toyPSI_run
  simp only [Bool.and_eq_true, beq_iff_eq] at hp
  exact ⟨s, hs, C43_psi _ _ _ _ Props.toyHash_len 50 4 1 _ toyDays_adm s hs hp.1.1 hp.1.2
    (by decide)⟩

example : ∃ s, runSum toySetup toyCodec65521 50 Props.toyHash 4 1 toyDaysSum = .ok s ∧
    s.cardinality = 2 ∧ (s.sum.toNat : Int) = 30 := by
  obtain ⟨s, hs, hp⟩ := toySum_run
  simp only [Bool.and_eq_true, beq_iff_eq] at hp
  exact ⟨s, hs, C44_sum _ _ 50 _ Props.toyHash_len 50 4 1 _ toyDaysSum_adm (by decide)
    (by decide) (by decide) (by decide) (by decide) s hs hp.1.1.1 hp.1.1.2⟩

end Upsi.Proto.Examples
