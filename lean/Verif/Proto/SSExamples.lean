import Verif.Proto.SSProps
import Verif.Proto.AddExamples
/- Non-vacuity of C45: a concrete two-day history with `n = 7 * 11`. -/
namespace Upsi.Proto.Examples
open Upsi Upsi.ElGamal Upsi.Tree Upsi.Num Upsi.Proto

/-- Coins small enough for the toy Paillier modulus. -/
def smallCoin (a b k : Nat) : Int := coin a b k % 70 + 1

/-- `toyCoins` with Paillier coins below the modulus. -/
def toyCoinsSS (h0 h1 : List (List Bool)) : Coins (ZMod 65521) (Nat × Int) Int :=
  { toyCoins (50, 0) h0 h1 with
    enc0 := fun i j k => smallCoin (i + 10 * j) 0 k
    x0 := fun i k => smallCoin i 1 k
    last := fun i k => smallCoin i 7 k }

/-- Day 1: `{3, 5}` and `{5}`; day 2: `{8}` and `{3, 9}`. -/
def toyDaysSS : List (DayIn (ZMod 65521) (Nat × Int) Int) :=
  [⟨[(3, 10), (5, 20)], [5], toyCoinsSS [Props.toyHash 0, Props.toyHash 1] [Props.toyHash 1]⟩,
   ⟨[(8, 30)], [3, 9], toyCoinsSS [Props.toyHash 2] [Props.toyHash 0, Props.toyHash 3]⟩]

def toyPub : Paillier.Public := match Paillier.Public.new 2 77 1 with
  | .ok k => k
  | _ => ⟨0, 0, [], 0, 0, []⟩

def toyA : TPaillier := ⟨⟨77, 100⟩, toyPub⟩
def toyB : TPaillier := ⟨⟨77, 14300⟩, toyPub⟩

theorem toySSKeys : SSKeys 7 11 (fun _ => none) toyA toyB := by
  obtain ⟨k, hk, hkok⟩ := Paillier.public_new Paillier.primes_7_11 2 (by norm_num)
  have hk' : Paillier.Public.new 2 77 1 = .ok k := hk
  have : toyPub = k := by simp only [toyPub, hk']
  exact ⟨Paillier.primes_7_11, Paillier.simple_mont,
    Paillier.C23_keys (r1 := 5) (r2 := 1000) (sk1 := 100) (by norm_num) (by norm_num) (by decide +kernel),
    by rw [toyA, this]; exact hkok, by rw [toyB, this]; exact hkok⟩

theorem toySS_run : ∃ s, runSS toySetup toyCodec65521 (fun _ => none) toyA toyB Props.toyHash 4 1 toyDaysSS = .ok s ∧
    (s.p0.lost == [] && s.p1.lost == [] &&
      List.zipWith (fun x y => (x + y) % 77) s.shares0 s.shares1 == [5, 3]) = true :=
  holds_ok (by decide +kernel)

theorem toyDaysSS_adm : Admissible toySetup Prod.fst 50 (fun t => NonZero toySetup (t 0)) toyDaysSS where
  bound := by simp [toySetup]
  coins := by
    intro d hd
    simp only [toyDaysSS, List.mem_cons, List.not_mem_nil, or_false] at hd
    have aux : ∀ (xs : List (Nat × Int)) (ys hx hy : List Nat), xs.length = hx.length → ys.length = hy.length →
        Coins.WF toySetup Prod.fst 50 (fun t => NonZero toySetup (t 0)) xs ys
          (toyCoinsSS (hx.map Props.toyHash) (hy.map Props.toyHash)) := by
      intro xs ys hx hy lx ly
      have h := toyCoins_wf (κ := Int) Prod.fst (50, 0) rfl xs ys hx hy lx ly
      exact ⟨h.hsh0, h.hsh1, h.pads0, h.pads1, h.shuffle, h.masks⟩
    rcases hd with rfl | rfl
    · exact aux _ _ [0, 1] [1] rfl rfl
    · exact aux _ _ [2] [0, 3] rfl rfl
  x := by simp [allX, toyDaysSS]
  y := by simp [allY, toyDaysSS]
  sizeX := by simp [allX, toyDaysSS]
  sizeY := by simp [allY, toyDaysSS]

example : ∃ s, runSS toySetup toyCodec65521 (fun _ => none) toyA toyB Props.toyHash 4 1 toyDaysSS = .ok s ∧
    (List.zipWith (fun x y => (x + y) % 77) s.shares0 s.shares1).Perm [3, 5] := by
  obtain ⟨s, hs, hp⟩ := toySS_run
  simp only [Bool.and_eq_true, beq_iff_eq] at hp
  exact ⟨s, hs, (C45_secret_shares _ _ toySSKeys _ Props.toyHash_len 50 4 1 _ toyDaysSS_adm (by decide) s hs
    hp.1.1 hp.1.2).2.1⟩

end Upsi.Proto.Examples
