import Verif.Proto.ProgressSS
import Verif.Proto.SSExamples
/- Non-vacuity and limits of C63: the histories of `AddExamples`/`SSExamples` meet its hypotheses, and the infinity
error it allows does occur. -/
namespace Upsi.Proto.Examples
open Upsi Upsi.ElGamal Upsi.Tree Upsi.Num Upsi.Proto

example : runCA toySetup toyCodec65521 Props.toyHash 4 1 (toyDays Unit) = .err "EC_POINT_point2oct failed" ∨
    ∃ s, runCA toySetup toyCodec65521 Props.toyHash 4 1 (toyDays Unit) = .ok s ∧
      s.cardinality = ((allX (toyDays Unit)).toFinset ∩ (allY (toyDays Unit)).toFinset).card :=
  C63_cardinality_small _ _ _ Props.toyHash_len 50 4 1 _ toyDays_adm (by decide) (by decide) (by decide) (by decide)

example : runPSI toySetup toyCodec65521 toyCodec65521 Props.toyHash 4 1 (toyDays _) = .err "EC_POINT_point2oct failed" ∨
    ∃ s, runPSI toySetup toyCodec65521 toyCodec65521 Props.toyHash 4 1 (toyDays _) = .ok s ∧
      s.intersection.Perm (((allX (toyDays (Ct (ZMod 65521)))).filter
        (fun x => x ∈ allY (toyDays (Ct (ZMod 65521))))).map some) :=
  C63_psi_small _ _ _ _ Props.toyHash_len 50 4 1 _ toyDays_adm (by decide) (by decide) (by decide)

example : runSum toySetup toyCodec65521 50 Props.toyHash 4 1 toyDaysSum = .err "EC_POINT_point2oct failed" ∨
    ∃ s, runSum toySetup toyCodec65521 50 Props.toyHash 4 1 toyDaysSum = .ok s ∧
      s.cardinality = ((allX toyDaysSum).filter (fun p => p.1 ∈ allY toyDaysSum)).length ∧
      (s.sum.toNat : Int) = (((allX toyDaysSum).filter (fun p => p.1 ∈ allY toyDaysSum)).map Prod.snd).sum :=
  C63_sum_small _ _ 50 (by decide) (by decide) (by decide) _ Props.toyHash_len 50 4 1 _ toyDaysSum_adm (by decide)
    (by decide) (by decide) (by decide) (by decide)

theorem smallCoin_range (a b k : Nat) : 0 ≤ smallCoin a b k ∧ smallCoin a b k < 77 := by
  unfold smallCoin; omega

theorem toySSCoins (h0 h1 : List (List Bool)) : SSCoins (7 * 11) (toyCoinsSS h0 h1) where
  enc0 i j := ⟨(smallCoin_range _ _ _).1, le_of_lt (smallCoin_range _ _ _).2⟩
  x0 i := ⟨(smallCoin_range _ _ _).1, le_of_lt (smallCoin_range _ _ _).2⟩
  send i := by simp only [toyCoinsSS, toyCoins, coin]; omega
  share i := ⟨(smallCoin_range _ _ _).1, (smallCoin_range _ _ _).2⟩
  last i := ⟨(smallCoin_range _ _ _).1, le_of_lt (smallCoin_range _ _ _).2⟩
  pads i j := by simp [toyCoinsSS, toyCoins]

example : runSS toySetup toyCodec65521 (fun _ => none) toyA toyB Props.toyHash 4 1 toyDaysSS =
      .err "EC_POINT_point2oct failed" ∨
    ∃ s, runSS toySetup toyCodec65521 (fun _ => none) toyA toyB Props.toyHash 4 1 toyDaysSS = .ok s ∧
      s.shares0.length = s.shares1.length ∧
      (List.zipWith (fun x y => (x + y) % ((7 * 11 : Nat) : Int)) s.shares0 s.shares1).Perm
        ((((allX toyDaysSS).map Prod.fst).filter (fun e => e ∈ allY toyDaysSS)).map (fun e : Nat => (e : Int))) :=
  C63_secret_shares_small _ _ toySSKeys _ Props.toyHash_len 50 4 1 _ toyDaysSS_adm (by decide) (by
    intro d hd
    simp only [toyDaysSS, List.mem_cons, List.not_mem_nil, or_false] at hd
    rcases hd with rfl | rfl <;> exact toySSCoins _ _) (by decide) (by decide) (by decide)

/-- Z/65521 with generator 1 and key shares 100 and 118, so the joint public key is 218. -/
def infSetup : Setup (ZMod 65521) where
  g := 1
  q := 65521
  sk0 := 100
  sk1 := 118
  hq := by norm_num
  hcard := by simp
  hg0 := by decide

/-- Party zero adds 121 and draws the coin 300 to encrypt it: `300 * 218 + 121` is the group order, so the second
component of the ciphertext is the point at infinity.  All coins lie between 1 and the group order, as the code
draws them (ec_group.cc:136-138). -/
def infDays : List (DayIn (ZMod 65521) Nat Unit) :=
  [⟨[121], [5], { toyCoins 130 [Props.toyHash 0] [Props.toyHash 1] with
      enc0 := fun _ _ _ => 300, pads1 := fun _ _ => 140 }⟩]

theorem infDays_adm : Admissible infSetup id 125 (fun t => NonZero infSetup (t 0)) infDays where
  bound := by simp [infSetup]
  coins := by
    intro d hd
    simp only [infDays, List.mem_cons, List.not_mem_nil, or_false] at hd
    subst hd
    have h := toyCoins_wf (κ := Unit) id 50 rfl [3] [5] [0] [1] rfl rfl
    exact ⟨h.hsh0, h.hsh1, by simp [toyCoins, infSetup], by simp [infSetup], h.shuffle, fun i => by
      simp only [NonZero, infSetup, toyCoins, coin]; omega⟩
  x := by simp [allX, infDays]
  y := by simp [allY, infDays]
  sizeX := by simp [allX, infDays]
  sizeY := by simp [allY, infDays]

/-- The outcome is the infinity error. -/
def isInf (o : Outcome σ) : Bool := match o with | .err m => m == "EC_POINT_point2oct failed" | _ => false

theorem isInf_eq {o : Outcome σ} (h : isInf o = true) : o = .err "EC_POINT_point2oct failed" := by
  cases o <;> simp [isInf] at h
  rw [h]

/-- **C63** (limit) The infinity error is possible with coins in the range the code draws them from: one bad coin
ends the run. -/
theorem C63_infinity_happens : runCA infSetup toyCodec65521 Props.toyHash 4 1 infDays = .err "EC_POINT_point2oct failed" :=
  isInf_eq (by decide +kernel)

end Upsi.Proto.Examples
