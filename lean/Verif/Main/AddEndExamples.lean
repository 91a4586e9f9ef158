import Verif.Main.AddEndProps
import Verif.Proto.SSExamples
import Verif.Setup.ImportExamples
/- Non-vacuity of C74: setup and both parties, run in the kernel over a file system. -/
namespace Upsi.Main
open Upsi Upsi.Rec Upsi.ElGamal Upsi.Tree Upsi.Proto Upsi.Setup Upsi.Wire Upsi.Data Upsi.Proto.Examples Upsi.Tree.Props

/-- Two days of one element per party, `start` initial elements per party, all shared; payloads below 10. -/
def exFlags (start : Nat) : SetupFlags := ⟨2, 1, start, start + 2, 10, true, "data/", "out/"⟩

/-- Keeps the first element and reverses the rest. -/
def tailRev : List Data.Bytes → List Data.Bytes
  | [] => []
  | a :: t => a :: t.reverse

theorem tailRev_perm (l : List Data.Bytes) : (tailRev l).Perm l := by
  cases l with
  | nil => exact .refl _
  | cons a t => exact (List.reverse_perm t).cons a

/-- The elements 1, 2 (and 3); with an initial set, both start with 1, then party zero adds 2 and 3 and party one 3 and 2. -/
def exRand (start : Nat) : SetupRand where
  coin0 := 2
  coin1 := 4
  paillier := ⟨7, 11, 2, 3, 100⟩
  data := ⟨if start = 1 then [[49], [50], [51]] else [[49], [50]], [], [], id, tailRev, if start = 1 then [7, 5, 9] else [7, 5]⟩
  tree0 := toyTreeCoins (List.replicate start (toyHash 1)) (50, 0)
  tree1 := toyTreeCoins (List.replicate start (toyHash 2)) 60

def exCoins (pad : P) (i : Nat) : Coins (ZMod 65521) P κ := toyCoins pad [toyHash (i + 3)] [toyHash (i + 5)]

def exCoinsSS (i : Nat) : Coins (ZMod 65521) (Nat × Int) Int := toyCoinsSS [toyHash (i + 3)] [toyHash (i + 5)]

def exFS : FS := ⟨fun _ => none, fun _ => true⟩

def exSetup (start : Nat) : Outcome SetupOut :=
  setupMain toyCodec65521 1 65521 toyHash 4 1 (exFlags start) (exRand start) exFS

theorem exSizes (start : Nat) (h : start ≤ 1) : SizesOK 1 10 65521 4 1 (exFlags start) where
  total := by simp only [exFlags]; omega
  maxPos := by simp [exFlags]
  maxValue := by simp [exFlags]
  stash := by norm_num
  node := by norm_num
  len := by norm_num
  bound := by norm_num
  order := by norm_num

theorem exRand_ok (start : Nat) (h : start ≤ 1) : (exRand start).OK 1 10 65521 (exFlags start) := by
  have hs : start = 0 ∨ start = 1 := by omega
  refine ⟨?_, ⟨by simp [exRand, toyTreeCoins, exFlags], fun x hx => ?_⟩, ⟨by simp [exRand, toyTreeCoins, exFlags], fun x hx => ?_⟩,
    fun i j => by simp [exRand, toyTreeCoins], fun i j => by simp [exRand, toyTreeCoins]⟩
  · rcases hs with rfl | rfl
    · refine ⟨by decide, by decide, by decide, by decide, fun l => .refl _, tailRev_perm, by decide, ?_, by decide, ?_⟩
      · decide
      · intro e he
        simp only [exRand, List.append_nil, Nat.zero_ne_one, if_false, List.mem_cons, List.not_mem_nil, or_false] at he
        rcases he with rfl | rfl <;> exact ⟨rfl, by decide, by decide⟩
    · refine ⟨by decide, by decide, by decide, by decide, fun l => .refl _, tailRev_perm, by decide, ?_, by decide, ?_⟩
      · decide
      · intro e he
        simp only [exRand, List.append_nil, if_true, List.mem_cons, List.not_mem_nil, or_false] at he
        rcases he with rfl | rfl | rfl <;> exact ⟨rfl, by decide, by decide⟩
  · simp only [exRand, toyTreeCoins, List.mem_replicate] at hx
    rw [hx.2]; exact toyHash_len _
  · simp only [exRand, toyTreeCoins, List.mem_replicate] at hx
    rw [hx.2]; exact toyHash_len _

theorem exCoins_ok (key : P → Nat) (pad : P) (hp : key pad = 50) (i : Nat) :
    DayCoinsOK key 10 65521 1 (exCoins (κ := κ) pad i) where
  hsh0 := ⟨rfl, by intro h hh; simp only [exCoins, toyCoins, List.mem_cons, List.not_mem_nil, or_false] at hh; rw [hh]; exact toyHash_len _⟩
  hsh1 := ⟨rfl, by intro h hh; simp only [exCoins, toyCoins, List.mem_cons, List.not_mem_nil, or_false] at hh; rw [hh]; exact toyHash_len _⟩
  pads0 i j := by simp [exCoins, toyCoins, hp]
  pads1 i j := by simp [exCoins, toyCoins]
  shuffle l := List.reverse_perm l
  masks i := coin_nz _ _ _

theorem exCoinsSS_ok (i : Nat) : DayCoinsOK Prod.fst 10 65521 1 (exCoinsSS i) where
  hsh0 := ⟨rfl, by intro h hh; simp only [exCoinsSS, toyCoinsSS, toyCoins, List.mem_cons, List.not_mem_nil, or_false] at hh; rw [hh]; exact toyHash_len _⟩
  hsh1 := ⟨rfl, by intro h hh; simp only [exCoinsSS, toyCoinsSS, toyCoins, List.mem_cons, List.not_mem_nil, or_false] at hh; rw [hh]; exact toyHash_len _⟩
  pads0 i j := by simp [exCoinsSS, toyCoinsSS, toyCoins]
  pads1 i j := by simp [exCoinsSS, toyCoinsSS, toyCoins]
  shuffle l := List.reverse_perm l
  masks i := coin_nz _ _ _

/-- Setup, then both parties. -/
def exBoth (start : Nat) (main : RunFlags → FS → Outcome (σ × List Int)) : Outcome (SetupOut × σ × List Int) := do
  let o ← exSetup start
  let r ← main (RunFlags.of (exFlags start)) o.fs
  pure (o, r)

theorem exBoth_ok {start : Nat} {main : RunFlags → FS → Outcome (σ × List Int)} {r} (h : exBoth start main = .ok r) :
    exSetup start = .ok r.1 ∧ main (RunFlags.of (exFlags start)) r.1.fs = .ok (r.2.1, r.2.2) := by
  simp only [exBoth, Outcome.bind_eq_ok, Outcome.pure_eq, Outcome.ok.injEq] at h
  obtain ⟨o, h1, r', h2, rfl⟩ := h
  exact ⟨h1, h2⟩

theorem endCA_run : ∃ r, exBoth 1 (fun f fs => mainCA toyCodec65521 toyHash 4 1 f (exCoins 50) fs) = .ok r ∧
    (r.1.lost0 == [] && r.1.lost1 == [] && r.1.printed == some (2, 14) && r.2.1.p0.lost == [] && r.2.1.p1.lost == []) = true :=
  holds_ok (by decide +kernel)

theorem endPSI_run : ∃ r, exBoth 1 (fun f fs => mainPSI toyCodec65521 toyCodec65521 toyHash 4 1 f (exCoins 50) fs) = .ok r ∧
    (r.1.lost0 == [] && r.1.lost1 == [] && r.1.printed == some (2, 14) && r.2.1.p0.lost == [] && r.2.1.p1.lost == []) = true :=
  holds_ok (by decide +kernel)

theorem endSum_run : ∃ r, exBoth 1 (fun f fs => mainSum toyCodec65521 100 toyHash 4 1 f (exCoins (50, 0)) fs) = .ok r ∧
    (r.1.lost0 == [] && r.1.lost1 == [] && r.1.printed == some (2, 14) && r.2.1.p0.lost == [] && r.2.1.p1.lost == []) = true :=
  holds_ok (by decide +kernel)

theorem endSS_run : ∃ r, exBoth 0 (fun f fs => mainSS toyCodec65521 (fun _ => none) 2 2 toyHash 4 1 f exCoinsSS fs) = .ok r ∧
    (r.1.printed == some (2, 12) && r.2.1.p0.lost == [] && r.2.1.p1.lost == []) = true :=
  holds_ok (by decide +kernel)

/-- The hypotheses of C74 are met: with one common initial element, both parties then find the other two. -/
example : ∃ o s ns, exSetup 1 = .ok o ∧ o.printed = some (2, 14) ∧
    mainCA toyCodec65521 toyHash 4 1 (RunFlags.of (exFlags 1)) (exCoins 50) o.fs = .ok (s, ns) ∧ s.cardinality = 2 := by
  obtain ⟨r, hr, hp⟩ := endCA_run
  simp only [Bool.and_eq_true, beq_iff_eq] at hp
  obtain ⟨⟨⟨⟨a, b⟩, p⟩, u⟩, v⟩ := hp
  obtain ⟨h1, h2⟩ := exBoth_ok hr
  refine ⟨_, _, _, h1, p, h2, ?_⟩
  have := (C74_cardinality toyCodec65521 1 65521 (by norm_num) (by simp) (by decide) toyHash toyHash_len 1 10 4 1 _
    (exSizes 1 (le_refl _)) _ (exRand_ok 1 (le_refl _)) _ (fun i _ => exCoins_ok id 50 rfl i) _ _ h1 a b _ _ p _ _ h2 u v).1
  exact_mod_cast this

example : ∃ o s ns, exSetup 1 = .ok o ∧
    mainPSI toyCodec65521 toyCodec65521 toyHash 4 1 (RunFlags.of (exFlags 1)) (exCoins 50) o.fs = .ok (s, ns) ∧
    s.intersection.length = 2 ∧ ∀ x, some x ∈ s.intersection → x ∈ [1, 2, 3] := by
  obtain ⟨r, hr, hp⟩ := endPSI_run
  simp only [Bool.and_eq_true, beq_iff_eq] at hp
  obtain ⟨⟨⟨⟨a, b⟩, p⟩, u⟩, v⟩ := hp
  obtain ⟨h1, h2⟩ := exBoth_ok hr
  obtain ⟨c1, c2, -⟩ := C74_psi toyCodec65521 toyCodec65521 1 65521 (by norm_num) (by simp) (by decide) toyHash toyHash_len 1 10 4 1 _
    (exSizes 1 (le_refl _)) _ (exRand_ok 1 (le_refl _)) _ (fun i _ => exCoins_ok id 50 rfl i) _ _ h1 a b _ _ p _ _ h2 u v
  exact ⟨_, _, _, h1, h2, by exact_mod_cast c1, c2⟩

example : ∃ o s ns, exSetup 1 = .ok o ∧ o.printed = some (2, 14) ∧
    mainSum toyCodec65521 100 toyHash 4 1 (RunFlags.of (exFlags 1)) (exCoins (50, 0)) o.fs = .ok (s, ns) ∧
    s.cardinality = 2 ∧ s.sum.toNat = 14 := by
  obtain ⟨r, hr, hp⟩ := endSum_run
  simp only [Bool.and_eq_true, beq_iff_eq] at hp
  obtain ⟨⟨⟨⟨a, b⟩, p⟩, u⟩, v⟩ := hp
  obtain ⟨h1, h2⟩ := exBoth_ok hr
  obtain ⟨c1, -, c2, -⟩ := C74_sum toyCodec65521 1 65521 (by norm_num) (by simp) (by decide) 100 (by norm_num) (by norm_num)
    toyHash toyHash_len 1 10 4 1 _
    (exSizes 1 (le_refl _)) (by simp [exFlags, sharedSize]) _ (exRand_ok 1 (le_refl _)) _ (fun i _ => exCoins_ok Prod.fst (50, 0) rfl i) _ _
    h1 a b _ _ p _ _ h2 u v
  refine ⟨_, _, _, h1, p, h2, by exact_mod_cast c1, ?_⟩
  exact_mod_cast c2 (by simp [exFlags])

example : ∃ o s ns, exSetup 0 = .ok o ∧
    mainSS toyCodec65521 (fun _ => none) 2 2 toyHash 4 1 (RunFlags.of (exFlags 0)) exCoinsSS o.fs = .ok (s, ns) ∧
    (List.zipWith (fun x y => (x + y) % 77) s.shares0 s.shares1).Perm [1, 2] := by
  obtain ⟨r, hr, hp⟩ := endSS_run
  simp only [Bool.and_eq_true, beq_iff_eq] at hp
  obtain ⟨⟨p, u⟩, v⟩ := hp
  obtain ⟨h1, h2⟩ := exBoth_ok hr
  obtain ⟨-, -, c, -⟩ := C74_shares toyCodec65521 1 65521 (by norm_num) (by simp) (by decide) (fun _ => none) Paillier.simple_mont 7 11
    Paillier.primes_7_11 2 2 (by norm_num) (by norm_num) toyHash toyHash_len 1 10 4 1 _ (exSizes 0 (by norm_num)) rfl _
    (exRand_ok 0 (by norm_num)) rfl rfl _ (fun i _ => exCoinsSS_ok i) _ _ h1 _ _ p _ _ h2 u v
  exact ⟨_, _, _, h1, h2, c⟩

theorem SetupRand.OK.change {L B q : Nat} {f : SetupFlags} {ρ : SetupRand} (h : ρ.OK L B q f) (sh : List Data.Bytes → List Data.Bytes)
    (hsh : ∀ l, (sh l).Perm l) (e : Nat → Nat → Tape) :
    SetupRand.OK L B q f { ρ with data := { ρ.data with shuffle1 := sh }, tree0 := { ρ.tree0 with enc := e } } where
  draws := ⟨h.draws.1, h.draws.2, h.draws.3, h.draws.4, h.draws.5, hsh, h.draws.7, h.draws.8, h.draws.9, h.draws.10⟩
  hsh0 := h.hsh0
  hsh1 := h.hsh1
  pads0 := h.pads0
  pads1 := h.pads1

/-- With initial sets `[1]` and `[3]`; then party zero adds 2 and 3, party one 2 and 1. -/
def exRandSS : SetupRand := { exRand 1 with
  data := { (exRand 1).data with shuffle1 := List.reverse }
  tree0 := { (exRand 1).tree0 with enc := fun i j k => smallCoin (i + 10 * j) 6 k } }

theorem exRandSS_ok : exRandSS.OK 1 10 65521 (exFlags 1) :=
  (exRand_ok 1 (le_refl _)).change List.reverse List.reverse_perm _

/-- Setup for secret sharing, then both parties. -/
def exBothSS : Outcome (SetupOut × StSS (ZMod 65521) × List Int) := do
  let o ← setupMainSS toyCodec65521 1 65521 (fun _ => none) 2 toyHash 4 1 (exFlags 1) exRandSS exFS
  let r ← mainSS toyCodec65521 (fun _ => none) 2 2 toyHash 4 1 (RunFlags.of (exFlags 1)) exCoinsSS o.fs
  pure (o, r)

theorem endSS_initial_run : ∃ r, exBothSS = .ok r ∧ (r.1.lost0 == [] && r.1.lost1 == [] &&
    r.1.printed == some (3, 21) && r.2.1.p0.lost == [] && r.2.1.p1.lost == []) = true :=
  holds_ok (by decide +kernel)

/-- The common elements are 1, 2 and 3; the shares of 1, which is in party zero's initial set, open to its value 7. -/
example : ∃ o s ns, setupMainSS toyCodec65521 1 65521 (fun _ => none) 2 toyHash 4 1 (exFlags 1) exRandSS exFS = .ok o ∧
    mainSS toyCodec65521 (fun _ => none) 2 2 toyHash 4 1 (RunFlags.of (exFlags 1)) exCoinsSS o.fs = .ok (s, ns) ∧
    (List.zipWith (fun x y => (x + y) % 77) s.shares0 s.shares1).Perm [7, 2, 3] := by
  obtain ⟨r, hr, hp⟩ := endSS_initial_run
  simp only [Bool.and_eq_true, beq_iff_eq] at hp
  obtain ⟨⟨⟨⟨a, b⟩, p⟩, u⟩, v⟩ := hp
  simp only [exBothSS, Outcome.bind_eq_ok, Outcome.pure_eq, Outcome.ok.injEq] at hr
  obtain ⟨o, h1, r', h2, rfl⟩ := hr
  obtain ⟨gs, hg, -, -, c, -⟩ := C74_shares_initial toyCodec65521 1 65521 (by norm_num) (by simp) (by decide) (fun _ => none)
    Paillier.simple_mont 7 11 Paillier.primes_7_11 2 2 2 (by norm_num) (by norm_num) (by norm_num) toyHash toyHash_len 1 10 4 1 _
    (exSizes 1 (le_refl _)) _ exRandSS_ok rfl rfl _ (fun i _ => exCoinsSS_ok i) _ _ h1 a b _ _ p _ _ h2 u v
  refine ⟨_, _, _, h1, h2, ?_⟩
  have e : genAddOnly 2 1 1 3 10 exRandSS.data = .ok ⟨⟨[[49]], [7]⟩, [⟨[[50]], [5]⟩, ⟨[[51]], [9]⟩], ⟨[[51]], []⟩,
    [⟨[[50]], []⟩, ⟨[[49]], []⟩], 21⟩ := rfl
  obtain rfl := Outcome.ok.inj (hg.symm.trans e)
  exact c

end Upsi.Main
