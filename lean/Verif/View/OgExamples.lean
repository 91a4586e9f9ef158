import Verif.View.OgCurve
import Verif.Proto.OgExamples
import Verif.View.Examples
/- C67: concrete histories meeting the hypotheses. -/
namespace Upsi.View.Examples
open Upsi Upsi.ElGamal Upsi.Tree Upsi.Num Upsi.Proto Upsi.Proto.Examples Upsi.Curve

/-! A curve of prime order 29: `y² = x³ + x + 4` over the field with 23 elements. -/

def C23 : Params := ⟨23, 1, 4⟩
theorem prime23 : Nat.Prime C23.p := by change Nat.Prime 23; norm_num
instance : Fact C23.p.Prime := ⟨prime23⟩
instance : NeZero C23.p := ⟨by decide⟩
instance (x y : ZMod C23.p) : Decidable ((curve C23).Nonsingular x y) :=
  decidable_of_iff (y ^ 2 = x ^ 3 + C23.a * x + C23.b ∧ (3 * x ^ 2 + C23.a ≠ 0 ∨ 2 * y ≠ 0)) (by
    rw [WeierstrassCurve.Affine.nonsingular_iff, WeierstrassCurve.Affine.equation_iff]
    simp only [curve]
    constructor
    · rintro ⟨h1, h2⟩
      refine ⟨by linear_combination h1, h2.imp (fun h h' => h ?_) (fun h h' => h ?_)⟩
      · linear_combination -h'
      · linear_combination h'
    · rintro ⟨h1, h2⟩
      refine ⟨by linear_combination h1, h2.imp (fun h h' => h ?_) (fun h h' => h ?_)⟩
      · linear_combination -h'
      · linear_combination h')

def gen23 : Pt C23 := .some (0 : ZMod C23.p) (2 : ZMod C23.p) (by decide +kernel)
example : (29:Int) • gen23 = 0 := by decide +kernel
example : (28:Int) • gen23 = -gen23 := by decide +kernel

def pts23 : Pt C23 ≃ Option {xy : ZMod C23.p × ZMod C23.p // (curve C23).Nonsingular xy.1 xy.2} where
  toFun P := match P with | .zero => none | .some x y h => some ⟨(x, y), h⟩
  invFun o := match o with | none => .zero | some ⟨(x, y), h⟩ => .some x y h
  left_inv P := by cases P <;> rfl
  right_inv o := by rcases o with _ | ⟨⟨x, y⟩, h⟩ <;> rfl

theorem card23 : Nat.card (Pt C23) = 29 := by
  rw [Nat.card_congr pts23, Nat.card_eq_fintype_card, Fintype.card_option]
  have : Fintype.card {xy : ZMod C23.p × ZMod C23.p // (curve C23).Nonsingular xy.1 xy.2} = 28 := by decide +kernel
  exact congrArg (· + 1) this

def setup23 : Setup (Pt C23) where
  g := gen23
  q := 29
  sk0 := 3
  sk1 := 5
  hq := by norm_num
  hcard := card23
  hg0 := by decide +kernel

/-- Two-byte point encoding. -/
def codec23 : Codec (Pt C23) where
  enc P := match P with | .zero => [] | .some x y _ => [UInt8.ofNat x.val, UInt8.ofNat y.val]
  dec b := match b with
    | [x, y] => if h : (curve C23).Nonsingular (x.toNat : ZMod C23.p) (y.toNat : ZMod C23.p) then some (.some _ _ h) else none
    | _ => none
  dec_enc P hP := by
    cases P with
    | zero => exact absurd rfl hP
    | some x y h =>
      have e : ∀ z : ZMod C23.p, (((UInt8.ofNat z.val).toNat : Nat) : ZMod C23.p) = z := by
        intro z
        have hz : z.val < 23 := ZMod.val_lt z
        rw [UInt8.toNat_ofNat', Nat.mod_eq_of_lt (by omega), ZMod.natCast_zmod_val]
      simp only [e, h, dite_true]


/-- Square roots modulo 23: `r^6`, as `23 = 3 mod 4`. -/
def sqrt23 (r : Nat) : Nat := r ^ 6 % 23

theorem sqrt23_spec : SqrtMod C23.p sqrt23 := by
  rintro q hq ⟨r, hr⟩
  have h : r % 23 * (r % 23) % 23 = q := by rw [← Nat.mul_mod]; exact hr
  have h7 : r % 23 < 23 := Nat.mod_lt _ (by decide)
  generalize r % 23 = s at *
  subst h
  interval_cases s <;> decide

/-- An 8-bit "hash". -/
def hash23 (b : List UInt8) : List UInt8 := [UInt8.ofNat ((b.foldl (fun a c => a * 3 + c.toNat) 2) ^ 3 / 7)]

/-- The point a number is hashed to (zero if the loop does not end in 40 rounds). -/
def point23 (b : List UInt8) : Pt C23 :=
  match hashToCurve hash23 8 C23 sqrt23 40 b with
  | some (.ok (x, y)) => if h : (curve C23).Nonsingular (x : ZMod C23.p) (y : ZMod C23.p) then .some _ _ h else .zero
  | _ => .zero

def bytes23 (r : Nat) : List UInt8 := if r = 0 then [] else [UInt8.ofNat r]

theorem natBytes_lt (r : Nat) (h : r < 256) : natBytes r = bytes23 r := by
  unfold natBytes bytes23
  split
  · rfl
  · rw [show r / 256 = 0 by omega, Nat.mod_eq_of_lt h, natBytes, dif_pos rfl]; rfl

def R23 (r : Fin 29) : Pt C23 := point23 (bytes23 r)

def coin23 (a b : Nat) : Int := ((7919 * (a + 1) + 104729 * (b + 1) + 2) ^ 5 % 27 + 1 : Nat)

def day23 : OgDay (Pt C23) where
  xs := [3, 5]
  ys := [5]
  coins := {
    hsh := [Props.toyHash 1]
    pads := fun _ _ => 12
    enc := fun i j => coin23 (i + 10 * j) 6
    hr := (9 : Int) • gen23
    a0 := 11
    a1 := 13
    x := fun i => coin23 i 1
    beta := fun i j => coin23 (i + 10 * j) 2
    gamma := fun i j => coin23 (i + 10 * j) 3
    re := fun i j => coin23 (i + 10 * j) 4
    shuffle := fun _ => List.reverse
    dummy := fun i => R23 ⟨i % 29, by omega⟩
    mask := fun i => coin23 i 5 }

def H23 (x : Nat) : Pt C23 := ((x : Int) + 1) • gen23


theorem init23 : runOg setup23.og codec23 codec23 H23 Props.toyHash 4 1 [] = .ok ⟨Og0.init 4 1, Og1.init 4 1⟩ := rfl

theorem run23 : ∃ s, dayOg setup23.og codec23 codec23 H23 Props.toyHash ⟨Og0.init 4 1, Og1.init 4 1⟩ day23.xs day23.ys day23.coins = .ok s ∧
    (s.p1.lost == [] && s.p0.intersection == [5]) = true :=
  holds_ok (by decide +kernel)

theorem coin23_nz (a b : Nat) : NonZero setup23 (coin23 a b) := by
  simp only [NonZero, setup23, coin23]; omega

theorem adm23 : OgAdmissible setup23 10 H23 [] [] ([] ++ [day23]) where
  bound := by decide
  key0 := by simp only [NonZero, setup23]; omega
  key1 := by simp only [NonZero, setup23]; omega
  coins := by
    intro d hd
    simp only [List.nil_append, List.mem_cons, List.not_mem_nil, or_false] at hd
    subst hd
    exact ⟨⟨rfl, by intro y hy; simp only [day23, List.mem_cons, List.not_mem_nil, or_false] at hy; subst hy; exact Props.toyHash_len _⟩,
      fun _ _ => ⟨show 10 ≤ 12 by decide, show 12 < 29 by decide⟩, fun i j => coin23_nz (i + 10 * j) 2, fun i j => coin23_nz (i + 10 * j) 3,
      fun _ l => List.reverse_perm l, fun i => coin23_nz i 5⟩
  x := by decide
  y := by decide
  nodupX := by decide
  nodupY := by decide
  sizeY := by decide
  inj := by decide +kernel

theorem hash8_lt (b : List UInt8) : ofBytes (hash23 b) < 2 ^ 8 := by
  have := ofBytes_lt (hash23 b)
  exact lt_of_lt_of_eq this rfl

theorem R23_spec : ∀ r : Fin setup23.q, ∃ x y hxy, hashToCurve hash23 8 C23 sqrt23 40 (natBytes r) = some (.ok (x, y)) ∧
    R23 r = .some (x : ZMod C23.p) (y : ZMod C23.p) hxy := by
  intro r
  have hr : (r : Nat) < 256 := lt_trans r.isLt (by decide)
  have hok : ∀ r : Fin 29, (match hashToCurve hash23 8 C23 sqrt23 40 (bytes23 r) with | some (.ok _) => true | _ => false) = true := by decide +kernel
  have h := hok r
  have e := natBytes_lt r hr
  rw [e]
  generalize ho : hashToCurve hash23 8 C23 sqrt23 40 (bytes23 r) = o at h
  match o, h, ho with
  | some (.ok (x, y)), _, ho =>
    obtain ⟨x', y', e1, e2⟩ := C27_on_curve hash23 8 (by decide) hash8_lt C23 prime23 (by decide) (by unfold OracleSize bitLength; decide +kernel)
      sqrt23 sqrt23_spec 40 _ _ ho
    obtain ⟨rfl, rfl⟩ := Prod.mk.inj (Outcome.ok.inj e1)
    refine ⟨x, y, e2, rfl, ?_⟩
    have : R23 r = point23 (bytes23 r) := rfl
    rw [this, point23, ho]
    simp only [e2, dite_true]

/-- The hypotheses of the curve theorem are met: `3` is not in the intersection and shows an odd y-coordinate for half of
the draws; whenever the second point has an odd y-coordinate, `5` would not be in the intersection. -/
example (s' : OgSt (Pt C23)) (h' : dayOg setup23.og codec23 codec23 H23 Props.toyHash ⟨Og0.init 4 1, Og1.init 4 1⟩ day23.xs day23.ys day23.coins = .ok s') :
    Nat.card {x : Fin 2 → Fin 28 × Fin 29 // ∃ ws p, pointsIV setup23.og codec23 codec23 H23 Props.toyHash ⟨Og0.init 4 1, Og1.init 4 1⟩
      (redrawIV (q := 29) R23 day23 x) = .ok ws ∧ ws[0]? = some p ∧ oddY p = true} * 2 = Nat.card (Fin 2 → Fin 28 × Fin 29) :=
  (C67_message_iv_leak setup23 (by decide) (by decide) codec23 codec23 H23 Props.toyHash (fun _ => Props.toyHash_len _) 10 4 1 [] day23 adm23
    _ s' init23 h' hash23 8 (by decide) hash8_lt (by unfold OracleSize bitLength; decide +kernel) sqrt23 sqrt23_spec 40 R23 R23_spec 0 (by decide)).2
    (fun h => absurd h.1 (by decide))

/-- Different random numbers give different points; all of them have an even y-coordinate. -/
example : R23 0 ≠ R23 1 ∧ R23 1 ≠ R23 2 ∧ ∀ r, oddY (R23 r) = false := by decide +kernel

theorem snoc_days {σ δ : Type} {step : σ → δ → Outcome σ} {ds : List δ} {d : δ} {s s2 : σ} (h : runDays step s (ds ++ [d]) = .ok s2) :
    ∃ s1, runDays step s ds = .ok s1 ∧ step s1 d = .ok s2 := by
  induction ds generalizing s with
  | nil =>
    simp only [List.nil_append, runDays, Outcome.bind_eq_ok, Outcome.ok.injEq] at h
    obtain ⟨s1, h1, rfl⟩ := h
    exact ⟨s, rfl, h1⟩
  | cons a ds ih =>
    simp only [List.cons_append, runDays, Outcome.bind_eq_ok] at h
    obtain ⟨s1, h1, h2⟩ := h
    obtain ⟨s3, h3, h4⟩ := ih h2
    exact ⟨s3, by simp only [runDays, h1, Outcome.bind_ok, h3], h4⟩

/-! Messages II to IV: day 2 of the history of C48's examples, with several matches on one day. -/

/-- Day 1: `{3}` and `{5}`; day 2: `{8, 7, 6, 5}` and `{3, 7, 8}`. -/
def twoMatches : List (OgDay (ZMod 65521)) × OgDay (ZMod 65521) :=
  ([⟨[3], [5], ogCoins [Props.toyHash 1]⟩], ⟨[8, 7, 6, 5], [3, 7, 8], ogCoins [Props.toyHash 0, Props.toyHash 3, Props.toyHash 2]⟩)

theorem twoMatches_adm : OgAdmissible toySetup 50 ogHash [] [] (twoMatches.1 ++ [twoMatches.2]) where
  bound := by decide
  key0 := by simp only [NonZero, toySetup]; omega
  key1 := by simp only [NonZero, toySetup]; omega
  coins := by
    intro d hd
    simp only [twoMatches, List.cons_append, List.nil_append, List.mem_cons, List.not_mem_nil, or_false] at hd
    rcases hd with rfl | rfl
    · exact ogCoins_wf ⟨rfl, by intro y hy; simp only [List.mem_cons, List.not_mem_nil, or_false] at hy; subst hy; exact Props.toyHash_len _⟩
    · exact ogCoins_wf ⟨rfl, by
        intro y hy; simp only [List.mem_cons, List.not_mem_nil, or_false] at hy
        rcases hy with rfl | rfl | rfl <;> exact Props.toyHash_len _⟩
  x := by decide
  y := by decide
  nodupX := by decide
  nodupY := by decide
  sizeY := by decide
  inj := by decide

theorem twoMatches_run : ∃ s, runOg toySetup.og toyCodec65521 toyCodec65521 ogHash Props.toyHash 4 1 (twoMatches.1 ++ [twoMatches.2]) = .ok s ∧
    (s.p1.lost == []) = true := holds_ok (by decide +kernel)

/-- Three of party zero's four elements of the day match, so in message II party one sees the point `hr` in three of the
four candidate sets. -/
example : ∃ (s : OgSt (ZMod 65521)) (N : Fin 4 → Nat) (v : (∀ i, Fin (N i) → Fin 65520) → ∀ i, Fin (N i) → ZMod 65521), 
    runOg toySetup.og toyCodec65521 toyCodec65521 ogHash Props.toyHash 4 1 twoMatches.1 = .ok s ∧
    (∀ x r, plainII toySetup.og toyCodec65521 toyCodec65521 ogHash Props.toyHash s (redrawII (q := 65521) twoMatches.2 x) = .ok r →
      r = List.ofFn fun i => List.ofFn fun j => v x i j) ∧
    ∀ (x : ∀ i, Fin (N i) → Fin 65520) i, (∃ j, v x i j = 777) ↔ i ≠ 2 := by
  obtain ⟨s', h, hl⟩ := twoMatches_run
  obtain ⟨s, h1, h2⟩ := snoc_days h
  obtain ⟨N, v, hit, a1, a2, a3, _⟩ := C67_message_ii_leak toySetup toyCodec65521 toyCodec65521 ogHash Props.toyHash
    (fun _ => Props.toyHash_len _) 50 4 1 twoMatches.1 twoMatches.2 twoMatches_adm s s' h1 h2
  refine ⟨s, N, v, h1, a1, fun x i => ?_⟩
  have e : ∀ j, v x i j = 777 ↔ hit i j = true := fun j => a3 x i j
  refine (exists_congr e).trans ((a2 i).trans ?_)
  simp only [beq_iff_eq] at hl
  rw [hl]
  have : ∀ i : Fin twoMatches.2.xs.length,
      (twoMatches.2.xs[i] ∈ ogY (twoMatches.1 ++ [twoMatches.2]) ∧ twoMatches.2.xs[i] ∉ ([] : List Nat)) ↔ (i : Nat) ≠ 2 := by decide
  refine (this i).trans (not_congr ?_)
  exact ⟨fun h => Fin.ext h, fun h => congrArg Fin.val h⟩

end Upsi.View.Examples
