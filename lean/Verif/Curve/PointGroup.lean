import Verif.Curve.PointUtilProps
import Verif.Curve.CipherProps
import Mathlib.Tactic.LinearCombination
/-
C77, continued: the encoding over the group of the curve (as defined in Mathlib), hashing and random points.
-/
namespace Upsi.Curve
open Upsi Upsi.Num Upsi.ElGamal

/-! ### Specification -/

/-- The affine coordinates of an element of the group of the curve; `none` for its zero, the point at infinity. -/
def coords {C : Params} : (curve C).Point → Option (Nat × Nat)
  | .zero => none
  | .some x y _ => some (x.val, y.val)

/-- The curve is not singular. -/
def Smooth (C : Params) : Prop := (curve C).Δ ≠ 0

/-! ### Lemmas -/

section
variable {C : Params} [Fact C.p.Prime]

theorem equation_nat (x y : ZMod C.p) : (curve C).Equation x y ↔ OnCurve C x.val y.val := by
  have hx : ((x.val : Nat) : ZMod C.p) = x := ZMod.natCast_zmod_val x
  have hy : ((y.val : Nat) : ZMod C.p) = y := ZMod.natCast_zmod_val y
  rw [WeierstrassCurve.Affine.equation_iff]
  unfold OnCurve
  rw [← ZMod.natCast_eq_natCast_iff']
  push_cast
  rw [hx, hy]
  simp only [curve, ZMod.val_lt, true_and]
  constructor
  · intro h; linear_combination h
  · intro h; linear_combination h

theorem nonsingular_nat (hd : Smooth C) (x y : ZMod C.p) : (curve C).Nonsingular x y ↔ OnCurve C x.val y.val := by
  rw [← equation_nat]
  exact ((curve C).equation_iff_nonsingular_of_Δ_ne_zero hd).symm

/-- The element of the group with the given coordinates. -/
noncomputable def pointOf (xy : Nat × Nat) : Option (curve C).Point :=
  open Classical in
  if h : (curve C).Nonsingular (xy.1 : ZMod C.p) (xy.2 : ZMod C.p) then some (.some _ _ h) else none

theorem coords_zero_iff (P : (curve C).Point) : coords P = none ↔ P = 0 := by
  cases P with
  | zero => exact ⟨fun _ => rfl, fun _ => rfl⟩
  | some x y h => exact ⟨fun h => by simp [coords] at h, fun h => absurd h (WeierstrassCurve.Affine.Point.some_ne_zero _)⟩

theorem coords_onCurve (hd : Smooth C) {P : (curve C).Point} {x y : Nat} (h : coords P = some (x, y)) : OnCurve C x y := by
  cases P with
  | zero => simp [coords] at h
  | some u v hn =>
    simp only [coords, Option.some.injEq, Prod.mk.injEq] at h
    rw [← h.1, ← h.2]
    exact (nonsingular_nat hd u v).1 hn

theorem pointOf_coords {P : (curve C).Point} {xy : Nat × Nat} (h : coords P = some xy) : pointOf xy = some P := by
  cases P with
  | zero => simp [coords] at h
  | some u v hn =>
    obtain rfl := Option.some.inj h
    have hu : ((u.val : Nat) : ZMod C.p) = u := ZMod.natCast_zmod_val u
    have hv : ((v.val : Nat) : ZMod C.p) = v := ZMod.natCast_zmod_val v
    have hn' : (curve C).Nonsingular ((u.val : Nat) : ZMod C.p) ((v.val : Nat) : ZMod C.p) := by rw [hu, hv]; exact hn
    refine (dif_pos hn').trans ?_
    simp only [ZMod.natCast_zmod_val]

theorem coords_pointOf {P : (curve C).Point} {x y : Nat} (hx : x < C.p) (hy : y < C.p) (h : pointOf (x, y) = some P) :
    coords P = some (x, y) := by
  unfold pointOf at h
  split at h
  · obtain rfl := Option.some.inj h
    simp only [coords, ZMod.val_natCast, Nat.mod_eq_of_lt hx, Nat.mod_eq_of_lt hy]
  · simp at h

theorem pointOf_some (hd : Smooth C) {x y : Nat} (h : OnCurve C x y) : ∃ P : (curve C).Point, pointOf (x, y) = some P := by
  have : (curve C).Nonsingular (x : ZMod C.p) (y : ZMod C.p) := by
    rw [nonsingular_nat hd, ZMod.val_natCast, ZMod.val_natCast, Nat.mod_eq_of_lt h.1, Nat.mod_eq_of_lt h.2.1]
    exact h
  exact ⟨_, dif_pos this⟩

theorem coords_inj {P Q : (curve C).Point} (h : coords P = coords Q) : P = Q := by
  cases hP : coords P with
  | none =>
    rw [(coords_zero_iff P).1 hP, (coords_zero_iff Q).1 (h ▸ hP)]
  | some xy =>
    have := pointOf_coords hP
    rw [pointOf_coords (h ▸ hP)] at this
    exact (Option.some.inj this).symm

/-- The encoding of the points of a curve, in the form used by the other modules of the model. -/
noncomputable def sec1 (C : Params) [Fact C.p.Prime] (h2 : C.p ≠ 2) (hd : Smooth C) {L : Nat} (hL : FieldBytes C L)
    (sqrt : Nat → Nat) (hsq : SqrtMod C.p sqrt) : Codec (curve C).Point where
  enc P := match toBytesCompressed C (coords P) with
    | .ok b => b
    | _ => []
  dec b := (oct2point C sqrt b).bind pointOf
  dec_enc P hP := by
    cases h : coords P with
    | none => exact absurd ((coords_zero_iff P).1 h) hP
    | some xy =>
      obtain ⟨x, y⟩ := xy
      have hc := coords_onCurve hd h
      obtain ⟨b, _, e, _, hb, _⟩ := (C77_encode (Fact.out : C.p.Prime) h2 hL hsq).1 x y hc
      simp only [e]
      rw [(oct2point_iff Fact.out h2 hL hsq b x y).2 ⟨hc, .inl hb⟩]
      exact pointOf_coords h

/-! ### Theorems -/

/-- **C77** On a non-singular curve the group elements other than zero are exactly the pairs on the curve, and the reading
and writing of points used throughout the model are the ones of this file. -/
theorem C77_group (h2 : C.p ≠ 2) (hd : Smooth C) {L : Nat} (hL : FieldBytes C L) (sqrt : Nat → Nat)
    (hsq : SqrtMod C.p sqrt) :
    (∀ x y, OnCurve C x y ↔ ∃ P : (curve C).Point, coords P = some (x, y)) ∧
    (∀ P : (curve C).Point, pointToBytes (sec1 C h2 hd hL sqrt hsq) P = toBytesCompressed C (coords P)) ∧
    (∀ (b : Bytes) (P : (curve C).Point), createECPoint (sec1 C h2 hd hL sqrt hsq) b = .ok P ↔
      ∃ xy, createFromBytes C sqrt b = .ok xy ∧ coords P = some xy) := by
  refine ⟨fun x y => ⟨fun h => ?_, fun ⟨P, h⟩ => coords_onCurve hd h⟩, fun P => ?_, fun b P => ?_⟩
  · obtain ⟨P, hP⟩ := pointOf_some hd h
    exact ⟨P, coords_pointOf h.1 h.2.1 hP⟩
  · unfold pointToBytes
    cases h : coords P with
    | none => rw [if_pos ((coords_zero_iff P).1 h)]; rfl
    | some xy =>
      rw [if_neg (fun e => by rw [(coords_zero_iff P).2 e] at h; simp at h)]
      simp only [sec1, h]
      rfl
  · unfold createECPoint createFromBytes
    simp only [sec1]
    cases h : oct2point C sqrt b with
    | none => simp
    | some q =>
      obtain ⟨u, v⟩ := q
      have hc := ((oct2point_iff Fact.out h2 hL hsq b u v).1 h).1
      have hv : isValid C (some (u, v)) = true := decide_eq_true hc.2.2
      obtain ⟨Q, hQ⟩ := pointOf_some hd hc
      have hcQ := coords_pointOf hc.1 hc.2.1 hQ
      have hQ0 : Q ≠ 0 := fun e => by rw [(coords_zero_iff Q).2 e] at hcQ; simp at hcQ
      simp only [Option.bind_some, hQ, if_neg hQ0, hv, if_true]
      constructor
      · intro e; rw [← Outcome.ok.inj e]; exact ⟨_, rfl, hcQ⟩
      · rintro ⟨xy, e, hP⟩
        rw [← Outcome.ok.inj e] at hP
        rw [coords_inj (hcQ.trans hP.symm)]

/-- **C77** `GetRandomCurvePoint` of a group of prime order `q` with generator `g`: for every draw it returns `L + 1` bytes
that `IsCurvePoint` accepts; over the `q - 1` possible draws each point of the group other than infinity appears exactly
once. -/
theorem C77_random (h2 : C.p ≠ 2) (hd : Smooth C) {L : Nat} (hL : FieldBytes C L) (sqrt : Nat → Nat)
    (hsq : SqrtMod C.p sqrt) {q : Nat} (hq : q.Prime) (g : (curve C).Point) (hg : g ≠ 0) (hqg : (q : Int) • g = 0) :
    (∀ coin, ∃ b, getRandomCurvePoint C (fun k => coords (k • g)) q coin = .ok b ∧ b.length = L + 1 ∧
      isCurvePoint C sqrt b = true) ∧
    (∀ (P : (curve C).Point), P ≠ 0 → (∃ k : Int, P = k • g) →
      ∃! coin, coin < q - 1 ∧ getRandomCurvePoint C (fun k => coords (k • g)) q coin = toBytesCompressed C (coords P)) := by
  have hp : C.p.Prime := Fact.out
  have hq2 := hq.two_le
  have hdraw : ∀ coin, getRandomCurvePoint C (fun k => coords (k • g)) q coin =
      toBytesCompressed C (coords (((coin % (q - 1) + 1 : Nat) : Int) • g)) := by
    intro coin
    have e : ((coin : Int) % ((q : Int) - 1) + 1) = ((coin % (q - 1) + 1 : Nat) : Int) := by
      push_cast [Nat.cast_sub (show 1 ≤ q by omega)]; rfl
    have h1 : (1 : Int) < q := by omega
    have h3 : ¬ (q : Int) - 1 ≤ 0 := by omega
    simp only [getRandomCurvePoint, randomGenerator, randBetween, randLessThan, if_pos h1, if_neg h3]
    change toBytesCompressed C (coords (((coin : Int) % ((q : Int) - 1) + 1) • g)) = _
    rw [e]
  have hord : ∀ k : Int, k • g = 0 ↔ (q : Int) ∣ k := by
    have hn : (q : ℕ) • g = 0 := by rw [← natCast_zsmul]; exact hqg
    have ho : addOrderOf g = q := by
      haveI := Fact.mk hq
      exact addOrderOf_eq_prime hn hg
    intro k
    rw [← ho]
    exact addOrderOf_dvd_iff_zsmul_eq_zero.symm
  have hne : ∀ k : Nat, k < q - 1 → (((k + 1 : Nat) : Int) • g) ≠ 0 := by
    intro k hk h
    have := Int.natCast_dvd_natCast.1 ((hord _).1 h)
    have := Nat.le_of_dvd (by omega) this
    omega
  have henc : ∀ P : (curve C).Point, P ≠ 0 → ∃ b x y, coords P = some (x, y) ∧ toBytesCompressed C (coords P) = .ok b ∧
      b.length = L + 1 ∧ OnCurve C x y ∧ createFromBytes C sqrt b = .ok (x, y) := by
    intro P hP
    cases h : coords P with
    | none => exact absurd ((coords_zero_iff P).1 h) hP
    | some xy =>
      obtain ⟨b, _, e, l, _, d, _⟩ := (C77_encode hp h2 hL hsq).1 xy.1 xy.2 (coords_onCurve hd h)
      exact ⟨b, xy.1, xy.2, rfl, e, l, coords_onCurve hd h, d⟩
  refine ⟨fun coin => ?_, ?_⟩
  · obtain ⟨b, x, y, _, e, l, _, d⟩ := henc _ (hne (coin % (q - 1)) (Nat.mod_lt _ (by omega)))
    exact ⟨b, (hdraw coin).trans e, l, by unfold isCurvePoint; rw [d]; rfl⟩
  · rintro P hP ⟨k, rfl⟩
    have hk : ¬ (q : Int) ∣ k := fun h => hP ((hord k).2 h)
    have hr : 0 ≤ k % (q : Int) := Int.emod_nonneg _ (by omega)
    have hr' : k % (q : Int) < q := Int.emod_lt_of_pos _ (by omega)
    have hr0 : k % (q : Int) ≠ 0 := fun h => hk (Int.dvd_of_emod_eq_zero h)
    refine ⟨(k % (q : Int)).toNat - 1, ⟨by omega, ?_⟩, ?_⟩
    · rw [hdraw, Nat.mod_eq_of_lt (by omega)]
      have : (((k % (q : Int)).toNat - 1 + 1 : Nat) : Int) = k % (q : Int) := by omega
      rw [this]
      have hz : (k % (q : Int)) • g = k • g := by
        rw [← sub_eq_zero, ← sub_smul, hord]
        exact ⟨-(k / q), by have := Int.emod_add_mul_ediv k q; linarith⟩
      rw [hz]
    · rintro c ⟨hc, he⟩
      rw [hdraw, Nat.mod_eq_of_lt hc] at he
      obtain ⟨b, x, y, c1, e1, _, o1, d1⟩ := henc _ (hne c hc)
      obtain ⟨b', x', y', c2, e2, _, o2, d2⟩ := henc _ hP
      rw [c1, c2] at he
      obtain ⟨rfl, rfl⟩ := C77_injective hp h2 hL hsq o1 o2 he
      have := coords_inj (c1.trans c2.symm)
      rw [← sub_eq_zero, ← sub_smul, hord] at this
      obtain ⟨m, hm⟩ := this
      have h5 : ((c + 1 : Nat) : Int) % q = k % q := by
        have : ((c + 1 : Nat) : Int) = k + q * m := by linarith
        rw [this, Int.add_mul_emod_self_left]
      rw [Int.emod_eq_of_lt (by omega) (by omega)] at h5
      omega

end

/-- **C77** `HashToCurve` with SHA-256 or SHA-512: whenever it returns, it returns `L + 1` bytes accepted by `IsCurvePoint`,
the compressed form of the first usable candidate with its even root (C27), so they start with the byte 2; equal
inputs give equal bytes whatever root the library picks. Every other hash type is refused at once. -/
theorem C77_hash {C : Params} (hp : C.p.Prime) (h2 : C.p ≠ 2) {L : Nat} (hL : FieldBytes C L) {sqrt : Nat → Nat}
    (hsq : SqrtMod C.p sqrt) (H512 H256 : Bytes → Bytes) (h512 : ∀ b, ofBytes (H512 b) < 2 ^ 512)
    (h256 : ∀ b, ofBytes (H256 b) < 2 ^ 256) (hs : OracleSize 512 (bitLength C.p)) (hs' : OracleSize 256 (bitLength C.p))
    (fuel : Nat) (m : Bytes) (t : Int) :
    (t ≠ HashType.SHA256.toInt → t ≠ HashType.SHA512.toInt →
      utilHashToCurve H512 H256 C sqrt fuel m t = some (.err "Invalid hash type.")) ∧
    (∀ H len, (t = HashType.SHA256.toInt ∧ H = H256 ∧ len = 256) ∨ (t = HashType.SHA512.toInt ∧ H = H512 ∧ len = 512) →
      ∀ o, utilHashToCurve H512 H256 C sqrt fuel m t = some o ↔
        ∃ k, k < fuel ∧ (∀ j, j < k → ¬ Usable C (candidate H len C.p m j)) ∧
          ∃ x y b, x = candidate H len C.p m k ∧ OnCurve C x y ∧ 0 < y ∧ y % 2 = 0 ∧ o = .ok b ∧ Compressed L x y b ∧
            isCurvePoint C sqrt b = true) := by
  have hne : HashType.SHA256.toInt ≠ HashType.SHA512.toInt := by decide
  refine ⟨fun h1 h3 => by simp [utilHashToCurve, h1, h3], ?_⟩
  have key : ∀ (H : Bytes → Bytes) len, 0 < len → (∀ b, ofBytes (H b) < 2 ^ len) → OracleSize len (bitLength C.p) →
      ∀ o, (hashToCurve H len C sqrt fuel m).map (finishHash C) = some o ↔
        ∃ k, k < fuel ∧ (∀ j, j < k → ¬ Usable C (candidate H len C.p m j)) ∧
          ∃ x y b, x = candidate H len C.p m k ∧ OnCurve C x y ∧ 0 < y ∧ y % 2 = 0 ∧ o = .ok b ∧ Compressed L x y b ∧
            isCurvePoint C sqrt b = true := by
    intro H len hl hH hs o
    rw [Option.map_eq_some_iff]
    constructor
    · rintro ⟨a, ha, rfl⟩
      obtain ⟨k, hk, hmin, x, y, rfl, hx, hxl, y0, yl, ye, yr⟩ := (C27_exact H len hl hH C hp h2 hs sqrt hsq fuel m a).1 ha
      have hc : OnCurve C x y := ⟨hxl, yl, yr⟩
      obtain ⟨b, _, e, _, hb, d, _⟩ := (C77_encode hp h2 hL hsq).1 x y hc
      exact ⟨k, hk, hmin, x, y, b, hx, hc, y0, ye, e, hb, by unfold isCurvePoint; rw [d]; rfl⟩
    · rintro ⟨k, hk, hmin, x, y, b, hx, hc, y0, ye, rfl, hb, _⟩
      refine ⟨.ok (x, y), (C27_exact H len hl hH C hp h2 hs sqrt hsq fuel m _).2
        ⟨k, hk, hmin, x, y, rfl, hx, hc.1, y0, hc.2.1, ye, hc.2.2⟩, ?_⟩
      obtain ⟨b', _, e, _, hb', _⟩ := (C77_encode hp h2 hL hsq).1 x y hc
      rw [hb.unique hb']
      exact e
  rintro H len (⟨rfl, rfl, rfl⟩ | ⟨rfl, rfl, rfl⟩) o
  · rw [← key H 256 (by decide) h256 hs' o]
    unfold utilHashToCurve
    rw [if_neg hne, if_pos rfl]
  · rw [← key H 512 (by decide) h512 hs o]
    unfold utilHashToCurve
    rw [if_pos rfl]

/-- **C77** The hash returned by `HashToCurve` does not depend on which square root the arithmetic library returns. -/
theorem C77_hash_deterministic {C : Params} (hp : C.p.Prime) (h2 : C.p ≠ 2) (H512 H256 : Bytes → Bytes)
    (h512 : ∀ b, ofBytes (H512 b) < 2 ^ 512) (h256 : ∀ b, ofBytes (H256 b) < 2 ^ 256)
    (hs : OracleSize 512 (bitLength C.p)) (hs' : OracleSize 256 (bitLength C.p)) {s1 s2 : Nat → Nat}
    (h1 : SqrtMod C.p s1) (h3 : SqrtMod C.p s2) (fuel : Nat) (m : Bytes) (t : Int) :
    utilHashToCurve H512 H256 C s1 fuel m t = utilHashToCurve H512 H256 C s2 fuel m t := by
  unfold utilHashToCurve
  rw [C27_deterministic H512 512 (by decide) h512 C hp h2 hs s1 s2 h1 h3 fuel m,
    C27_deterministic H256 256 (by decide) h256 C hp h2 hs' s1 s2 h1 h3 fuel m]

/-- **C77** `Create` succeeds exactly for a curve the library knows and whose field passes the primality test; the object then
works on that curve. Otherwise an error is returned. -/
theorem C77_create (lookup : Int → Option Params) (isPrime : Nat → Bool) (id : Int) :
    (∀ C, createPointUtil lookup isPrime id = .ok C ↔ lookup id = some C ∧ isPrime C.p = true) ∧
    ((∃ C, createPointUtil lookup isPrime id = .ok C) ∨ ∃ e, createPointUtil lookup isPrime id = .err e) := by
  unfold createPointUtil createGroup
  cases h : lookup id with
  | none => simp
  | some D =>
    by_cases hp : isPrime D.p = true
    · simp only [if_pos hp]
      exact ⟨fun C => ⟨fun e => by rw [Outcome.ok.inj e] at hp ⊢; exact ⟨rfl, hp⟩,
        fun e => by rw [Option.some.inj e.1]⟩, .inl ⟨_, rfl⟩⟩
    · simp only [if_neg hp]
      exact ⟨fun C => ⟨fun e => by simp at e, fun e => absurd (Option.some.inj e.1 ▸ e.2) hp⟩, .inr ⟨_, rfl⟩⟩

/-! Non-vacuity: the curve `y² = x³ + x + 1` over the field with 7 elements; its group has 5 elements. -/

theorem toy_sqrt : SqrtMod 7 toySqrt := by
  rintro q hq ⟨r, hr⟩
  have h : r % 7 * (r % 7) % 7 = q := by rw [← Nat.mul_mod]; exact hr
  have h7 : r % 7 < 7 := Nat.mod_lt _ (by decide)
  generalize r % 7 = s at *
  subst h
  interval_cases s <;> decide

instance : Fact (toyCurve.p.Prime) := ⟨by decide⟩

example : FieldBytes toyCurve 1 := ⟨by decide, by decide⟩
theorem toy_smooth : Smooth toyCurve := by
  unfold Smooth curve toyCurve
  simp only [WeierstrassCurve.Δ, WeierstrassCurve.b₂, WeierstrassCurve.b₄, WeierstrassCurve.b₆, WeierstrassCurve.b₈]
  decide

/-- The points `(2, 5)` and `(2, 2)` in both forms; `x = 1` is on no point, and 9 is not reduced. -/
example : toBytesCompressed toyCurve (some (2, 5)) = .ok [3, 2] := by decide +kernel
example : createFromBytes toyCurve toySqrt [3, 2] = .ok (2, 5) ∧ createFromBytes toyCurve toySqrt [4, 2, 5] = .ok (2, 5) ∧
    createFromBytes toyCurve toySqrt [2, 2] = .ok (2, 2) := by decide +kernel
example : isCurvePoint toyCurve toySqrt [2, 1] = false ∧ isCurvePoint toyCurve toySqrt [2, 9] = false ∧
    isCurvePoint toyCurve toySqrt [0] = false ∧ isCurvePoint toyCurve toySqrt [] = false := by decide +kernel

/-- The generator `(0, 1)`. -/
def toyGen : (curve toyCurve).Point :=
  .some 0 1 (by
    rw [nonsingular_nat toy_smooth]
    exact ⟨by decide, by decide, by decide⟩)

example : toyGen ≠ 0 := by decide +kernel
example : (5 : Int) • toyGen = 0 := by decide +kernel
example : getRandomCurvePoint toyCurve (fun k => coords (k • toyGen)) 5 6 = .ok [2, 2] := by decide +kernel
example (b : Bytes) : ofBytes (toyHash8 b) < 2 ^ 256 := lt_trans (by simpa [toyHash8] using ofBytes_lt (toyHash8 b)) (by norm_num : 256 ^ 1 < 2 ^ 256)
example : OracleSize 256 (bitLength toyCurve.p) ∧ OracleSize 512 (bitLength toyCurve.p) := by
  unfold OracleSize bitLength; decide +kernel
example : utilHashToCurve toyHash8 toyHash8 toyCurve toySqrt 20 [1, 7, 3] 0 = some (.ok [2, 2]) := by decide +kernel

end Upsi.Curve
