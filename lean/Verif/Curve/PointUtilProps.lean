import Verif.Curve.PointUtil
import Verif.Curve.HashProps
import Verif.Curve.OracleMore
/-
Property theorems C77: points as strings of bytes, and `ECPointUtil`.
-/
namespace Upsi.Curve
open Upsi Upsi.Num

/-! ### Specification -/

/-- A pair of residues satisfying the equation of the curve. -/
def OnCurve (C : Params) (x y : Nat) : Prop :=
  x < C.p ∧ y < C.p ∧ y * y % C.p = (x ^ 3 + C.a * x + C.b) % C.p

/-- `L` is the number of bytes of the field's prime. -/
def FieldBytes (C : Params) (L : Nat) : Prop := 256 ^ (L - 1) ≤ C.p ∧ C.p < 256 ^ L

/-- SEC 1 compressed form: a byte 2 or 3 with the parity of `y`, and `L` bytes with the value `x`. -/
def Compressed (L x y : Nat) (b : Bytes) : Prop :=
  ∃ t body, b = t :: body ∧ t.toNat = 2 + y % 2 ∧ body.length = L ∧ ofBytes body = x

/-- SEC 1 uncompressed form: a byte 4, `L` bytes with the value `x` and `L` bytes with the value `y`. -/
def Uncompressed (L x y : Nat) (b : Bytes) : Prop :=
  ∃ t bx cy, b = t :: (bx ++ cy) ∧ t.toNat = 4 ∧ bx.length = L ∧ cy.length = L ∧ ofBytes bx = x ∧ ofBytes cy = y

/-! ### Lemmas -/

theorem root_cases {p : Nat} (hp : p.Prime) {r s : Nat} (hr : r < p) (hs : s < p) (h : r * r % p = s * s % p) :
    r = s ∨ r + s = p := by
  haveI : Fact p.Prime := ⟨hp⟩
  have hz : (r : ZMod p) * r = (s : ZMod p) * s := by
    rw [← Nat.cast_mul, ← Nat.cast_mul]
    exact (ZMod.natCast_eq_natCast_iff' _ _ _).2 h
  have : ((r : ZMod p) - s) * (r + s) = 0 := by ring_nf; rw [pow_two, pow_two, hz]; ring
  rcases mul_eq_zero.1 this with h | h
  · left
    have := sub_eq_zero.1 h
    have := (ZMod.natCast_eq_natCast_iff' _ _ _).1 this
    rwa [Nat.mod_eq_of_lt hr, Nat.mod_eq_of_lt hs] at this
  · rw [← Nat.cast_add] at h
    obtain ⟨k, hk⟩ := (ZMod.natCast_eq_zero_iff _ _).1 h
    have : k < 2 := by
      by_contra hk2
      have : p * 2 ≤ p * k := Nat.mul_le_mul_left p (by omega)
      omega
    interval_cases k <;> omega

theorem odd_of_prime {p : Nat} (hp : p.Prime) (h2 : p ≠ 2) : p % 2 = 1 := by
  rcases hp.eq_two_or_odd with h | h
  · exact absurd h h2
  · exact h

theorem sub_square {p s : Nat} (hs : s ≤ p) : (p - s) * (p - s) % p = s * s % p := by
  obtain ⟨d, rfl⟩ := Nat.exists_eq_add_of_le hs
  have : s * s + (s + d) * d = d * d + (s + d) * s := by ring
  have h := congrArg (· % (s + d)) this
  simp only [Nat.add_mul_mod_self_left] at h
  rw [Nat.add_sub_cancel_left]
  exact h.symm

theorem fieldLen_eq {C : Params} {L : Nat} (h : FieldBytes C L) (hp : 1 < C.p) : fieldLen C = L := by
  obtain ⟨h1, h2⟩ := h
  unfold fieldLen
  rw [C58_bit_length]
  have e : ∀ k, 256 ^ k = 2 ^ (8 * k) := fun k => by rw [Nat.pow_mul]
  rw [e] at h1 h2
  have u : C.p.size ≤ 8 * L := Nat.size_le.2 h2
  have l : 8 * (L - 1) < C.p.size := Nat.lt_size.2 h1
  have : L ≠ 0 := by rintro rfl; simp at h2; omega
  omega

theorem padBytes_length {n L : Nat} (h : n < 256 ^ L) : (padBytes (natBytes n) L).length = L := by
  have := (natBytes_length_le n L).2 h
  simp [padBytes]; omega

theorem ofBytes_inj {a b : Bytes} (hl : a.length = b.length) (h : ofBytes a = ofBytes b) : a = b := by
  induction a generalizing b with
  | nil => cases b with
    | nil => rfl
    | cons c b => simp at hl
  | cons x a ih =>
    cases b with
    | nil => simp at hl
    | cons c b =>
      simp only [List.length_cons, Nat.add_right_cancel_iff] at hl
      rw [ofBytes_cons, ofBytes_cons, hl] at h
      have h1 := ofBytes_lt a
      have h2 := ofBytes_lt b
      rw [hl] at h1
      have hx : x.toNat = c.toNat := by
        have e1 : (x.toNat * 256 ^ b.length + ofBytes a) / 256 ^ b.length = x.toNat := by
          rw [Nat.add_comm, Nat.add_mul_div_right _ _ (by positivity), Nat.div_eq_of_lt h1, Nat.zero_add]
        have e2 : (c.toNat * 256 ^ b.length + ofBytes b) / 256 ^ b.length = c.toNat := by
          rw [Nat.add_comm, Nat.add_mul_div_right _ _ (by positivity), Nat.div_eq_of_lt h2, Nat.zero_add]
        rw [← e1, h, e2]
      rw [hx] at h
      rw [UInt8.toNat_inj.1 hx, ih hl (by omega)]

theorem Compressed.unique {L x y : Nat} {b b' : Bytes} (h : Compressed L x y b) (h' : Compressed L x y b') : b = b' := by
  obtain ⟨t, r, rfl, e1, e2, e3⟩ := h
  obtain ⟨t', r', rfl, e1', e2', e3'⟩ := h'
  rw [UInt8.toNat_inj.1 (e1.trans e1'.symm), ofBytes_inj (e2.trans e2'.symm) (e3.trans e3'.symm)]

theorem setCompressed_iff {C : Params} (hp : C.p.Prime) (h2 : C.p ≠ 2) {sqrt : Nat → Nat} (hsq : SqrtMod C.p sqrt)
    {x t x' y : Nat} (hx : x < C.p) (ht : t < 2) :
    setCompressed C sqrt x t = some (x', y) ↔ x' = x ∧ y % 2 = t ∧ OnCurve C x y := by
  have hodd := odd_of_prime hp h2
  have hlt : ySquare C x < C.p := Nat.mod_lt _ hp.pos
  unfold setCompressed OnCurve
  simp only
  change _ ↔ x' = x ∧ y % 2 = t ∧ x < C.p ∧ y < C.p ∧ y * y % C.p = ySquare C x
  constructor
  · intro h
    split at h
    · rename_i hs
      have hl : sqrt (ySquare C x) < C.p := (hsq _ hlt ⟨_, hs⟩).1
      split at h
      · rename_i hb
        simp only [Option.some.injEq, Prod.mk.injEq] at h
        obtain ⟨rfl, rfl⟩ := h
        exact ⟨rfl, hb, hx, hl, hs⟩
      · rename_i hb
        split at h
        · simp at h
        · rename_i h0
          simp only [Option.some.injEq, Prod.mk.injEq] at h
          obtain ⟨rfl, rfl⟩ := h
          exact ⟨rfl, by omega, hx, by omega, (sub_square hl.le).trans hs⟩
    · simp at h
  · rintro ⟨rfl, rfl, _, yl, yr⟩
    obtain ⟨sl, ss⟩ := hsq _ hlt ⟨y, yr⟩
    rw [if_pos ss]
    rcases root_cases hp sl yl (ss.trans yr.symm) with e | e
    · rw [if_pos (by rw [e]), e]
    · by_cases hy : y = 0
      · omega
      · rw [if_neg (by omega), if_neg (by omega)]
        congr 2; omega

theorem oct2point_iff {C : Params} (hp : C.p.Prime) (h2 : C.p ≠ 2) {L : Nat} (hL : FieldBytes C L) {sqrt : Nat → Nat}
    (hsq : SqrtMod C.p sqrt) (b : Bytes) (x y : Nat) :
    oct2point C sqrt b = some (x, y) ↔ OnCurve C x y ∧ (Compressed L x y b ∨ Uncompressed L x y b) := by
  have hf := fieldLen_eq hL hp.one_lt
  cases b with
  | nil => simp [oct2point, Compressed, Uncompressed]
  | cons t body =>
    simp only [oct2point, hf]
    by_cases h4 : t.toNat = 4
    · rw [if_pos h4]
      have hnc : ¬ Compressed L x y (t :: body) := by
        rintro ⟨t', r, e, h, _⟩
        obtain ⟨rfl, rfl⟩ := List.cons.inj e
        omega
      simp only [hnc, false_or]
      constructor
      · intro h
        split at h
        · rename_i hl
          split at h
          · rename_i hc
            simp only [Option.some.injEq, Prod.mk.injEq] at h
            obtain ⟨rfl, rfl⟩ := h
            exact ⟨hc, t, body.take L, body.drop L, by rw [List.take_append_drop], h4, by simp; omega, by simp; omega,
              rfl, rfl⟩
          · simp at h
        · simp at h
      · rintro ⟨hc, t', bx, cy, e, _, lx, ly, rfl, rfl⟩
        obtain ⟨rfl, rfl⟩ := List.cons.inj e
        rw [if_pos (by simp; omega), List.take_left' lx, List.drop_left' lx]
        exact if_pos hc
    · rw [if_neg h4]
      have hnu : ¬ Uncompressed L x y (t :: body) := by
        rintro ⟨t', r, r', e, h, _⟩
        obtain ⟨rfl, rfl⟩ := List.cons.inj e
        omega
      simp only [hnu, or_false]
      constructor
      · intro h
        split at h
        · rename_i ht
          split at h
          · rename_i hl
            split at h
            · rename_i hx
              obtain ⟨rfl, hy, hc⟩ := (setCompressed_iff hp h2 hsq hx (by omega)).1 h
              exact ⟨hc, t, body, rfl, by omega, hl, rfl⟩
            · simp at h
          · simp at h
        · simp at h
      · rintro ⟨hc, t', r, e, ht, hl, rfl⟩
        obtain ⟨rfl, rfl⟩ := List.cons.inj e
        rw [if_pos (by omega), if_pos hl, if_pos hc.1]
        exact (setCompressed_iff hp h2 hsq hc.1 (by omega)).2 ⟨rfl, by omega, hc⟩

/-! ### Theorems -/

/-- **C77** A string of bytes is read as the point `(x, y)` exactly when the pair lies on the curve and the string is
its compressed or its uncompressed SEC 1 form.  No string is read as the point at infinity. -/
theorem C77_decode {C : Params} (hp : C.p.Prime) (h2 : C.p ≠ 2) {L : Nat} (hL : FieldBytes C L) {sqrt : Nat → Nat}
    (hsq : SqrtMod C.p sqrt) (b : Bytes) (x y : Nat) :
    createFromBytes C sqrt b = .ok (x, y) ↔ OnCurve C x y ∧ (Compressed L x y b ∨ Uncompressed L x y b) := by
  rw [← oct2point_iff hp h2 hL hsq]
  unfold createFromBytes
  cases h : oct2point C sqrt b with
  | none => simp
  | some q =>
    obtain ⟨u, v⟩ := q
    have hc := ((oct2point_iff hp h2 hL hsq b u v).1 h).1
    have : isValid C (some (u, v)) = true := decide_eq_true hc.2.2
    simp only [this, if_true]
    constructor
    · intro e; rw [Outcome.ok.inj e]
    · intro e; rw [Option.some.inj e]

/-- **C77** `IsCurvePoint` accepts exactly the two SEC 1 forms of the points of the curve. -/
theorem C77_is_point {C : Params} (hp : C.p.Prime) (h2 : C.p ≠ 2) {L : Nat} (hL : FieldBytes C L) {sqrt : Nat → Nat}
    (hsq : SqrtMod C.p sqrt) (b : Bytes) :
    isCurvePoint C sqrt b = true ↔ ∃ x y, OnCurve C x y ∧ (Compressed L x y b ∨ Uncompressed L x y b) := by
  unfold isCurvePoint
  rw [Outcome.isOk_iff]
  constructor
  · rintro ⟨⟨x, y⟩, h⟩
    exact ⟨x, y, (C77_decode hp h2 hL hsq b x y).1 h⟩
  · rintro ⟨x, y, h⟩
    exact ⟨(x, y), (C77_decode hp h2 hL hsq b x y).2 h⟩

/-- **C77** What it rejects is reported as an error: reading never aborts the process. -/
theorem C77_total (C : Params) (sqrt : Nat → Nat) (b : Bytes) :
    (∃ x y, createFromBytes C sqrt b = .ok (x, y)) ∨ ∃ e, createFromBytes C sqrt b = .err e := by
  unfold createFromBytes
  cases h : oct2point C sqrt b with
  | none => exact .inr ⟨_, rfl⟩
  | some q =>
    simp only
    split
    · exact .inl ⟨q.1, q.2, rfl⟩
    · exact .inr ⟨_, rfl⟩

/-- **C77** Every point of the curve has a compressed form of `L + 1` bytes and an uncompressed one of `2 L + 1` bytes;
both are read back as the same point. The point at infinity cannot be written. -/
theorem C77_encode {C : Params} (hp : C.p.Prime) (h2 : C.p ≠ 2) {L : Nat} (hL : FieldBytes C L) {sqrt : Nat → Nat}
    (hsq : SqrtMod C.p sqrt) :
    (∀ x y, OnCurve C x y → ∃ b u, toBytesCompressed C (some (x, y)) = .ok b ∧ b.length = L + 1 ∧ Compressed L x y b ∧
      createFromBytes C sqrt b = .ok (x, y) ∧
      toBytesUncompressed C (some (x, y)) = .ok u ∧ u.length = 2 * L + 1 ∧ Uncompressed L x y u ∧
      createFromBytes C sqrt u = .ok (x, y)) ∧
    (∃ e, toBytesCompressed C none = .err e) ∧ (∃ e, toBytesUncompressed C none = .err e) := by
  refine ⟨fun x y h => ?_, ⟨_, rfl⟩, ⟨_, rfl⟩⟩
  have hf := fieldLen_eq hL hp.one_lt
  have lx := padBytes_length (lt_trans h.1 hL.2)
  have ly := padBytes_length (lt_trans h.2.1 hL.2)
  have vx : ofBytes (padBytes (natBytes x) L) = x := by rw [ofBytes_padBytes, ofBytes_natBytes]
  have vy : ofBytes (padBytes (natBytes y) L) = y := by rw [ofBytes_padBytes, ofBytes_natBytes]
  have hc : Compressed L x y (UInt8.ofNat (2 + y % 2) :: padBytes (natBytes x) L) :=
    ⟨_, _, rfl, by rcases Nat.mod_two_eq_zero_or_one y with e | e <;> rw [e] <;> rfl, lx, vx⟩
  have hu : Uncompressed L x y (4 :: (padBytes (natBytes x) L ++ padBytes (natBytes y) L)) :=
    ⟨4, _, _, rfl, rfl, lx, ly, vx, vy⟩
  refine ⟨_, _, by simp only [toBytesCompressed, feBytes, hf], by simp [lx], hc,
    (C77_decode hp h2 hL hsq _ x y).2 ⟨h, .inl hc⟩, by simp only [toBytesUncompressed, feBytes, hf], by simp [lx, ly]; omega,
    hu, (C77_decode hp h2 hL hsq _ x y).2 ⟨h, .inr hu⟩⟩

/-- **C77** Reading and writing again compresses: the result is the given string exactly when that had `L + 1` bytes. So a
point is written in one way only, but two strings are accepted for it. -/
theorem C77_canonical {C : Params} (hp : C.p.Prime) (h2 : C.p ≠ 2) {L : Nat} (hL : FieldBytes C L) {sqrt : Nat → Nat}
    (hsq : SqrtMod C.p sqrt) (b : Bytes) (pt : Nat × Nat) (h : createFromBytes C sqrt b = .ok pt) :
    ∃ b', toBytesCompressed C (some pt) = .ok b' ∧ (b' = b ↔ b.length = L + 1) ∧ (b.length = L + 1 ∨ b.length = 2 * L + 1) := by
  obtain ⟨x, y⟩ := pt
  obtain ⟨hc, hb⟩ := (C77_decode hp h2 hL hsq b x y).1 h
  obtain ⟨b', _, e, l, hcb, _⟩ := (C77_encode hp h2 hL hsq).1 x y hc
  have hL0 : L ≠ 0 := by rintro rfl; have := hL.2; have := hp.one_lt; simp at *; omega
  refine ⟨b', e, ?_, ?_⟩
  · constructor
    · rintro rfl; exact l
    · intro hl
      rcases hb with hb | ⟨t, bx, cy, rfl, _, l1, l2, _⟩
      · exact hcb.unique hb
      · simp at hl; omega
  · rcases hb with ⟨t, r, rfl, _, l1, _⟩ | ⟨t, bx, cy, rfl, _, l1, l2, _⟩
    · exact .inl (by simp [l1])
    · exact .inr (by simp; omega)

/-- **C77** Two points with the same compressed bytes are equal. -/
theorem C77_injective {C : Params} (hp : C.p.Prime) (h2 : C.p ≠ 2) {L : Nat} (hL : FieldBytes C L) {sqrt : Nat → Nat}
    (hsq : SqrtMod C.p sqrt) {x y x' y' : Nat} (h : OnCurve C x y) (h' : OnCurve C x' y')
    (e : toBytesCompressed C (some (x, y)) = toBytesCompressed C (some (x', y'))) : x = x' ∧ y = y' := by
  obtain ⟨b, _, e1, _, _, d1, _⟩ := (C77_encode hp h2 hL hsq).1 x y h
  obtain ⟨b', _, e2, _, _, d2, _⟩ := (C77_encode hp h2 hL hsq).1 x' y' h'
  rw [e1, e2] at e
  rw [Outcome.ok.inj e, d2] at d1
  have := Outcome.ok.inj d1
  simp only [Prod.mk.injEq] at this
  exact ⟨this.1.symm, this.2.symm⟩

end Upsi.Curve
