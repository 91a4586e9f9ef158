import Verif.Num.Modular
import Verif.Num.BytesProps
import Mathlib.Tactic.Ring
import Mathlib.Tactic.Linarith
/- Properties C24 (two-modulus CRT) and C25 (fixed-base exponentiation). -/
namespace Upsi.Num
open Upsi

/-! ### basic facts -/

theorem euclid_spec {a m : Int} (f : Nat) : ∀ (r0 : Nat) (s0 : Int) (r1 : Nat) (s1 : Int), r1 < f →
    s0 * a ≡ r0 [ZMOD m] → s1 * a ≡ r1 [ZMOD m] →
    euclid f r0 s0 r1 s1 * a ≡ (Nat.gcd r0 r1 : Nat) [ZMOD m] := by
  induction f with
  | zero => intro r0 s0 r1 s1 h; omega
  | succ f ih =>
    intro r0 s0 r1 s1 hf h0 h1
    unfold euclid
    by_cases hr : r1 = 0
    · subst hr; simpa using h0
    · rw [if_neg hr]
      have hlt : r0 % r1 < r1 := Nat.mod_lt _ (Nat.pos_of_ne_zero hr)
      have hg : Nat.gcd r0 r1 = Nat.gcd r1 (r0 % r1) := by
        rw [Nat.gcd_comm r0 r1, Nat.gcd_rec r1 r0, Nat.gcd_comm]
      rw [hg]
      refine ih _ _ _ _ (by omega) h1 ?_
      have e : ((r0 % r1 : Nat) : Int) = r0 - ((r0 / r1 : Nat) : Int) * r1 := by
        have := Nat.div_add_mod r0 r1
        push_cast
        have h2 : (r0 : Int) = r1 * (r0 / r1) + r0 % r1 := by exact_mod_cast this.symm
        linarith
      rw [e, sub_mul, mul_assoc]
      exact h0.sub (h1.mul_left _)

theorem modInverse_ok {a m : Int} (h : Int.gcd a m = 1) :
    ∃ x, modInverse a m = .ok x ∧ x * a ≡ 1 [ZMOD m] := by
  refine ⟨_, by rw [modInverse, if_pos h], ?_⟩
  have h1 := euclid_spec (a := a) (m := m) (a.natAbs + 1) m.natAbs 0 a.natAbs a.sign (by omega)
    (by rw [zero_mul]; exact (Int.modEq_iff_dvd.2 (by rw [sub_zero]; exact Int.dvd_natAbs.2 (dvd_refl m))))
    (by rw [Int.sign_mul_self_eq_natAbs])
  rw [show Nat.gcd m.natAbs a.natAbs = 1 by rw [Nat.gcd_comm]; exact h] at h1
  exact ((Int.mod_modEq _ _).mul_right _).trans (by simpa using h1)

theorem modInverse_range {a m x : Int} (hm : 0 < m) (h : modInverse a m = .ok x) : 0 ≤ x ∧ x < m := by
  unfold modInverse at h
  split at h
  · simp only [Outcome.ok.injEq] at h; subst h
    exact ⟨Int.emod_nonneg _ hm.ne', Int.emod_lt_of_pos _ hm⟩
  · simp at h

theorem modInverse_err {a m : Int} (h : Int.gcd a m ≠ 1) : value (modInverse a m) = .abort := by
  simp [modInverse, h, value]

@[simp] theorem value_ok (a : α) : value (.ok a) = .ok a := rfl
@[simp] theorem value_eq_ok {o : Outcome α} {a : α} : value o = .ok a ↔ o = .ok a := by
  cases o <;> simp [value]

theorem vget_eq_ok {l : List α} {i : Nat} {a : α} : vget l i = .ok a ↔ l[i]? = some a := by
  unfold vget; split <;> simp_all

/-! ### C24 -/

/-- **C24** For coprime positive moduli the recombined value is the unique number in `[0, p*q)` that is
congruent to both residues (whatever integers the residues are). -/
theorem C24_crt (p q : Int) (hp : 0 < p) (hq : 0 < q) (hpq : Int.gcd p q = 1) :
    ∃ t, Crt.new p q = .ok t ∧ ∀ a b, ∃ x, t.compute a b = .ok x ∧
      (0 ≤ x ∧ x < p * q ∧ x ≡ a [ZMOD p] ∧ x ≡ b [ZMOD q]) ∧
      ∀ y, 0 ≤ y → y < p * q → y ≡ a [ZMOD p] → y ≡ b [ZMOD q] → y = x := by
  obtain ⟨i1, h1, e1⟩ := modInverse_ok (a := q) (m := p) (by rw [Int.gcd_comm]; exact hpq)
  obtain ⟨i2, h2, e2⟩ := modInverse_ok (a := p) (m := q) hpq
  refine ⟨⟨q * i1, p * i2, p * q⟩, by simp [Crt.new, h1, h2, Outcome.bind_ok, Outcome.pure_eq], ?_⟩
  intro a b
  have hpq0 : 0 < p * q := Int.mul_pos hp hq
  refine ⟨(a * (q * i1) + b * (p * i2)) % (p * q), by simp [Crt.compute, mod, hpq0.ne'], ?_⟩
  have hxp : (a * (q * i1) + b * (p * i2)) % (p * q) ≡ a [ZMOD p] := by
    refine ((Int.mod_modEq _ _).of_mul_right q).trans ?_
    have h3 : a * (q * i1) ≡ a * 1 [ZMOD p] := (Int.ModEq.mul_left a (by rw [mul_comm q]; exact e1))
    have h4 : b * (p * i2) ≡ 0 [ZMOD p] := (Int.modEq_zero_iff_dvd).2 ⟨b * i2, by ring⟩
    simpa using h3.add h4
  have hxq : (a * (q * i1) + b * (p * i2)) % (p * q) ≡ b [ZMOD q] := by
    refine ((Int.mod_modEq _ _).of_mul_left p).trans ?_
    have h3 : b * (p * i2) ≡ b * 1 [ZMOD q] := (Int.ModEq.mul_left b (by rw [mul_comm p]; exact e2))
    have h4 : a * (q * i1) ≡ 0 [ZMOD q] := (Int.modEq_zero_iff_dvd).2 ⟨a * i1, by ring⟩
    simpa using h4.add h3
  refine ⟨⟨Int.emod_nonneg _ hpq0.ne', Int.emod_lt_of_pos _ hpq0, hxp, hxq⟩, ?_⟩
  intro y y0 y1 yp yq
  have : y ≡ (a * (q * i1) + b * (p * i2)) % (p * q) [ZMOD (p * q)] := by
    refine (Int.modEq_and_modEq_iff_modEq_mul ?_).1 ⟨yp.trans hxp.symm, yq.trans hxq.symm⟩
    simpa [Int.gcd] using hpq
  unfold Int.ModEq at this
  rwa [Int.emod_emod, Int.emod_eq_of_lt y0 y1] at this

/-- **C24** Moduli that are not coprime are rejected at construction (the process terminates). -/
theorem C24_not_coprime (p q : Int) (h : Int.gcd p q ≠ 1) : Crt.new p q = .abort := by
  have : value (modInverse q p) = .abort := modInverse_err (by rw [Int.gcd_comm]; exact h)
  simp [Crt.new, this, bind, Outcome.bind]

example : ∃ t, Crt.new 5 7 = .ok t ∧ t.compute 3 4 = .ok 18 := by
  obtain ⟨t, ht, h⟩ := C24_crt 5 7 (by decide) (by decide) (by decide)
  obtain ⟨x, hx, _, hu⟩ := h 3 4
  exact ⟨t, ht, by rw [hx, hu 18 (by decide) (by decide) (by decide) (by decide)]⟩
example : Crt.new 6 4 = .abort := C24_not_coprime _ _ (by decide)

/-! ### C25 -/

/-- A well-formed Montgomery context. -/
structure Mont.WF (c : Mont) : Prop where
  pos : 1 < c.m
  inv : c.r * c.rinv ≡ 1 [ZMOD c.m]

/-- `a` represents `x`. -/
def Mont.Rep (c : Mont) (a x : Int) : Prop := a ≡ x * c.r [ZMOD c.m]

theorem Mont.rep_mul {c : Mont} (h : c.WF) {a b x y : Int} (ha : c.Rep a x) (hb : c.Rep b y) :
    c.Rep (c.mul a b) (x * y) := by
  unfold Mont.Rep Mont.mul at *
  calc a * b * c.rinv % c.m ≡ a * b * c.rinv [ZMOD c.m] := Int.mod_modEq _ _
    _ ≡ (x * c.r) * (y * c.r) * c.rinv [ZMOD c.m] := (ha.mul hb).mul_right _
    _ = (x * y * c.r) * (c.r * c.rinv) := by ring
    _ ≡ (x * y * c.r) * 1 [ZMOD c.m] := h.inv.mul_left _
    _ = x * y * c.r := by ring

theorem Mont.rep_sq8 {c : Mont} (h : c.WF) (k : Nat) : ∀ {a x : Int}, c.Rep a x →
    c.Rep (sq8 c k a) (x ^ 2 ^ k) := by
  induction k with
  | zero => intro a x ha; simpa [sq8] using ha
  | succ k ih =>
    intro a x ha
    have := ih (Mont.rep_mul h ha ha)
    rw [← pow_two, ← pow_mul, mul_comm 2, ← pow_succ] at this
    exact this

theorem cacheGo_spec {c : Mont} (h : c.WF) {g b : Int} (hg : c.Rep g b) (k : Nat) :
    ∀ (last : Int) (j : Nat), c.Rep last (b ^ j) → ∀ i, i ≤ k →
    ∃ x, (cacheGo c g k last)[i]? = some x ∧ c.Rep x (b ^ (j + i)) := by
  induction k with
  | zero =>
    intro last j hl i hi
    obtain rfl : i = 0 := by omega
    exact ⟨last, rfl, hl⟩
  | succ k ih =>
    intro last j hl i hi
    match i with
    | 0 => exact ⟨last, rfl, hl⟩
    | i + 1 =>
      obtain ⟨x, hx, hr⟩ := ih (c.mul last g) (j + 1) (by rw [pow_succ]; exact Mont.rep_mul h hl hg) i
        (by omega)
      exact ⟨x, by simpa [cacheGo] using hx, by rw [show j + (i + 1) = j + 1 + i by omega]; exact hr⟩

theorem twoKAryGo_spec {c : Mont} (h : c.WF) {cache : List Int} {b : Int}
    (hc : ∀ i, i < 256 → ∃ x, cache[i]? = some x ∧ c.Rep x (b ^ i)) (bs : List UInt8) :
    ∀ (z : Int) (e : Nat), c.Rep z (b ^ e) →
    ∃ z', twoKAryGo c cache bs z = .ok z' ∧
      c.Rep z' (b ^ (bs.foldl (fun a b => a * 256 + b.toNat) e)) := by
  induction bs with
  | nil => intro z e hz; exact ⟨z, rfl, hz⟩
  | cons y bs ih =>
    intro z e hz
    obtain ⟨x, hx, hr⟩ := hc y.toNat (UInt8.toNat_lt y)
    have h1 : c.Rep (c.mul (sq8 c 8 z) x) (b ^ (e * 256 + y.toNat)) := by
      rw [pow_add, pow_mul]
      exact Mont.rep_mul h (Mont.rep_sq8 h 8 hz) hr
    obtain ⟨z', hz', hr'⟩ := ih _ _ h1
    exact ⟨z', by simp [twoKAryGo, vget, hx, Outcome.bind_ok, hz'], hr'⟩

/-- **C25** (simple strategy) For a positive modulus and a non-negative exponent the result is the
power reduced into `[0, m)`. -/
theorem C25_simple (base m e : Int) (hm : 0 < m) (he : 0 ≤ e) :
    fixedBaseExp none base m e = .ok (base ^ e.toNat % m) := by
  simp [fixedBaseExp, simpleExp, modExp, powMod_eq, not_lt.2 he, hm]

/-- **C25** (2^k-ary strategy) For every base below the modulus and every non-negative exponent, of any
byte length, the table-based method returns the same value. -/
theorem C25_two_k_ary (c : Mont) (h : c.WF) (base e : Int) (hb : base < c.m) (he : 0 ≤ e) :
    fixedBaseExp (some c) base c.m e = .ok (base ^ e.toNat % c.m) := by
  have h1m : (1 : Int) < c.m := h.pos
  have rep_one : c.Rep (1 * c.r % c.m) (base ^ 0) := by
    simp only [Mont.Rep, pow_zero]; exact Int.mod_modEq _ _
  have rep_g : c.Rep (base * c.r % c.m) base := Int.mod_modEq _ _
  have hcache : ∀ i, i < 256 → ∃ x,
      ((1 * c.r % c.m) :: cacheGo c (base * c.r % c.m) 256 (base * c.r % c.m))[i]? = some x ∧
      c.Rep x (base ^ i) := by
    intro i hi
    match i with
    | 0 => exact ⟨_, rfl, rep_one⟩
    | i + 1 =>
      obtain ⟨x, hx, hr⟩ := cacheGo_spec h rep_g 256 _ 1 (by simpa using rep_g) i (by omega)
      exact ⟨x, by simpa using hx, by rw [add_comm]; exact hr⟩
  obtain ⟨z, hz, hr⟩ := twoKAryGo_spec h hcache (natBytes e.toNat) (1 * c.r % c.m) 0 rep_one
  have hfold : (natBytes e.toNat).foldl (fun a b => a * 256 + b.toNat) 0 = e.toNat :=
    ofBytes_natBytes e.toNat
  rw [hfold] at hr
  have hres : c.toBigNum z = base ^ e.toNat % c.m := by
    unfold Mont.toBigNum
    have : z * c.rinv ≡ base ^ e.toNat [ZMOD c.m] := by
      calc z * c.rinv ≡ base ^ e.toNat * c.r * c.rinv [ZMOD c.m] := Int.ModEq.mul_right _ hr
        _ = base ^ e.toNat * (c.r * c.rinv) := by ring
        _ ≡ base ^ e.toNat * 1 [ZMOD c.m] := h.inv.mul_left _
        _ = base ^ e.toNat := by ring
    exact this
  rw [fixedBaseExp, if_neg (not_lt.2 he)]
  simp only [twoKAry, twoKAryCache, Mont.create, if_pos h1m, if_pos hb, Outcome.bind_ok,
    Outcome.pure_eq, vget, List.getElem?_cons_zero, toBytes, if_neg (not_lt.2 he), hz, hres]

/-- **C25** A negative exponent is an error with both strategies. -/
theorem C25_negative (mont : Option Mont) (base m e : Int) (he : e < 0) :
    ∃ msg, fixedBaseExp mont base m e = .err msg := ⟨_, by unfold fixedBaseExp; rw [if_pos he]⟩

/-- **C25** The two strategies differ on a base that is not below the modulus: the precomputing one ends the process, the simple
one reduces the base. -/
theorem C25_large_base (c : Mont) (h : c.WF) (base e : Int) (hb : c.m ≤ base) (he : 0 ≤ e) :
    fixedBaseExp (some c) base c.m e = .abort ∧ fixedBaseExp none base c.m e = .ok (base ^ e.toNat % c.m) := by
  refine ⟨?_, C25_simple base c.m e (by have := h.pos; omega) he⟩
  have h1 : (1 : Int) < c.m := h.pos
  simp only [fixedBaseExp, if_neg (not_lt.2 he), twoKAry, twoKAryCache, Mont.create, if_pos h1, if_neg (not_lt.2 hb)]
  rfl

/-- **C25** Hence both strategies agree. -/
theorem C25_agree (c : Mont) (h : c.WF) (base e : Int) (hb : base < c.m) :
    fixedBaseExp (some c) base c.m e = fixedBaseExp none base c.m e := by
  by_cases he : e < 0
  · unfold fixedBaseExp; rw [if_pos he, if_pos he]
  · rw [C25_two_k_ary c h base e hb (by omega), C25_simple base c.m e (by have := h.pos; omega) (by omega)]

/-- Non-vacuity: modulus 101, radix 256, a two-byte exponent. -/
example : fixedBaseExp (some ⟨101, 256, 58⟩) 7 101 1000 = .ok (7 ^ 1000 % 101) :=
  C25_two_k_ary ⟨101, 256, 58⟩ ⟨by decide, by decide⟩ 7 1000 (by decide) (by decide)

end Upsi.Num
