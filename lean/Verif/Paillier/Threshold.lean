import Verif.Paillier.PrivProps
/- Property theorems C23 (two-party threshold Paillier, threshold_paillier.cc). -/
namespace Upsi.Paillier
open Upsi Upsi.Num Finset

/-- What key generation establishes: both keys carry `n`, the shares are non-negative and add up to a
number that is `0` modulo `phi(n)` and `1` modulo `n`. -/
structure TKeysOK (p q : Nat) (k1 k2 : TKey) : Prop where
  n1 : k1.n = ((p * q : Nat) : Int)
  n2 : k2.n = ((p * q : Nat) : Int)
  s1 : 0 ≤ k1.share
  s2 : 0 ≤ k2.share
  phi : ((p : Int) - 1) * ((q : Int) - 1) ∣ k1.share + k2.share
  one : k1.share + k2.share ≡ 1 [ZMOD ((p * q : Nat) : Int)]

theorem TKeysOK.swap {p q : Nat} {k1 k2 : TKey} (h : TKeysOK p q k1 k2) : TKeysOK p q k2 k1 :=
  ⟨h.n2, h.n1, h.s2, h.s1, by rw [add_comm]; exact h.phi, by rw [add_comm]; exact h.one⟩

theorem mod_eq_ok {a m r : Int} (h : mod a m = .ok r) : m ≠ 0 ∧ r = a % m := by
  simp only [mod] at h
  split at h
  · simp at h
  · exact ⟨by assumption, by simpa using h.symm⟩

theorem mod_ok {a m : Int} (h : m ≠ 0) : mod a m = .ok (a % m) := by simp [mod, h]

/-- **C23** Whatever keys generation returns satisfy the key equations. -/
theorem C23_keys {p q : Nat} {r1 r2 sk1 : Int} {k1 k2 : TKey} (hp : 2 ≤ p) (hq : 2 ≤ q)
    (h : thresholdKeys p q r1 r2 sk1 = .ok (k1, k2)) : TKeysOK p q k1 k2 := by
  simp only [thresholdKeys, Outcome.bind_eq_ok, value_eq_ok] at h
  obtain ⟨inv, _, d1, hd1, h⟩ := h
  split at h
  · simp at h
  rename_i e1
  simp only [Outcome.bind_eq_ok] at h
  obtain ⟨d2, hd2, h⟩ := h
  split at h
  · simp at h
  rename_i e2
  split at h
  · simp at h
  split at h
  · simp at h
  rename_i e3 e4
  obtain ⟨hz1, hd1⟩ := mod_eq_ok hd1
  obtain ⟨hz2, hd2⟩ := mod_eq_ok hd2
  simp only [Outcome.pure_eq, Outcome.ok.injEq, Prod.mk.injEq] at h
  obtain ⟨rfl, rfl⟩ := h
  have hphi : (p : Int) * q - p - q + 1 = ((p : Int) - 1) * ((q : Int) - 1) := by ring
  refine ⟨by push_cast; rfl, by push_cast; rfl, by simp only; omega, by simp only; omega, ?_, ?_⟩
  · simp only [add_sub_cancel]
    rw [← hphi]
    exact Int.dvd_of_emod_eq_zero (by rw [← hd1]; omega)
  · simp only [add_sub_cancel]
    push_cast
    have h1 : (1 : Int) < (p : Int) * q := by nlinarith
    unfold Int.ModEq
    rw [← hd2, Int.emod_eq_of_lt (by omega) h1]
    omega

/-- **C23** Key generation succeeds exactly when its first random number makes `phi(n)*r1` invertible
modulo `n`; otherwise the process dies (the inverse is taken without a check). -/
theorem C23_keys_succeed {p q : Nat} {r1 r2 sk1 : Int} (hp : 2 ≤ p) (hq : 2 ≤ q) :
    (Int.gcd (((p : Int) - 1) * ((q : Int) - 1) * r1) ((p * q : Nat) : Int) ≠ 1 →
      thresholdKeys p q r1 r2 sk1 = .abort) ∧
    (Int.gcd (((p : Int) - 1) * ((q : Int) - 1) * r1) ((p * q : Nat) : Int) = 1 →
      ∃ d : Int, ∀ sk, 0 ≤ sk → sk < d →
        thresholdKeys p q r1 r2 sk = .ok (⟨((p * q : Nat) : Int), sk⟩, ⟨((p * q : Nat) : Int), d - sk⟩)) := by
  have hphi : (p : Int) * q - p - q + 1 = ((p : Int) - 1) * ((q : Int) - 1) := by ring
  have h1 : (1 : Int) < (p : Int) * q := by nlinarith
  have hph0 : ((p : Int) - 1) * ((q : Int) - 1) ≠ 0 := by
    refine mul_ne_zero ?_ ?_ <;> omega
  have hg : Int.gcd (((p : Int) - 1) * ((q : Int) - 1) * r1 + (p : Int) * q * r2) ((p : Int) * q) =
      Int.gcd (((p : Int) - 1) * ((q : Int) - 1) * r1) ((p : Int) * q) :=
    gcd_eq_one_of_modEq (Int.modEq_iff_dvd.2 ⟨-r2, by ring⟩)
  push_cast
  constructor
  · intro h
    rw [thresholdKeys]
    simp only [hphi]
    rw [modInverse_err (by rw [hg]; exact h)]
    rfl
  · intro h
    obtain ⟨i, hi, hi'⟩ := modInverse_ok (a := ((p : Int) - 1) * ((q : Int) - 1) * r1 + (p : Int) * q * r2)
      (m := (p : Int) * q) (by rw [hg]; exact h)
    refine ⟨r1 * (((p : Int) - 1) * ((q : Int) - 1)) * i, ?_⟩
    intro sk h0 hlt
    rw [thresholdKeys]
    simp only [hphi, hi, value_ok, Outcome.bind_ok, mod_ok hph0, mod_ok (show (p : Int) * q ≠ 0 by omega)]
    rw [if_neg]
    swap
    · simp only [ne_eq, not_not]
      exact Int.emod_eq_zero_of_dvd ⟨r1 * i, by ring⟩
    rw [if_neg]
    swap
    · simp only [ne_eq, not_not]
      have h2 : r1 * (((p : Int) - 1) * ((q : Int) - 1)) * i ≡ 1 [ZMOD (p : Int) * q] := by
        refine Int.ModEq.trans ?_ hi'
        exact Int.modEq_iff_dvd.2 ⟨i * r2, by ring⟩
      rw [h2, Int.emod_eq_of_lt (by omega) h1]
    rw [if_neg (by simp), if_neg (by omega)]
    rfl

/-- **C23** With the other draws fixed, the first share may be any number from zero to the decryption exponent, and the second is
the rest; a first share outside this range makes one share negative, which ends the process. -/
theorem C23_shares_range {p q r1 r2 sk : Int} {k1 k2 : TKey} (h : thresholdKeys p q r1 r2 sk = .ok (k1, k2)) (sk' : Int) :
    (0 ≤ sk' → sk' ≤ k1.share + k2.share →
      thresholdKeys p q r1 r2 sk' = .ok (⟨k1.n, sk'⟩, ⟨k2.n, k1.share + k2.share - sk'⟩)) ∧
    (sk' < 0 ∨ k1.share + k2.share < sk' → thresholdKeys p q r1 r2 sk' = .abort) := by
  simp only [thresholdKeys, Outcome.bind_eq_ok] at h
  obtain ⟨inv, hi, d1, hd1, h⟩ := h
  split at h
  · simp at h
  rename_i e1
  simp only [Outcome.bind_eq_ok] at h
  obtain ⟨d2, hd2, h⟩ := h
  split at h
  · simp at h
  rename_i e2
  split at h
  · simp at h
  split at h
  · simp at h
  simp only [Outcome.pure_eq, Outcome.ok.injEq, Prod.mk.injEq] at h
  obtain ⟨rfl, rfl⟩ := h
  simp only [add_sub_cancel]
  constructor
  · intro h1 h2
    simp only [thresholdKeys, hi, Outcome.bind_ok, hd1, if_neg e1, hd2, if_neg e2, add_sub_cancel]
    rw [if_neg (by simp), if_neg (by omega)]
    rfl
  · intro h1
    simp only [thresholdKeys, hi, Outcome.bind_ok, hd1, if_neg e1, hd2, if_neg e2, add_sub_cancel]
    rw [if_neg (by simp), if_pos (by omega)]

/-- Units raised to `n * phi(n)` are one modulo `n^2`. -/
theorem unit_pow_n {p q : Nat} (h : Primes p q 1) {u : Int} (hu : Int.gcd u ((p * q : Nat) : Int) = 1) :
    u ^ ((p * q) * ((p - 1) * (q - 1))) ≡ 1 [ZMOD ((p * q : Nat) : Int) ^ 2] := by
  rw [← Int.isCoprime_iff_gcd_eq_one] at hu
  push_cast at hu
  have h1 := unit_pow h.hp (Int.isCoprime_iff_gcd_eq_one.1 hu.of_mul_right_left) 1
  have h2 := unit_pow h.hq (Int.isCoprime_iff_gcd_eq_one.1 hu.of_mul_right_right) 1
  rw [h.modEq_iff 2]
  constructor
  · have := h1.pow (q * (q - 1))
    rw [one_pow, ← pow_mul, pow_one] at this
    rw [show p * q * ((p - 1) * (q - 1)) = p * (p - 1) * (q * (q - 1)) by ring]
    exact this
  · have := h2.pow (p * (p - 1))
    rw [one_pow, ← pow_mul, pow_one] at this
    rw [show p * q * ((p - 1) * (q - 1)) = q * (q - 1) * (p * (p - 1)) by ring]
    exact this

theorem TKeysOK.exp {p q : Nat} (h : Primes p q 1) {k1 k2 : TKey} (hk : TKeysOK p q k1 k2) :
    ∃ t : Nat, k1.share.toNat + k2.share.toNat = (p - 1) * (q - 1) * t := by
  obtain ⟨t, ht⟩ := hk.phi
  have hp := h.p5
  have hq := h.q5
  have hpos : 0 < ((p : Int) - 1) * ((q : Int) - 1) := mul_pos (by omega) (by omega)
  have h0 : 0 ≤ t := by
    by_contra hn
    have := mul_neg_of_pos_of_neg hpos (not_le.1 hn)
    have := hk.s1
    have := hk.s2
    omega
  refine ⟨t.toNat, ?_⟩
  have hs1 := hk.s1
  have hs2 := hk.s2
  zify
  rw [Int.toNat_of_nonneg hs1, Int.toNat_of_nonneg hs2, Int.toNat_of_nonneg h0]
  push_cast [Nat.cast_sub (show 1 ≤ p by omega), Nat.cast_sub (show 1 ≤ q by omega)]
  exact ht

/-- The value both partial decryptions combine to. -/
theorem combined {p q : Nat} (h : Primes p q 1) {k1 k2 : TKey} (hk : TKeysOK p q k1 k2) {c : Int} {m : Nat}
    (hc : IsEnc (p * q) 1 c m) :
    c ^ (k1.share.toNat + k2.share.toNat) ≡ 1 + ((p * q : Nat) : Int) * ((m % (p * q) : Nat) : Int)
      [ZMOD ((p * q : Nat) : Int) ^ 2] := by
  obtain ⟨_, _, u, hu, e⟩ := hc
  obtain ⟨t, ht⟩ := hk.exp h
  set n : Nat := p * q with hn
  set D := k1.share.toNat + k2.share.toNat with hD
  have h1 : (D : Int) ≡ 1 [ZMOD n] := by
    have := hk.one
    rw [hD]; push_cast
    rw [Int.toNat_of_nonneg hk.s1, Int.toNat_of_nonneg hk.s2]
    exact this
  refine (e.pow D).trans ?_
  rw [mul_pow, ← pow_mul, ← pow_mul, pow_one]
  have hu1 : u ^ (n * D) ≡ 1 [ZMOD (n : Int) ^ 2] := by
    rw [ht, ← mul_assoc, pow_mul]
    have h5 := (unit_pow_n h hu).pow t
    rw [one_pow] at h5
    exact h5
  have h2 : (1 + (n : Int)) ^ (m * D) ≡ 1 + (n : Int) * ((m % n : Nat) : Int) [ZMOD (n : Int) ^ 2] := by
    refine (one_add_pow_trunc (m * D) (dvd_refl (n : Int)) 2).trans ?_
    simp only [bsum, sum_range_succ, range_zero, sum_empty, Nat.choose_zero_right, Nat.choose_one_right,
      pow_zero, pow_one]
    have h3 : ((m * D : Nat) : Int) ≡ ((m % n : Nat) : Int) [ZMOD n] := by
      push_cast
      have := (h1.mul_left (m : Int)).trans (by simp; exact (Int.mod_modEq (m : Int) n).symm)
      exact this
    obtain ⟨z, hz⟩ := Int.modEq_iff_dvd.1 h3
    refine Int.modEq_iff_dvd.2 ⟨z, ?_⟩
    linear_combination (n : Int) * hz
  simpa using h2.mul hu1

/-- **C23** Threshold decryption: for keys returned by key generation and any ciphertext of `m`, the
partial decryption by one party, completed by the other, is `m mod n` — in particular the exact division
of the decoder does not fail. -/
theorem C23_decrypt {p q : Nat} (h : Primes p q 1) {k1 k2 : TKey} (hk : TKeysOK p q k1 k2) {c : Int}
    {m : Nat} (hc : IsEnc (p * q) 1 c m) :
    (∃ part, partialDecrypt k2 c = .ok part ∧ decryptT k1 c part = .ok ((m % (p * q) : Nat) : Int)) ∧
    (∃ part, partialDecrypt k1 c = .ok part ∧ decryptT k2 c part = .ok ((m % (p * q) : Nat) : Int)) := by
  suffices H : ∀ {k1 k2 : TKey}, TKeysOK p q k1 k2 →
      ∃ part, partialDecrypt k2 c = .ok part ∧ decryptT k1 c part = .ok ((m % (p * q) : Nat) : Int) from
    ⟨H hk, H hk.swap⟩
  intro k1 k2 hk
  have hcomb := combined h hk hc
  obtain ⟨c0, c1, -⟩ := hc
  have hnpos : 1 < p * q := by have := h.p5; have := h.q5; nlinarith
  rw [show (1 + 1 : Nat) = 2 from rfl] at c1
  set n : Nat := p * q with hn
  have hN : ((n : Int) * n) = (n : Int) ^ 2 := by ring
  have hpos : 0 < (n : Int) ^ 2 := by positivity
  have hz : (n : Int) ^ 2 ≠ 0 := hpos.ne'
  have hpart : ∀ {k k' : TKey}, TKeysOK p q k k' → partialDecrypt k c = .ok (c ^ k.share.toNat % (n : Int) ^ 2) := by
    intro k k' hk
    rw [partialDecrypt, if_neg (by omega), hk.n1, hN, if_neg (by omega), modExp, if_neg (by have := hk.s1; omega),
      if_neg (not_le.2 (lt_of_le_of_ne (by positivity) (Ne.symm hz))), powMod_eq]
  refine ⟨_, hpart hk.swap, ?_⟩
  have hx : c ^ k2.share.toNat % (n : Int) ^ 2 * (c ^ k1.share.toNat % (n : Int) ^ 2) % (n : Int) ^ 2 =
      1 + (n : Int) * ((m % n : Nat) : Int) := by
    rw [← Int.mul_emod, ← pow_add, add_comm, hcomb]
    refine Int.emod_eq_of_lt (by positivity) ?_
    have h1 : ((m % n : Nat) : Int) + 1 ≤ n := by
      have := Nat.mod_lt m (show 0 < n by omega); omega
    have h2 : (1 : Int) < n := by exact_mod_cast hnpos
    nlinarith
  rw [decryptT, if_neg (by omega), if_neg (by have := Int.emod_nonneg (c ^ k2.share.toNat) hz; omega), hk.n1, hN,
    if_neg (by omega), if_neg (by have := Int.emod_lt_of_pos (c ^ k2.share.toNat) hpos; omega), hpart hk]
  simp only [Outcome.bind_ok, modMul_ok hz, hx]
  have hn0 : (n : Int) ≠ 0 := by omega
  rw [div, if_neg hn0, add_sub_cancel_left, Int.mul_tmod_right, if_pos rfl,
    Int.mul_tdiv_cancel_left _ hn0]

/-- **C23** Adding ciphertexts adds plaintexts. -/
theorem C23_add {p q : Nat} (h : Primes p q 1) {k1 k2 : TKey} (hk : TKeysOK p q k1 k2) {a b : Int}
    {m1 m2 : Nat} (ha : IsEnc (p * q) 1 a m1) (hb : IsEnc (p * q) 1 b m2) :
    ∃ c, addT k1 a b = .ok c ∧ IsEnc (p * q) 1 c (m1 + m2) := by
  have hnpos : 0 < p * q := Nat.mul_pos h.hp.pos h.hq.pos
  obtain ⟨_, _, u1, hu1, e1⟩ := ha
  obtain ⟨_, _, u2, hu2, e2⟩ := hb
  have hz : ((p * q : Nat) : Int) * ((p * q : Nat) : Int) ≠ 0 := by
    have : ((p * q : Nat) : Int) ≠ 0 := by omega
    exact mul_ne_zero this this
  refine ⟨a * b % ((p * q : Nat) : Int) ^ (1 + 1), ?_, ?_⟩
  · rw [addT, hk.n1, modMul_ok hz]; congr 2; ring
  refine isEnc_of_modEq (u := u1 * u2) hnpos (by simpa using gcd_pow_mul 1 1 hu1 hu2) ?_
  refine (e1.mul e2).trans ?_
  rw [mul_pow, pow_add]
  refine Int.modEq_iff_dvd.2 ⟨0, by ring⟩

/-- A number with a common factor with `n` is not a ciphertext: threshold decryption of it kills the
process (the exact division in the decoder is `CHECK`ed). -/
theorem C23_nonunit_aborts {p q : Nat} (h : Primes p q 1) {k1 k2 : TKey} (hk : TKeysOK p q k1 k2) {c : Int}
    (hc0 : 0 ≤ c) (hc1 : c < ((p * q : Nat) : Int) ^ 2) (hc : Int.gcd c ((p * q : Nat) : Int) ≠ 1)
    {part : Int} (hpart : partialDecrypt k2 c = .ok part) : decryptT k1 c part = .abort := by
  have hnpos : 1 < p * q := by have := h.p5; have := h.q5; nlinarith
  -- a common prime factor
  obtain ⟨r, hr, hrc, hrn⟩ : ∃ r : Nat, r.Prime ∧ (r : Int) ∣ c ∧ (r : Int) ∣ ((p * q : Nat) : Int) := by
    obtain ⟨r, hr, hd⟩ := Nat.exists_prime_and_dvd hc
    exact ⟨r, hr, (Int.natCast_dvd_natCast.2 hd).trans (Int.gcd_dvd_left ..), (Int.natCast_dvd_natCast.2 hd).trans (Int.gcd_dvd_right ..)⟩
  have hone := hk.one
  set n : Nat := p * q with hn
  have hN : ((n : Int) * n) = (n : Int) ^ 2 := by ring
  have hpos : 0 < (n : Int) ^ 2 := by positivity
  have hz : (n : Int) ^ 2 ≠ 0 := hpos.ne'
  have hn0 : (n : Int) ≠ 0 := by omega
  have hP : ∀ {k k' : TKey}, TKeysOK p q k k' → partialDecrypt k c = .ok (c ^ k.share.toNat % (n : Int) ^ 2) := by
    intro k k' hk
    rw [partialDecrypt, if_neg (by omega), hk.n1, hN, if_neg (by omega), modExp, if_neg (by have := hk.s1; omega),
      if_neg (not_le.2 (lt_of_le_of_ne (by positivity) (Ne.symm hz))), powMod_eq]
  rw [hP hk.swap, Outcome.ok.injEq] at hpart
  subst hpart
  rw [decryptT, if_neg (by omega), if_neg (by have := Int.emod_nonneg (c ^ k2.share.toNat) hz; omega), hk.n1, hN,
    if_neg (by omega), if_neg (by have := Int.emod_lt_of_pos (c ^ k2.share.toNat) hpos; omega), hP hk]
  simp only [Outcome.bind_ok, modMul_ok hz]
  rw [← Int.mul_emod, ← pow_add]
  set D := k2.share.toNat + k1.share.toNat with hD
  have hD0 : D ≠ 0 := by
    intro h0
    have : k1.share + k2.share = 0 := by have := hk.s1; have := hk.s2; omega
    rw [this] at hone
    have h1 := Int.modEq_iff_dvd.1 hone
    simp at h1
    have := Int.le_of_dvd (by omega) h1
    omega
  have hrx : (r : Int) ∣ c ^ D % (n : Int) ^ 2 :=
    (EuclideanDomain.dvd_mod_iff (hrn.trans (dvd_pow_self _ two_ne_zero))).2 (hrc.trans (dvd_pow_self c hD0))
  rw [div, if_neg hn0, if_neg]
  intro h0
  have h1 : (n : Int) ∣ c ^ D % (n : Int) ^ 2 - 1 := Int.dvd_of_tmod_eq_zero h0
  have h2 : (r : Int) ∣ 1 := by
    have := (Int.dvd_sub hrx (hrn.trans h1))
    simpa using this
  have := Int.le_of_dvd (by omega) h2
  have := hr.two_le
  omega

/-- Every number coprime to `n` below `n^2` is a ciphertext of some message. -/
theorem C23_units_are_ciphertexts {p q : Nat} (h : Primes p q 1) {k1 k2 : TKey} (hk : TKeysOK p q k1 k2) {c : Int}
    (hc0 : 0 ≤ c) (hc1 : c < ((p * q : Nat) : Int) ^ 2) (hc : Int.gcd c ((p * q : Nat) : Int) = 1) :
    ∃ m, m < p * q ∧ IsEnc (p * q) 1 c m := by
  have hone := hk.one
  obtain ⟨t, ht⟩ := hk.exp h
  have hun := unit_pow_n h hc
  have hnpos : 1 < p * q := by have := h.p5; have := h.q5; nlinarith
  have hn0 : ((p * q : Nat) : Int) ≠ 0 := by omega
  set D := k1.share.toNat + k2.share.toNat with hD
  -- `c^D` is one modulo `n`
  have hcn : c ^ D ≡ 1 [ZMOD ((p * q : Nat) : Int)] := by
    have hcop : IsCoprime c ((p : Int) * q) := by
      have := Int.isCoprime_iff_gcd_eq_one.2 hc; push_cast at this; exact this
    have e1 := Int.ModEq.pow_card_sub_one_eq_one h.hp hcop.of_mul_right_left
    have e2 := Int.ModEq.pow_card_sub_one_eq_one h.hq hcop.of_mul_right_right
    have := (h.modEq_iff 1 (c ^ D) 1).2 ⟨by
      have := e1.pow ((q - 1) * t)
      rw [one_pow, ← pow_mul] at this
      rw [ht, pow_one, mul_assoc]; exact this, by
      have := e2.pow ((p - 1) * t)
      rw [one_pow, ← pow_mul] at this
      rw [ht, pow_one, mul_comm (p - 1), mul_assoc]; exact this⟩
    rwa [pow_one] at this
  set n : Nat := p * q with hn
  obtain ⟨z, hz⟩ := Int.modEq_iff_dvd.1 hcn.symm
  -- `D = 1 + n * k`
  obtain ⟨k, hDk⟩ : ∃ k : Nat, D = 1 + n * k := by
    have h1 : (D : Int) ≡ 1 [ZMOD n] := by
      rw [hD]; push_cast
      rw [Int.toNat_of_nonneg hk.s1, Int.toNat_of_nonneg hk.s2]
      exact hone
    obtain ⟨j, hj⟩ := Int.modEq_iff_dvd.1 h1.symm
    have hD0 : D ≠ 0 := by
      intro h0
      rw [h0] at hj
      have : (n : Int) ∣ 1 := ⟨-j, by push_cast at hj; linarith⟩
      have := Int.le_of_dvd (by omega) this
      omega
    have hj0 : 0 ≤ j := by
      by_contra hneg
      have : (n : Int) * j < 0 := mul_neg_of_pos_of_neg (by omega) (by omega)
      omega
    refine ⟨j.toNat, ?_⟩
    zify
    rw [Int.toNat_of_nonneg hj0]
    linarith
  -- the inverse of `c` modulo `n^2`
  obtain ⟨i, _, hi⟩ := modInverse_ok (a := c) (m := (n : Int) ^ 2) (by
    rw [← Int.isCoprime_iff_gcd_eq_one] at *
    exact hc.pow_right)
  have hig : Int.gcd i n = 1 := by
    rw [← Int.isCoprime_iff_gcd_eq_one]
    obtain ⟨w, hw⟩ := Int.modEq_iff_dvd.1 hi
    exact ⟨c, n * w, by linear_combination -hw⟩
  refine ⟨(z % n).toNat, ?_, hc0, hc1, i ^ k, by simpa using gcd_pow_mul k 0 hig hig, ?_⟩
  · have := Int.emod_lt_of_pos z (show 0 < (n : Int) by omega)
    have := Int.emod_nonneg z hn0
    omega
  · have e1 : (1 + (n : Int)) ^ (z % n).toNat ≡ c ^ D [ZMOD (n : Int) ^ 2] := by
      refine (one_add_pow_trunc _ (dvd_refl (n : Int)) 2).trans ?_
      simp only [bsum, sum_range_succ, range_zero, sum_empty, Nat.choose_zero_right, Nat.choose_one_right,
        pow_zero, pow_one]
      rw [Int.toNat_of_nonneg (Int.emod_nonneg z hn0)]
      obtain ⟨w, hw⟩ := Int.modEq_iff_dvd.1 (Int.mod_modEq z n)
      refine Int.modEq_iff_dvd.2 ⟨w, ?_⟩
      push_cast
      linear_combination hz + (n : Int) * hw
    have e2 : c ^ D * (i ^ k) ^ n ^ 1 ≡ c [ZMOD (n : Int) ^ 2] := by
      rw [hDk, pow_add, pow_one, pow_one, pow_mul', mul_assoc, ← mul_pow, ← mul_pow]
      have := ((hi.pow k).pow n).mul_left c
      rw [one_pow, one_pow, mul_one, mul_comm i c] at this
      exact this
    exact (e2.symm.trans (e1.symm.mul_right _))

/-- **C23** Complete behaviour of threshold decryption on numbers below `n^2`: it returns a plaintext
below `n`, or kills the process — the latter exactly for numbers sharing a factor with `n`. -/
theorem C23_total {p q : Nat} (h : Primes p q 1) {k1 k2 : TKey} (hk : TKeysOK p q k1 k2) {c : Int}
    (hc0 : 0 ≤ c) (hc1 : c < ((p * q : Nat) : Int) ^ 2) {part : Int}
    (hpart : partialDecrypt k2 c = .ok part) :
    (Int.gcd c ((p * q : Nat) : Int) = 1 ∧ ∃ m : Nat, m < p * q ∧ IsEnc (p * q) 1 c m ∧
      decryptT k1 c part = .ok m) ∨
    (Int.gcd c ((p * q : Nat) : Int) ≠ 1 ∧ decryptT k1 c part = .abort) := by
  by_cases hc : Int.gcd c ((p * q : Nat) : Int) = 1
  · obtain ⟨m, hm, he⟩ := C23_units_are_ciphertexts h hk hc0 hc1 hc
    obtain ⟨⟨part', h1, h2⟩, -⟩ := C23_decrypt h hk he
    rw [hpart, Outcome.ok.injEq] at h1
    subst h1
    rw [Nat.mod_eq_of_lt hm] at h2
    exact .inl ⟨hc, m, hm, he, h2⟩
  · exact .inr ⟨hc, C23_nonunit_aborts h hk hc0 hc1 hc hpart⟩

/-- **C23** Range checks, exactly: an input below zero or not below `n²` is an error status, and no other input is. -/
theorem C23_range (k : TKey) (hn : 0 < k.n) (c part : Int) :
    ((∃ e, partialDecrypt k c = .err e) ↔ c < 0 ∨ k.n * k.n ≤ c) ∧
    ((∃ e, decryptT k c part = .err e) ↔ c < 0 ∨ k.n * k.n ≤ c ∨ part < 0 ∨ k.n * k.n ≤ part) := by
  have hm : ∀ (e : String), modExp c k.share (k.n * k.n) ≠ .err e := by
    intro e; unfold modExp; split <;> [simp; split <;> simp]
  have hp : (∃ e, partialDecrypt k c = .err e) ↔ c < 0 ∨ k.n * k.n ≤ c := by
    unfold partialDecrypt
    by_cases h1 : c < 0
    · simp [h1]
    · by_cases h2 : c ≥ k.n * k.n
      · simp [h1, h2]
      · simp only [if_neg h1, if_neg h2]
        constructor
        · rintro ⟨e, he⟩; exact absurd he (hm e)
        · rintro (h | h)
          · exact absurd h h1
          · exact absurd h h2
  refine ⟨hp, ?_⟩
  unfold decryptT
  by_cases h1 : c < 0
  · simp [h1]
  by_cases h2 : part < 0
  · simp [h1, h2]
  by_cases h3 : c ≥ k.n * k.n
  · simp [h1, h2, h3]
  by_cases h4 : part ≥ k.n * k.n
  · simp [h1, h2, h3, h4]
  simp only [if_neg h1, if_neg h2, if_neg h3, if_neg h4]
  constructor
  · rintro ⟨e, he⟩
    exfalso
    cases hx : partialDecrypt k c with
    | ok y =>
      rw [hx, Outcome.bind_ok] at he
      have hz : k.n * k.n ≠ 0 := mul_ne_zero hn.ne' hn.ne'
      rw [modMul_ok hz, Outcome.bind_ok] at he
      rw [div, if_neg hn.ne'] at he
      split at he <;> cases he
    | err e' => exact (hp.1 ⟨e', hx⟩).elim h1 h3
    | abort => rw [hx] at he; cases he
    | ub => rw [hx] at he; cases he
  · rintro (h | h | h | h)
    · exact absurd h h1
    · exact absurd h h3
    · exact absurd h h2
    · exact absurd h h4

example : (∃ e, partialDecrypt ⟨77, 14300⟩ (77 * 77) = .err e) ∧ ∃ c, partialDecrypt ⟨77, 14300⟩ (77 * 77 - 1) = .ok c :=
  ⟨((C23_range ⟨77, 14300⟩ (by norm_num) _ 0).1).2 (Or.inr (by norm_num)), Outcome.isOk_iff.1 (by decide +kernel)⟩

/-! ### concrete instances -/

theorem primes_7_11 : Primes 7 11 1 :=
  ⟨by norm_num, by norm_num, by norm_num, by norm_num, by norm_num, by norm_num, by norm_num, by norm_num⟩

theorem simple_mont : MontOK (fun _ => none) := by intro m c h; simp at h

/-- Key generation with `p = 7`, `q = 11` succeeds, and a threshold decryption of an encryption of 42
with these keys returns 42. -/
example : ∃ k1 k2, thresholdKeys (7 : Nat) (11 : Nat) 5 1000 100 = .ok (k1, k2) ∧ TKeysOK 7 11 k1 k2 ∧
    ∃ c part, IsEnc 77 1 c 42 ∧ partialDecrypt k2 c = .ok part ∧ decryptT k1 c part = .ok 42 := by
  have hk : thresholdKeys (7 : Nat) (11 : Nat) 5 1000 100 = .ok (⟨77, 100⟩, ⟨77, 14300⟩) := by
    decide +kernel
  have hok := C23_keys (by norm_num) (by norm_num) hk
  obtain ⟨k, hk', hkok⟩ := public_new primes_7_11 2 (by norm_num)
  obtain ⟨c, _, hc⟩ := C21_encrypt (mont := fun _ => none) (by norm_num) primes_7_11.small_mul simple_mont
    hkok 42 (by norm_num) 5 (by norm_num) (by norm_num)
  obtain ⟨⟨part, h1, h2⟩, _⟩ := C23_decrypt primes_7_11 hok hc
  exact ⟨_, _, hk, hok, c, part, hc, h1, by simpa using h2⟩

/-- A multiple of 7 is not a ciphertext and kills the decrypting process. -/
example : partialDecrypt ⟨77, 14300⟩ 14 = .ok 2058 ∧ decryptT ⟨77, 100⟩ 14 2058 = .abort := by
  decide +kernel

/-- **C23** Negative witness: key generation does not check that the two safe primes differ.  With
`p = q = 5` it returns keys, but the threshold decryption of a ciphertext of `3` is `13`. -/
theorem C23_equal_primes_wrong :
    ∃ k1 k2, thresholdKeys 5 5 7 1000 100 = .ok (k1, k2) ∧
      ∃ c part, IsEnc 25 1 c 3 ∧ partialDecrypt k2 c = .ok part ∧ decryptT k1 c part = .ok 13 := by
  refine ⟨⟨25, 100⟩, ⟨25, 2476⟩, by decide +kernel, 26 ^ 3 * 2 ^ 25 % 625, ?_⟩
  refine ⟨(26 ^ 3 * 2 ^ 25 % 625) ^ 2476 % 625, ⟨by norm_num, by norm_num, 2, by norm_num, ?_⟩,
    by decide +kernel, by decide +kernel⟩
  norm_num [Int.ModEq]

end Upsi.Paillier
