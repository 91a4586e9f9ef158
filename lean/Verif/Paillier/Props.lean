import Verif.Paillier.Decrypt
import Verif.Paillier.Spec
import Mathlib.RingTheory.ZMod.UnitsCyclic
/- Property theorems C21 and C22 (Paillier). -/
namespace Upsi.Paillier
open Upsi Upsi.Num Finset

/-! ### hypotheses -/

/-- The fixed-base exponentiation strategy: for a modulus either the simple method or the 2^k-ary
method with a well-formed Montgomery context of that modulus. -/
def MontOK (mont : Int → Option Mont) : Prop := ∀ m c, mont m = some c → c.m = m ∧ c.WF

theorem fbe_ok {mont : Int → Option Mont} (hm : MontOK mont) {b m e : Int} (h0 : 0 < m) (hb : b < m)
    (he : 0 ≤ e) : fixedBaseExp (mont m) b m e = .ok (b ^ e.toNat % m) := by
  cases h : mont m with
  | none => exact C25_simple b m e h0 he
  | some c =>
    obtain ⟨h1, h2⟩ := hm m c h
    subst h1
    exact C25_two_k_ary c h2 b e hb he

/-- Key material: two distinct primes at least five, and `1 ≤ s` below both. -/
structure Primes (p q s : Nat) : Prop where
  hp : p.Prime
  hq : q.Prime
  ne : p ≠ q
  p5 : 5 ≤ p
  q5 : 5 ≤ q
  s1 : 1 ≤ s
  sp : s < p
  sq : s < q

theorem Primes.swap {p q s : Nat} (h : Primes p q s) : Primes q p s :=
  ⟨h.hq, h.hp, h.ne.symm, h.q5, h.p5, h.s1, h.sq, h.sp⟩

theorem Primes.coprime {p q s : Nat} (h : Primes p q s) : Nat.Coprime p q :=
  (Nat.coprime_primes h.hp h.hq).2 h.ne

theorem small_prime {p s : Nat} (hp : p.Prime) (h : s < p) : Small s p := by
  intro j h0 hj
  rw [Int.isCoprime_iff_gcd_eq_one]
  simp only [Int.gcd_natCast_natCast]
  exact ((Nat.Prime.coprime_iff_not_dvd hp).2 (Nat.not_dvd_of_pos_of_lt h0 (by omega))).symm

theorem Primes.small_mul {p q s : Nat} (h : Primes p q s) : Small s ((p * q : Nat) : Int) := by
  intro j h0 hj
  push_cast
  exact IsCoprime.mul_right (small_prime h.hp h.sp j h0 hj) (small_prime h.hq h.sq j h0 hj)

theorem bsum_congr {x y : Int} {m : Int} (h : x ≡ y [ZMOD m]) : m ∣ y - x := (Int.modEq_iff_dvd).1 h

/-! ### the public key -/

/-- A `PublicPaillier` object for modulus `n`. -/
structure PublicOK (n s : Nat) (k : Public) : Prop where
  hn : k.n = n
  hs : k.s = s
  powers : k.powers = getPowers n s
  modulus : k.modulus = (n : Int) ^ (s + 1)
  gn0 : 0 ≤ k.gn
  gn1 : k.gn < (n : Int) ^ (s + 1)
  gn : ∃ g : Int, Int.gcd g n = 1 ∧ k.gn ≡ g ^ (n ^ s) [ZMOD (n : Int) ^ (s + 1)]
  pre : PreOK n ((n : Int) ^ (s + 1)) s k.precomp

theorem gcd_eq_one_of_modEq {a b n : Int} (h : a ≡ b [ZMOD n]) : Int.gcd a n = Int.gcd b n := by
  rw [← Int.gcd_emod a n, ← Int.gcd_emod b n, h]

theorem modExp_ok {b m : Int} (e : Nat) (hm : 0 < m) : modExp b e m = .ok (b ^ e % m) := by
  rw [modExp, if_neg (by omega), if_neg (by omega), powMod_eq, Int.toNat_natCast]

theorem modMul_ok {a b m : Int} (hm : m ≠ 0) : modMul a b m = .ok (a * b % m) := by
  simp [modMul, hm]

/-- Constructing the public object succeeds for every coin coprime to `n`. -/
theorem public_new {p q s : Nat} (h : Primes p q s) (x : Int) (hx : Int.gcd x ((p * q : Nat) : Int) = 1) :
    ∃ k, Public.new x ((p * q : Nat) : Int) s = .ok k ∧ PublicOK (p * q) s k := by
  set n := p * q with hn
  have hn0 : (n : Int) ≠ 0 := by
    have := h.hp.pos; have := h.hq.pos
    have : 0 < n := Nat.mul_pos h.hp.pos h.hq.pos
    omega
  have hmod : (n : Int) ^ (s + 1) ≠ 0 := pow_ne_zero _ hn0
  have hmpos : 0 < (n : Int) ^ (s + 1) := by
    have : 0 < (n : Int) := by omega
    exact pow_pos this _
  obtain ⟨pre, hpre, hpre'⟩ := getPrecomp_spec (num := (n : Int)) hmod s
    (fun j h0 hj => h.small_mul.gcd (s + 1) j h0 hj)
  refine ⟨⟨n, s, getPowers n s, (n : Int) ^ (s + 1),
    ((n : Int) - x * x % n) ^ (n ^ s) % (n : Int) ^ (s + 1), pre⟩, ?_, ?_⟩
  · have hexp : modExp ((n : Int) - x * x % n) ((n : Int) ^ s) ((n : Int) ^ (s + 1)) =
        .ok (((n : Int) - x * x % n) ^ (n ^ s) % (n : Int) ^ (s + 1)) := by
      have := modExp_ok (b := (n : Int) - x * x % n) (n ^ s) hmpos
      push_cast at this
      exact this
    simp only [Public.new, getPowers_get _ _ _ (le_refl _), getPowers_get _ _ _ (Nat.le_succ s),
      Outcome.bind_ok, genSafeModulus, modSqr, modMul_ok hn0, Outcome.pure_eq, hexp, hpre]
  · refine ⟨rfl, rfl, rfl, rfl, Int.emod_nonneg _ hmod, Int.emod_lt_of_pos _ hmpos,
      ⟨(n : Int) - x * x % n, ?_, Int.mod_modEq _ _⟩, hpre'⟩
    have h1 : (n : Int) - x * x % n ≡ -(x * x) [ZMOD n] := by
      have h2 : (n : Int) - x * x % n ≡ 0 - x * x [ZMOD n] :=
        Int.ModEq.sub (by simp [Int.ModEq]) (Int.mod_modEq _ _)
      simpa using h2
    rw [gcd_eq_one_of_modEq h1, Int.neg_gcd]
    have : IsCoprime x (n : Int) := Int.isCoprime_iff_gcd_eq_one.2 hx
    exact Int.isCoprime_iff_gcd_eq_one.1 (this.mul_left this)

theorem isEnc_of_modEq {n s : Nat} (hn : 0 < n) {m : Nat} {c u : Int} (hu : Int.gcd u n = 1)
    (h : c ≡ (1 + (n : Int)) ^ m * u ^ (n ^ s) [ZMOD (n : Int) ^ (s + 1)]) :
    IsEnc n s (c % (n : Int) ^ (s + 1)) m := by
  have hpos : 0 < (n : Int) ^ (s + 1) := pow_pos (by exact_mod_cast hn) _
  exact ⟨Int.emod_nonneg _ hpos.ne', Int.emod_lt_of_pos _ hpos, u, hu, (Int.mod_modEq _ _).trans h⟩

theorem gcd_pow_mul {a b n : Int} (i j : Nat) (ha : Int.gcd a n = 1) (hb : Int.gcd b n = 1) :
    Int.gcd (a ^ i * b ^ j) n = 1 := by
  rw [← Int.isCoprime_iff_gcd_eq_one] at *
  exact (ha.pow_left).mul_left (hb.pow_left)

/-- **C21** Encryption: for every message in `[0, n^s)` and every coin in `[0, n]` the result is a
Paillier ciphertext of the message. -/
theorem C21_encrypt {n s : Nat} (hn : 0 < n) (hs : Small s n) {mont : Int → Option Mont}
    (hm : MontOK mont) {k : Public} (hk : PublicOK n s k) (m : Nat) (hlt : m < n ^ s) (r : Int)
    (hr : 0 ≤ r) (hrn : r ≤ n) :
    ∃ c, k.encrypt mont m r = .ok c ∧ IsEnc n s c m := by
  obtain ⟨c0, h1, h2⟩ := binomialExpansion_spec (M := n) (by omega) (dvd_refl _) hs hk.pre m
  obtain ⟨g, hg, hgn⟩ := hk.gn
  have hmod : 0 < (n : Int) ^ (s + 1) := pow_pos (by exact_mod_cast hn) _
  have hf := fbe_ok hm (b := k.gn) (e := r) hmod hk.gn1 hr
  refine ⟨c0 * (k.gn ^ r.toNat % (n : Int) ^ (s + 1)) % (n : Int) ^ (s + 1), ?_, ?_⟩
  · have hlt' : ¬ ((m : Int) ≥ (n : Int) ^ s) := by
      have : (m : Int) < ((n ^ s : Nat) : Int) := by exact_mod_cast hlt
      push_cast at this; omega
    rw [Public.encrypt, if_neg (by omega), hk.powers, hk.hs, getPowers_get _ _ _ (Nat.le_succ s)]
    simp only [Outcome.bind_ok, if_neg hlt']
    rw [Public.encryptWithGen, hk.hn, if_neg (by omega), hk.powers, h1, hk.modulus, hf]
    simp only [Outcome.bind_ok, modMul_ok hmod.ne']
  · refine isEnc_of_modEq (u := g ^ r.toNat) hn ?_ ?_
    · simpa using gcd_pow_mul r.toNat 0 hg hg
    · refine h2.mul ((Int.mod_modEq _ _).trans ?_)
      refine (hgn.pow r.toNat).trans ?_
      rw [← pow_mul, ← pow_mul, mul_comm]

/-- **C21** Out-of-range messages are rejected with an error. -/
theorem C21_encrypt_rejects {n s : Nat} {mont : Int → Option Mont} {k : Public} (hk : PublicOK n s k)
    (m r : Int) (h : m < 0 ∨ (n : Int) ^ s ≤ m) : ∃ msg, k.encrypt mont m r = .err msg := by
  by_cases h0 : m < 0
  · exact ⟨_, by rw [Public.encrypt, if_pos h0]⟩
  · refine ⟨"PublicPaillier::Encrypt() - Message not smaller than n^s.", ?_⟩
    rw [Public.encrypt, if_neg h0, hk.powers, hk.hs, getPowers_get _ _ _ (Nat.le_succ s)]
    simp only [Outcome.bind_ok]
    rw [if_pos (by omega)]

/-- **C21** Encryption with an explicitly given unit. -/
theorem C21_encrypt_with_rand {n s : Nat} (hn : 0 < n) (hs : Small s n) {k : Public}
    (hk : PublicOK n s k) (m : Nat) (r : Int) (hr : Int.gcd r n = 1) :
    ∃ c, k.encryptWithRand m r = .ok c ∧ IsEnc n s c m := by
  obtain ⟨c0, h1, h2⟩ := binomialExpansion_spec (M := n) (by omega) (dvd_refl _) hs hk.pre m
  have hmod : 0 < (n : Int) ^ (s + 1) := pow_pos (by exact_mod_cast hn) _
  refine ⟨c0 * (r ^ (n ^ s) % (n : Int) ^ (s + 1)) % (n : Int) ^ (s + 1), ?_, ?_⟩
  · have he := modExp_ok (b := r) (n ^ s) hmod
    push_cast at he
    rw [Public.encryptWithRand, hk.hn, if_neg (by simpa using hr), hk.powers, h1, hk.modulus, hk.hs,
      getPowers_get _ _ _ (Nat.le_succ s)]
    simp only [Outcome.bind_ok, he, modMul_ok hmod.ne']
  · exact isEnc_of_modEq hn hr (h2.mul (Int.mod_modEq _ _))

/-- **C21** The product of ciphertexts is a ciphertext of the sum. -/
theorem C21_add {n s : Nat} (hn : 0 < n) {k : Public} (hk : PublicOK n s k) {c1 c2 : Int} {m1 m2 : Nat}
    (h1 : IsEnc n s c1 m1) (h2 : IsEnc n s c2 m2) :
    ∃ c, k.add c1 c2 = .ok c ∧ IsEnc n s c (m1 + m2) := by
  have hmod : 0 < (n : Int) ^ (s + 1) := pow_pos (by exact_mod_cast hn) _
  obtain ⟨_, _, u1, hu1, e1⟩ := h1
  obtain ⟨_, _, u2, hu2, e2⟩ := h2
  refine ⟨c1 * c2 % (n : Int) ^ (s + 1), by rw [Public.add, hk.modulus, modMul_ok hmod.ne'], ?_⟩
  refine isEnc_of_modEq (u := u1 * u2) hn (by simpa using gcd_pow_mul 1 1 hu1 hu2) ?_
  refine (e1.mul e2).trans ?_
  have e3 : (1 + (n : Int)) ^ m1 * u1 ^ n ^ s * ((1 + (n : Int)) ^ m2 * u2 ^ n ^ s) =
      (1 + (n : Int)) ^ (m1 + m2) * (u1 * u2) ^ n ^ s := by rw [mul_pow, pow_add]; ring
  rw [e3]

/-- **C21** A power of a ciphertext is a ciphertext of the product. -/
theorem C21_multiply {n s : Nat} (hn : 0 < n) {k : Public} (hk : PublicOK n s k) {c : Int} {m : Nat}
    (h : IsEnc n s c m) (t : Nat) : ∃ c', k.multiply c t = .ok c' ∧ IsEnc n s c' (m * t) := by
  have hmod : 0 < (n : Int) ^ (s + 1) := pow_pos (by exact_mod_cast hn) _
  obtain ⟨_, _, u, hu, e⟩ := h
  refine ⟨c ^ t % (n : Int) ^ (s + 1), by rw [Public.multiply, hk.modulus, modExp_ok _ hmod], ?_⟩
  refine isEnc_of_modEq (u := u ^ t) hn (by simpa using gcd_pow_mul t 0 hu hu) ?_
  refine (e.pow t).trans ?_
  rw [mul_pow, ← pow_mul, ← pow_mul, ← pow_mul, mul_comm t]

/-- **C21** Re-randomization keeps the message. -/
theorem C21_rerand {n s : Nat} (hn : 0 < n) {mont : Int → Option Mont} (hm : MontOK mont) {k : Public}
    (hk : PublicOK n s k) {c : Int} {m : Nat} (h : IsEnc n s c m) (r : Int) (hr : 0 ≤ r) :
    ∃ c', k.reRand mont c r = .ok c' ∧ IsEnc n s c' m := by
  have hmod : 0 < (n : Int) ^ (s + 1) := pow_pos (by exact_mod_cast hn) _
  obtain ⟨_, _, u, hu, e⟩ := h
  obtain ⟨g, hg, hgn⟩ := hk.gn
  have hf := fbe_ok hm (b := k.gn) (e := r) hmod hk.gn1 hr
  refine ⟨c * (k.gn ^ r.toNat % (n : Int) ^ (s + 1)) % (n : Int) ^ (s + 1), ?_, ?_⟩
  · rw [Public.reRand, hk.modulus, hf]
    simp only [Outcome.bind_ok, modMul_ok hmod.ne']
  · refine isEnc_of_modEq (u := u * g ^ r.toNat) hn (by simpa using gcd_pow_mul 1 r.toNat hu hg) ?_
    refine (e.mul ((Int.mod_modEq _ _).trans (hgn.pow r.toNat))).trans ?_
    rw [mul_pow, ← pow_mul, ← pow_mul, mul_comm r.toNat, mul_assoc]

end Upsi.Paillier
