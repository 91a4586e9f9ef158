import Verif.Paillier.PrivProps
import Mathlib.RingTheory.ZMod.UnitsCyclic
import Mathlib.Data.Nat.Size
/-
C69: the randomness of Paillier encryption.  The generator found for a safe prime generates the units modulo every power of
it, so encryption with the private key and with explicit random units is uniform over the ciphertexts of a message.
-/
namespace Upsi.Paillier
open Upsi Upsi.Num

/-- A divisor of `2 q'` that divides neither 2 nor the prime `q'` is `2 q'`. -/
theorem dvd_two_mul_prime {d q : Nat} (hq : q.Prime) (h : d ∣ 2 * q) (h2 : ¬ d ∣ 2) (h3 : ¬ d ∣ q) : d = 2 * q := by
  obtain ⟨e, he⟩ := h
  by_cases h1 : e = 1
  · rw [he, h1, mul_one]
  · exfalso
    obtain ⟨r, hr, hre⟩ := Nat.exists_prime_and_dvd h1
    obtain ⟨f, rfl⟩ := hre
    have hd : r ∣ 2 * q := ⟨d * f, by rw [he]; ring⟩
    rcases (Nat.Prime.dvd_mul hr).1 hd with h | h
    · rw [(Nat.prime_dvd_prime_iff_eq hr Nat.prime_two).1 h] at he
      exact h3 ⟨f, Nat.eq_of_mul_eq_mul_left (show 0 < 2 by omega) (by rw [he]; ring)⟩
    · rw [(Nat.prime_dvd_prime_iff_eq hr hq).1 h] at he
      exact h2 ⟨f, Nat.eq_of_mul_eq_mul_left hq.pos (by rw [mul_comm q 2, he]; ring)⟩

/-- What the search loop returns passes the test. -/
theorem genSafeGo_good {p : Nat} (hp0 : 0 < p) {q : Nat} :
    ∀ (k : Nat) (g r : Int), genSafeGo p q k g = .ok r → r * r % p ≠ 1 ∧ r ^ q % p ≠ 1 := by
  have hp : (p : Int) ≠ 0 := by omega
  intro k
  induction k with
  | zero => intro g r h; simp [genSafeGo] at h
  | succ k ih =>
    intro g r h
    rw [genSafeGo, modSqr, modMul_ok hp, modExp_ok _ (by omega)] at h
    simp only [Outcome.bind_ok] at h
    split at h
    · exact ih _ _ h
    · rename_i hb
      simp only [Outcome.pure_eq, Outcome.ok.injEq] at h
      subst h
      exact not_or.1 hb

theorem emod_eq_one_iff {p : Nat} (h : 1 < p) (x : Int) : x % p = 1 ↔ (x : ZMod p) = 1 := by
  have := ZMod.intCast_eq_intCast_iff x 1 p
  rw [Int.cast_one, Int.ModEq, Int.emod_eq_of_lt (a := 1) (by omega) (by omega)] at this
  exact this.symm

/-- The inverse square of `p` divides the difference of `(g + p)^(p-1)` and its first two binomial terms. -/
theorem add_pow_mod_sq (g p : Int) (n : Nat) : ∃ z, (g + p) ^ n = g ^ n + n * g ^ (n - 1) * p + z * p ^ 2 := by
  induction n with
  | zero => exact ⟨0, by simp⟩
  | succ n ih =>
    obtain ⟨z, hz⟩ := ih
    cases n with
    | zero => exact ⟨0, by simp⟩
    | succ m =>
      refine ⟨z * (g + p) + (m + 1) * g ^ m, ?_⟩
      rw [pow_succ, hz]
      push_cast
      ring

theorem genPrimePowers_range {p : Nat} (hp : p.Prime) (h5 : 5 ≤ p) {tries : Nat} {g : Int}
    (h : genPrimePowers tries p = .ok g) : 0 ≤ g ∧ g < 2 * p := by
  simp only [genPrimePowers, genSafePrime, Outcome.bind_eq_ok, Outcome.pure_eq, Outcome.ok.injEq] at h
  obtain ⟨g1, ⟨q, hq, hg1⟩, y, _, hg⟩ := h
  have hodd := hp.eq_two_or_odd.resolve_left (by omega)
  have hqq : q = ((p - 1) / 2 : Nat) := by
    have h2 : ((p : Int) - 1) = (((p - 1) / 2 : Nat) : Int) * 2 := by omega
    rw [div, if_neg (by omega), h2, Int.mul_tmod_left, Int.mul_tdiv_cancel _ (by omega)] at hq
    simpa using hq.symm
  subst hqq
  obtain ⟨g0, h2, h3, h4⟩ := exists_good hp h5 (q := (p - 1) / 2) (by omega)
  obtain ⟨r, hr, h6, h7⟩ := genSafeGo_bound hp.pos h4 tries 2 g1 h2 hg1
  rw [← hg, hr]
  split <;> omega

/-- **C69** The generator found for a safe prime `p = 2q + 1` generates the group of units modulo every power of `p`: its
order modulo `p^(k+1)` is `p^k (p - 1)`. -/
theorem C69_generator {p q : Nat} (hp : p.Prime) (hq : q.Prime) (hpq : p = 2 * q + 1) {tries : Nat} {g : Int}
    (hg : genPrimePowers tries p = .ok g) (k : Nat) : orderOf ((g : Int) : ZMod (p ^ (k + 1))) = p ^ k * (p - 1) := by
  have := Fact.mk hp
  have h5 : 5 ≤ p := by have := hq.two_le; omega
  have hcop := genPrimePowers_coprime hp h5 hg
  have hp0 : (p : Int) ≠ 0 := by omega
  simp only [genPrimePowers, genSafePrime, Outcome.bind_eq_ok, Outcome.pure_eq, Outcome.ok.injEq] at hg
  obtain ⟨g1, ⟨q', hq', hg1⟩, y, hy, hgy⟩ := hg
  have hqq : q' = q := by
    rw [div, if_neg (by omega), hpq] at hq'
    push_cast at hq'
    rw [show (2 * (q : Int) + 1 - 1) = q * 2 by ring, Int.mul_tmod_left, Int.mul_tdiv_cancel _ (by omega)] at hq'
    simpa using hq'.symm
  subst hqq
  obtain ⟨hb1, hb2⟩ := genSafeGo_good hp.pos _ _ _ hg1
  -- the order modulo `p`
  have hgp : ((g : Int) : ZMod p) = (g1 : ZMod p) := by
    rw [← hgy]; split <;> simp
  have hne : ((g : Int) : ZMod p) ≠ 0 := by
    intro h
    rw [ZMod.intCast_zmod_eq_zero_iff_dvd] at h
    have := Int.gcd_eq_natAbs_right (a := g) (b := p) h
    rw [hcop] at this
    omega
  have hord1 : orderOf ((g : Int) : ZMod p) = p - 1 := by
    have hd : orderOf ((g : Int) : ZMod p) ∣ 2 * q := by
      rw [orderOf_dvd_iff_pow_eq_one, show 2 * q = p - 1 by omega]
      exact ZMod.pow_card_sub_one_eq_one hne
    rw [dvd_two_mul_prime hq hd ?_ ?_]
    · omega
    · rw [orderOf_dvd_iff_pow_eq_one, hgp]
      intro h
      refine hb1 ((emod_eq_one_iff (by omega) _).2 ?_)
      push_cast; rw [← pow_two]; exact h
    · rw [orderOf_dvd_iff_pow_eq_one, hgp]
      intro h
      refine hb2 ((emod_eq_one_iff (by omega) _).2 ?_)
      push_cast; exact h
  -- modulo `p` squared
  have hp2 : 1 < (p : Int) * p := by nlinarith
  have hy' : y = g1 ^ (p - 1) % ((p : Int) * p) := by
    have h1 := modExp_ok (b := g1) (m := (p : Int) * p) (p - 1) (by omega)
    rw [Nat.cast_sub (by omega), Nat.cast_one, hy] at h1
    simpa using h1
  have hnd : ¬ (p : Int) * p ∣ g ^ (p - 1) - 1 := by
    by_cases hy1 : y = 1
    · rw [if_pos hy1] at hgy
      subst hgy
      rintro hd
      obtain ⟨z, hz⟩ := add_pow_mod_sq g1 p (p - 1)
      have h1 : (p : Int) * p ∣ g1 ^ (p - 1) - 1 := by
        refine Int.dvd_of_emod_eq_zero ?_
        rw [Int.sub_emod, ← hy', hy1, Int.emod_eq_of_lt (a := 1) (by omega) (by omega)]
        simp
      have h2 : (p : Int) * p ∣ ((p - 1 : Nat) : Int) * g1 ^ (p - 1 - 1) * p := by
        have h3 : ((p - 1 : Nat) : Int) * g1 ^ (p - 1 - 1) * p =
            ((g1 + p) ^ (p - 1) - 1) - (g1 ^ (p - 1) - 1) - z * (p * p) := by rw [hz]; ring
        rw [h3]
        exact dvd_sub (dvd_sub hd h1) (dvd_mul_left _ _)
      have h4 := Int.dvd_of_mul_dvd_mul_right hp0 h2
      have hpI : _root_.Prime (p : Int) := Nat.prime_iff_prime_int.1 hp
      rcases hpI.dvd_or_dvd h4 with h | h
      · have := Int.le_of_dvd (by omega) h
        omega
      · have h6 := hpI.dvd_of_dvd_pow h
        apply hne
        rw [hgp, ZMod.intCast_zmod_eq_zero_iff_dvd]; exact h6
    · rw [if_neg hy1] at hgy
      subst hgy
      intro hd
      apply hy1
      rw [hy']
      have : g1 ^ (p - 1) ≡ 1 [ZMOD (p : Int) * p] := (Int.modEq_iff_dvd.2 hd).symm
      rw [this, Int.emod_eq_of_lt (by omega) (by omega)]
  -- the power `g^(p-1)` is `1 + p a`
  have hdp : (p : Int) ∣ g ^ (p - 1) - 1 := by
    rw [← ZMod.intCast_zmod_eq_zero_iff_dvd]
    push_cast
    rw [ZMod.pow_card_sub_one_eq_one hne, sub_self]
  obtain ⟨a, ha⟩ := hdp
  have hna : ¬ (p : Int) ∣ a := by
    rintro ⟨b, rfl⟩
    exact hnd ⟨b, by rw [ha]; ring⟩
  have hpow : ((g : Int) : ZMod (p ^ (k + 1))) ^ (p - 1) = 1 + p * (a : Int) := by
    have : g ^ (p - 1) = 1 + p * a := by rw [← ha]; ring
    exact_mod_cast congrArg (Int.cast : Int → ZMod (p ^ (k + 1))) this
  have hord2 := ZMod.orderOf_one_add_mul_prime hp (by omega) a hna k
  rw [← hpow] at hord2
  -- `p - 1` divides the order
  have hdvd : p - 1 ∣ orderOf ((g : Int) : ZMod (p ^ (k + 1))) := by
    rw [← hord1]
    have := orderOf_map_dvd (ZMod.castHom (show p ∣ p ^ (k + 1) from dvd_pow_self p (by omega)) (ZMod p)).toMonoidHom ((g : Int) : ZMod (p ^ (k + 1)))
    simpa using this
  rw [orderOf_pow_of_dvd (by omega) hdvd] at hord2
  rw [← hord2, Nat.div_mul_cancel hdvd]

/-- Safe primes of which neither is twice the other plus one (primes of the same length satisfy this). -/
structure SafePrimes (p q s : Nat) : Prop extends Primes p q s where
  safeP : ∃ t : Nat, t.Prime ∧ p = 2 * t + 1
  safeQ : ∃ t : Nat, t.Prime ∧ q = 2 * t + 1
  pq : p ≠ 2 * q + 1
  qp : q ≠ 2 * p + 1

theorem SafePrimes.swap {p q s : Nat} (h : SafePrimes p q s) : SafePrimes q p s :=
  ⟨h.toPrimes.swap, h.safeQ, h.safeP, h.qp, h.pq⟩

theorem SafePrimes.coprime_sub {p q s : Nat} (h : SafePrimes p q s) : Nat.Coprime (p - 1) q := by
  obtain ⟨t, ht, hp⟩ := h.safeP
  have hq := h.q5
  rw [Nat.coprime_comm, Nat.Prime.coprime_iff_not_dvd h.hq, show p - 1 = 2 * t by omega]
  intro hd
  rcases (Nat.Prime.dvd_mul h.hq).1 hd with h1 | h1
  · have := Nat.le_of_dvd (by omega) h1; omega
  · have := (Nat.prime_dvd_prime_iff_eq h.hq ht).1 h1
    exact h.pq (by omega)

theorem isUnit_of_gcd {p : Nat} (hp : p.Prime) {u : Int} (hu : Int.gcd u p = 1) (s : Nat) :
    IsUnit ((u : Int) : ZMod (p ^ (s + 1))) := by
  have h1 := (ZMod.intCast_eq_intCast_iff _ _ (p ^ (s + 1))).2 (show _ ≡ _ [ZMOD ((p ^ (s + 1) : Nat) : Int)] by
    push_cast; exact unit_pow hp hu s)
  push_cast at h1
  exact IsUnit.of_pow_eq_one h1 (Nat.mul_ne_zero (pow_ne_zero _ hp.ne_zero) (by have := hp.two_le; omega))

/-- In the group of units modulo `p^(s+1)`, with `G` of order `p^s (p-1)`: `G^(n^s)` has order `p - 1`, and the `n^s`-th power
of every unit is one of its powers. -/
theorem gen_powers {p q s : Nat} (h : SafePrimes p q s) {g : Int}
    (hord : orderOf ((g : Int) : ZMod (p ^ (s + 1))) = p ^ s * (p - 1)) :
    orderOf (((g : Int) : ZMod (p ^ (s + 1))) ^ ((p * q) ^ s)) = p - 1 ∧
    ∀ u : Int, Int.gcd u p = 1 → ∃ j : Nat, ((u : Int) : ZMod (p ^ (s + 1))) = (g : ZMod (p ^ (s + 1))) ^ j := by
  have hp5 := h.p5
  have hps : 0 < p ^ s := Nat.pos_of_ne_zero (pow_ne_zero _ (by omega))
  constructor
  · rw [orderOf_pow' _ (pow_ne_zero _ (Nat.mul_ne_zero (by omega) h.hq.ne_zero)), hord, mul_pow, Nat.gcd_mul_left,
      (Nat.Coprime.pow_right s h.coprime_sub : Nat.gcd (p - 1) (q ^ s) = 1), mul_one, Nat.mul_div_cancel_left _ hps]
  · intro u hu
    have : NeZero (p ^ (s + 1)) := ⟨pow_ne_zero _ (by omega)⟩
    have hG : IsUnit ((g : Int) : ZMod (p ^ (s + 1))) := by
      refine IsOfFinOrder.isUnit (orderOf_pos_iff.1 ?_)
      rw [hord]
      exact Nat.mul_pos hps (by omega)
    obtain ⟨G, hG⟩ := hG
    have hcard : orderOf G = Nat.card (ZMod (p ^ (s + 1)))ˣ := by
      rw [← orderOf_units, hG, hord, Nat.card_eq_fintype_card, ZMod.card_units_eq_totient,
        Nat.totient_prime_pow_succ h.hp]
    have htop : Subgroup.zpowers G = ⊤ := Subgroup.eq_top_of_card_eq _ (by rw [Nat.card_zpowers, hcard])
    obtain ⟨U, hU⟩ := isUnit_of_gcd h.hp hu s
    have hm : U ∈ Subgroup.zpowers G := by rw [htop]; exact Subgroup.mem_top _
    rw [← mem_powers_iff_mem_zpowers] at hm
    obtain ⟨j, hj⟩ := hm
    refine ⟨j, ?_⟩
    rw [← hU, ← hG, ← hj]
    push_cast
    rfl

/-- The prime component of an encryption, as a formula. -/
theorem prime_encrypt_eq {p q s : Nat} (h : Primes p q s) {mont : Int → Option Mont} (hm : MontOK mont)
    {k : Prime} (hk : PrimeOK p q s k) (m : Nat) (r : Int) (hr : 0 ≤ r) :
    k.encrypt mont m r = .ok ((1 + ((p * q : Nat) : Int)) ^ m * k.gpn ^ r.toNat % (p : Int) ^ (s + 1)) := by
  have hd : (p : Int) ∣ ((p * q : Nat) : Int) := ⟨q, by push_cast; ring⟩
  have hp0 : (p : Int) ≠ 0 := by have := h.p5; omega
  have hpos : 0 < (p : Int) ^ (s + 1) := pow_pos (by have := h.p5; omega) _
  obtain ⟨c0, h1, h2⟩ := binomialExpansion_spec hp0 hd (small_prime h.hp h.sp) hk.pre m
  have hf := fbe_ok hm (b := k.gpn) (e := r) hpos hk.gpn1 hr
  rw [Prime.encrypt, hk.powers, h1, hk.hs, getPowers_get _ _ _ (le_refl _)]
  simp only [Outcome.bind_ok, hf, modMul_ok hpos.ne']
  exact congrArg Outcome.ok (h2.mul (Int.mod_modEq _ _))

/-- A `PrimeCrypto` object with its generator. -/
structure GenOK (p q s : Nat) (k : Prime) : Prop extends PrimeOK p q s k where
  ord : orderOf ((k.g : Int) : ZMod (p ^ (s + 1))) = p ^ s * (p - 1)
  pow : k.gpn ≡ k.g ^ ((p * q) ^ s) [ZMOD (p : Int) ^ (s + 1)]
  g0 : 0 ≤ k.g
  g1 : k.g < (p : Int) ^ (s + 1)
  gcd : Int.gcd k.g p = 1

theorem gen_new {p q s tries : Nat} (h : SafePrimes p q s) {k : Prime}
    (hk : Prime.new tries p q s = .ok k) : GenOK p q s k := by
  have hok := prime_new h.toPrimes hk
  have hp5 := h.p5
  have hpos : 0 < (p : Int) ^ (s + 1) := pow_pos (by omega) _
  simp only [Prime.new, Outcome.bind_eq_ok, Outcome.pure_eq, Outcome.ok.injEq, getPowers_get _ _ _ (le_refl _)] at hk
  obtain ⟨_, rfl, _, _, _, _, _, _, _, _, _, _, g, hg, x, hx, rfl⟩ := hk
  obtain ⟨t, ht, hpt⟩ := h.safeP
  have hx' : x = g ^ ((p * q) ^ s) % (p : Int) ^ (s + 1) := by
    have := modExp_ok (b := g) ((p * q) ^ s) hpos
    push_cast at this
    rw [this] at hx
    simpa using hx.symm
  obtain ⟨g0, g1⟩ := genPrimePowers_range h.hp h.p5 hg
  refine ⟨hok, C69_generator h.hp ht hpt hg s, ?_, g0, lt_of_lt_of_le g1 ?_, genPrimePowers_coprime h.hp h.p5 hg⟩
  · dsimp only
    rw [hx']; exact Int.mod_modEq _ _
  · have : (p : Int) ^ 2 ≤ (p : Int) ^ (s + 1) := pow_le_pow_right₀ (by omega) (by have := h.s1; omega)
    nlinarith

/-- Exactly one coin in `[1, p)` gives a given prime component. -/
theorem prime_coin {p q s : Nat} (h : SafePrimes p q s) {mont : Int → Option Mont} (hm : MontOK mont)
    {k : Prime} (hk : GenOK p q s k) (m : Nat) {u c : Int} (hu : Int.gcd u p = 1)
    (hc : c ≡ (1 + ((p * q : Nat) : Int)) ^ m * u ^ ((p * q) ^ s) [ZMOD (p : Int) ^ (s + 1)]) :
    ∃ r : Int, (1 ≤ r ∧ r < p ∧ k.encrypt mont m r = .ok (c % (p : Int) ^ (s + 1))) ∧
      ∀ r' : Int, 1 ≤ r' → r' < p → k.encrypt mont m r' = .ok (c % (p : Int) ^ (s + 1)) → r' = r := by
  obtain ⟨ho, hg⟩ := gen_powers h hk.ord
  obtain ⟨j, hj⟩ := hg u hu
  have hp5 := h.p5
  have hcast : ∀ x y : Int, x ≡ y [ZMOD (p : Int) ^ (s + 1)] ↔ ((x : Int) : ZMod (p ^ (s + 1))) = (y : Int) := by
    intro x y
    rw [ZMod.intCast_eq_intCast_iff]; push_cast; rfl
  have hone : IsUnit ((((1 + ((p * q : Nat) : Int)) ^ m : Int)) : ZMod (p ^ (s + 1))) := by
    refine isUnit_of_gcd h.hp ?_ s
    have h1 : (1 + ((p * q : Nat) : Int)) ^ m ≡ 1 ^ m [ZMOD p] := by
      refine Int.ModEq.pow m (Int.modEq_iff_dvd.2 ⟨-q, ?_⟩)
      push_cast; ring
    rw [gcd_eq_one_of_modEq h1]; simp
  have hkey : ∀ r : Int, 1 ≤ r → (k.encrypt mont m r = .ok (c % (p : Int) ^ (s + 1)) ↔ r.toNat ≡ j [MOD (p - 1)]) := by
    intro r hr
    rw [prime_encrypt_eq h.toPrimes hm hk.toPrimeOK m r (by omega), Outcome.ok.injEq]
    change (_ ≡ c [ZMOD _]) ↔ _
    obtain ⟨G, hG⟩ := isUnit_of_gcd h.hp hk.gcd s
    rw [← ho, ← hG, ← Units.val_pow_eq_pow_val, orderOf_units, ← pow_eq_pow_iff_modEq, ← Units.val_inj]
    push_cast
    rw [hG, ← pow_mul, ← pow_mul, mul_comm _ j, pow_mul _ j, ← hj]
    have hpow := (hcast _ _).1 (hk.pow.pow r.toNat)
    rw [hcast, (hcast _ _).1 hc]
    push_cast at hpow hone ⊢
    rw [hpow, ← pow_mul, hone.mul_right_inj]
  refine ⟨((if j % (p - 1) = 0 then p - 1 else j % (p - 1) : Nat) : Int), ?_, ?_⟩
  · have hlt : j % (p - 1) < p - 1 := Nat.mod_lt _ (by omega)
    refine ⟨by split <;> omega, by split <;> omega, (hkey _ (by split <;> omega)).2 ?_⟩
    rw [Int.toNat_natCast, Nat.ModEq]
    split
    · rename_i h0; rw [h0, Nat.mod_self]
    · exact Nat.mod_mod _ _
  · intro r' h1 h2 hr'
    have h3 := (hkey r' h1).1 hr'
    rw [Nat.ModEq] at h3
    by_cases hr : r'.toNat = p - 1
    · rw [hr, Nat.mod_self] at h3
      rw [if_pos h3.symm]; omega
    · rw [Nat.mod_eq_of_lt (by omega)] at h3
      rw [if_neg (by omega)]; omega

theorem private_gen {p q s tries : Nat} (h : SafePrimes p q s) {k : Private}
    (hk : Private.new tries p q s = .ok k) : GenOK p q s k.pc ∧ GenOK q p s k.qc := by
  simp only [Private.new, Outcome.bind_eq_ok, Outcome.pure_eq, Outcome.ok.injEq] at hk
  obtain ⟨pc, hpc, qc, hqc, p1, hp1, q1, hq1, e, he, p0, hp0, q0, hq0, d, hd, rfl⟩ := hk
  exact ⟨gen_new h hpc, gen_new h.swap hqc⟩

/-- **C69** Encryption with the private key draws uniformly among the ciphertexts of the message: every ciphertext of `m` is
produced by exactly one pair of coins in `[1, p) × [1, q)`. -/
theorem C69_private_uniform {p q s tries : Nat} (h : SafePrimes p q s) {mont : Int → Option Mont} (hm : MontOK mont)
    {priv : Private} (hpriv : Private.new tries p q s = .ok priv) (m : Nat) (hlt : m < (p * q) ^ s) {c : Int}
    (hc : IsEnc (p * q) s c m) :
    ∃ rp rq : Int, (1 ≤ rp ∧ rp < p ∧ 1 ≤ rq ∧ rq < q ∧ priv.encrypt mont m rp rq = .ok c) ∧
      ∀ rp' rq' : Int, 1 ≤ rp' → rp' < p → 1 ≤ rq' → rq' < q → priv.encrypt mont m rp' rq' = .ok c → rp' = rp ∧ rq' = rq := by
  obtain ⟨gp, gq⟩ := private_gen h hpriv
  have hk := private_new h.toPrimes hpriv
  obtain ⟨c0, c1, u, hu, e⟩ := hc
  have hup : Int.gcd u p = 1 := by
    rw [← Int.isCoprime_iff_gcd_eq_one] at *
    push_cast at hu
    exact hu.of_mul_right_left
  have huq : Int.gcd u q = 1 := by
    rw [← Int.isCoprime_iff_gcd_eq_one] at *
    push_cast at hu
    exact hu.of_mul_right_right
  rw [h.toPrimes.modEq_iff] at e
  obtain ⟨ep, eq⟩ := e
  rw [mul_comm p q] at eq
  obtain ⟨rp, ⟨p1, p2, p3⟩, p4⟩ := prime_coin h hm gp m hup ep
  obtain ⟨rq, ⟨q1, q2, q3⟩, q4⟩ := prime_coin h.swap hm gq m huq eq
  have hpp : 0 < (p : Int) ^ (s + 1) := pow_pos (by have := h.p5; omega) _
  have hqp : 0 < (q : Int) ^ (s + 1) := pow_pos (by have := h.q5; omega) _
  obtain ⟨t, ht, htc⟩ := C24_crt _ _ hpp hqp (h.toPrimes.crt (s + 1))
  obtain rfl : t = priv.crtEnc := Outcome.ok.inj (ht.symm.trans hk.crtEnc)
  have hlt' : ¬ ((m : Int) ≥ ((p * q : Nat) : Int) ^ s) := by
    have : (m : Int) < (((p * q) ^ s : Nat) : Int) := by exact_mod_cast hlt
    push_cast at this ⊢; omega
  have henc : ∀ x y : Int, priv.encrypt mont m x y = (priv.pc.encrypt mont m x >>= fun a =>
      priv.qc.encrypt mont m y >>= fun b => priv.crtEnc.compute a b) := by
    intro x y
    rw [Private.encrypt, if_neg (by omega), hk.ns, if_neg hlt']
  refine ⟨rp, rq, ⟨p1, p2, q1, q2, ?_⟩, ?_⟩
  · obtain ⟨x, hx, -, hxu⟩ := htc (c % (p : Int) ^ (s + 1)) (c % (q : Int) ^ (s + 1))
    rw [henc, p3, q3]
    simp only [Outcome.bind_ok, hx]
    rw [hxu c c0 (by rw [← mul_pow]; push_cast at c1; exact c1) (Int.mod_modEq _ _).symm (Int.mod_modEq _ _).symm]
  · intro rp' rq' a1 a2 b1 b2 he
    rw [henc, prime_encrypt_eq h.toPrimes hm hk.pc m rp' (by omega),
      prime_encrypt_eq h.toPrimes.swap hm hk.qc m rq' (by omega)] at he
    simp only [Outcome.bind_ok] at he
    obtain ⟨x, hx, ⟨-, -, xp, xq⟩, -⟩ := htc ((1 + ((p * q : Nat) : Int)) ^ m * priv.pc.gpn ^ rp'.toNat % (p : Int) ^ (s + 1))
      ((1 + ((q * p : Nat) : Int)) ^ m * priv.qc.gpn ^ rq'.toNat % (q : Int) ^ (s + 1))
    obtain rfl : x = c := Outcome.ok.inj (hx.symm.trans he)
    refine ⟨p4 rp' a1 a2 ?_, q4 rq' b1 b2 ?_⟩
    · rw [prime_encrypt_eq h.toPrimes hm hk.pc m rp' (by omega)]
      exact congrArg Outcome.ok ((Int.mod_modEq _ _).symm.trans xp.symm)
    · rw [prime_encrypt_eq h.toPrimes.swap hm hk.qc m rq' (by omega)]
      exact congrArg Outcome.ok ((Int.mod_modEq _ _).symm.trans xq.symm)

/-- Encryption with a given unit, as a formula. -/
theorem encryptWithRand_eq {n s : Nat} (hn : 0 < n) (hs : Small s n) {k : Public}
    (hk : PublicOK n s k) (m : Nat) (r : Int) (hr : Int.gcd r n = 1) :
    k.encryptWithRand m r = .ok ((1 + (n : Int)) ^ m * r ^ (n ^ s) % (n : Int) ^ (s + 1)) := by
  obtain ⟨c0, h1, h2⟩ := binomialExpansion_spec (M := n) (by omega) (dvd_refl _) hs hk.pre m
  have hmod : 0 < (n : Int) ^ (s + 1) := pow_pos (by exact_mod_cast hn) _
  have he := modExp_ok (b := r) (n ^ s) hmod
  push_cast at he
  rw [Public.encryptWithRand, hk.hn, if_neg (by simpa using hr), hk.powers, h1, hk.modulus, hk.hs,
    getPowers_get _ _ _ (Nat.le_succ s)]
  simp only [Outcome.bind_ok, he, modMul_ok hmod.ne']
  exact congrArg Outcome.ok (h2.mul (Int.mod_modEq _ _))

/-- Numbers equal modulo `p` have equal `n^s`-th powers modulo `p^(s+1)`. -/
theorem pow_lift {p q s : Nat} {x y : Int} (h : x ≡ y [ZMOD p]) :
    x ^ ((p * q) ^ s) ≡ y ^ ((p * q) ^ s) [ZMOD (p : Int) ^ (s + 1)] := by
  have h2 := dvd_sub_pow_of_dvd_sub (R := Int) (p := p) (Int.modEq_iff_dvd.1 h.symm) s
  rw [mul_pow, pow_mul, pow_mul]
  exact (Int.modEq_iff_dvd.2 h2).symm.pow _

/-- Units with equal `n^s`-th powers modulo `p` are equal modulo `p`. -/
theorem pow_inj {p q s : Nat} (h : SafePrimes p q s) {x y : Int} (hx : Int.gcd x p = 1) (hy : Int.gcd y p = 1)
    (e : x ^ ((p * q) ^ s) ≡ y ^ ((p * q) ^ s) [ZMOD p]) : x ≡ y [ZMOD p] := by
  have := Fact.mk h.hp
  have hp5 := h.p5
  have hu : ∀ {z : Int}, Int.gcd z p = 1 → IsUnit ((z : Int) : ZMod p) := by
    intro z hz
    rw [isUnit_iff_ne_zero]
    intro h0
    rw [ZMod.intCast_zmod_eq_zero_iff_dvd] at h0
    have := Int.gcd_eq_natAbs_right h0
    omega
  obtain ⟨X, hX⟩ := hu hx
  obtain ⟨Y, hY⟩ := hu hy
  rw [← ZMod.intCast_eq_intCast_iff] at e ⊢
  push_cast at e
  rw [← hX, ← hY] at e ⊢
  have hcop : (Nat.card (ZMod p)ˣ).Coprime ((p * q) ^ s) := by
    rw [Nat.card_eq_fintype_card, ZMod.card_units]
    refine Nat.Coprime.pow_right _ (Nat.Coprime.mul_right ?_ h.coprime_sub)
    exact (Nat.coprime_self_sub_left (by omega)).2 (Nat.coprime_one_left p)
  rw [Units.val_inj]
  refine (powCoprime hcop).injective ?_
  simp only [powCoprime_apply]
  exact Units.ext (by push_cast; exact e)

/-- **C69** Encryption with a random unit is uniform over the ciphertexts of the message: every ciphertext of `m` is produced
by exactly one unit below `n`. -/
theorem C69_public_uniform {p q s : Nat} (h : SafePrimes p q s) {x : Int} {pub : Public}
    (hpub : Public.new x ((p * q : Nat) : Int) s = .ok pub) (hx : Int.gcd x ((p * q : Nat) : Int) = 1)
    (m : Nat) {c : Int} (hc : IsEnc (p * q) s c m) :
    ∃ r : Int, (0 < r ∧ r < p * q ∧ Int.gcd r ((p * q : Nat) : Int) = 1 ∧ pub.encryptWithRand m r = .ok c) ∧
      ∀ r' : Int, 0 < r' → r' < p * q → pub.encryptWithRand m r' = .ok c → r' = r := by
  obtain ⟨k, hk, hkok⟩ := public_new h.toPrimes x hx
  obtain rfl : pub = k := Outcome.ok.inj (hpub.symm.trans hk)
  have hn : 0 < p * q := Nat.mul_pos h.hp.pos h.hq.pos
  obtain ⟨c0, c1, u, hu, e⟩ := hc
  have hn1 : 1 < p * q := by have := h.p5; have := h.q5; nlinarith
  have hN1 : (1 : Int) < ((p * q : Nat) : Int) := by exact_mod_cast hn1
  have hcast : ((p * q : Nat) : Int) = (p : Int) * q := by push_cast; rfl
  have hgcd : Int.gcd (u % ((p * q : Nat) : Int)) ((p * q : Nat) : Int) = 1 := by
    rw [← hu]; exact gcd_eq_one_of_modEq (Int.mod_modEq _ _)
  have hsplit : ∀ {y : Int}, Int.gcd y ((p * q : Nat) : Int) = 1 → Int.gcd y p = 1 ∧ Int.gcd y q = 1 := by
    intro y hy
    rw [← Int.isCoprime_iff_gcd_eq_one, hcast] at hy
    exact ⟨Int.isCoprime_iff_gcd_eq_one.1 hy.of_mul_right_left, Int.isCoprime_iff_gcd_eq_one.1 hy.of_mul_right_right⟩
  have hmod : u % ((p * q : Nat) : Int) ≡ u [ZMOD ((p * q : Nat) : Int)] := Int.mod_modEq _ _
  have hru : (u % ((p * q : Nat) : Int)) ^ ((p * q) ^ s) ≡ u ^ ((p * q) ^ s) [ZMOD ((p * q : Nat) : Int) ^ (s + 1)] := by
    rw [h.toPrimes.modEq_iff]
    refine ⟨pow_lift (hmod.of_dvd ⟨q, hcast⟩), ?_⟩
    rw [mul_comm p q]
    exact pow_lift (by rw [mul_comm q p]; exact hmod.of_dvd ⟨p, by rw [hcast, mul_comm]⟩)
  have hr0 : 0 ≤ u % ((p * q : Nat) : Int) := Int.emod_nonneg _ (by omega)
  have hr1 : u % ((p * q : Nat) : Int) < ((p * q : Nat) : Int) := Int.emod_lt_of_pos _ (by omega)
  refine ⟨u % ((p * q : Nat) : Int), ⟨?_, by rw [← hcast]; exact hr1, hgcd, ?_⟩, ?_⟩
  · rcases hr0.lt_or_eq with h1 | h1
    · exact h1
    · rw [← h1, Int.gcd_zero_left] at hgcd; omega
  · rw [encryptWithRand_eq hn h.toPrimes.small_mul hkok m _ hgcd]
    refine congrArg Outcome.ok ?_
    rw [(hru.mul_left _).trans e.symm, Int.emod_eq_of_lt c0 c1]
  · intro r' h0 h1 he
    have hg' : Int.gcd r' ((p * q : Nat) : Int) = 1 := by
      by_contra hne
      rw [Public.encryptWithRand, hkok.hn, if_pos hne] at he
      exact absurd he (by simp)
    rw [encryptWithRand_eq hn h.toPrimes.small_mul hkok m _ hg', Outcome.ok.injEq] at he
    have hce : (1 + ((p * q : Nat) : Int)) ^ m * r' ^ ((p * q) ^ s) ≡
        (1 + ((p * q : Nat) : Int)) ^ m * u ^ ((p * q) ^ s) [ZMOD ((p * q : Nat) : Int)] :=
      ((Int.mod_modEq _ _).symm.trans (he ▸ e)).of_dvd (dvd_pow_self _ (by omega))
    have hone : (1 + ((p * q : Nat) : Int)) ^ m ≡ 1 [ZMOD ((p * q : Nat) : Int)] := by
      have : (1 + ((p * q : Nat) : Int)) ≡ 1 [ZMOD ((p * q : Nat) : Int)] := Int.modEq_iff_dvd.2 ⟨-1, by ring⟩
      simpa using this.pow m
    have hpow : r' ^ ((p * q) ^ s) ≡ (u % ((p * q : Nat) : Int)) ^ ((p * q) ^ s) [ZMOD ((p * q : Nat) : Int)] := by
      have h2 := (hone.mul_right (r' ^ ((p * q) ^ s))).symm.trans (hce.trans (hone.mul_right _))
      rw [one_mul, one_mul] at h2
      exact h2.trans (hmod.symm.pow _)
    have hp := pow_inj h (hsplit hg').1 (hsplit hgcd).1 (hpow.of_dvd ⟨q, hcast⟩)
    have hq := pow_inj h.swap (x := r') (y := u % ((p * q : Nat) : Int)) (hsplit hg').2 (hsplit hgcd).2
      (by rw [mul_comm q p]; exact hpow.of_dvd ⟨p, by rw [hcast, mul_comm]⟩)
    have hpq : r' ≡ u % ((p * q : Nat) : Int) [ZMOD ((p * q : Nat) : Int) ^ 1] := by
      rw [h.toPrimes.modEq_iff, pow_one, pow_one]; exact ⟨hp, hq⟩
    rw [pow_one, Int.ModEq, Int.emod_emod, Int.emod_eq_of_lt (by omega) (by omega)] at hpq
    exact hpq

/-- **C69** The reported randomness is the randomness used: with the private key, the number returned next to the ciphertext
is a unit below `n`, and encrypting the same message under the public key with that unit gives the same ciphertext — for
every message in range and all coins. (With the public key the unit drawn is returned.) -/
theorem C69_reported_rand {p q s tries : Nat} (h : SafePrimes p q s) {mont : Int → Option Mont} (hm : MontOK mont)
    {x : Int} {pub : Public} (hpub : Public.new x ((p * q : Nat) : Int) s = .ok pub)
    (hx : Int.gcd x ((p * q : Nat) : Int) = 1)
    {priv : Private} (hpriv : Private.new tries p q s = .ok priv) (m : Nat) (hlt : m < (p * q) ^ s) {rp rq : Int}
    (hrp : 0 ≤ rp) (hrq : 0 ≤ rq) :
    ∃ c r, priv.encryptAndGetRand mont m rp rq = .ok (c, r) ∧ 0 < r ∧ r < p * q ∧ Int.gcd r ((p * q : Nat) : Int) = 1 ∧
      priv.encrypt mont m rp rq = .ok c ∧ pub.encryptAndGetRand m r = .ok (c, r) ∧ IsEnc (p * q) s c m := by
  obtain ⟨k, hk, hkok⟩ := public_new h.toPrimes x hx
  obtain rfl : pub = k := Outcome.ok.inj (hpub.symm.trans hk)
  obtain ⟨gp, gq⟩ := private_gen h hpriv
  have hok := private_new h.toPrimes hpriv
  have hn : 0 < p * q := Nat.mul_pos h.hp.pos h.hq.pos
  have hp5 := h.p5
  have hq5 := h.q5
  have hcast : ((p * q : Nat) : Int) = (p : Int) * q := by push_cast; rfl
  have hpp : 0 < (p : Int) ^ (s + 1) := pow_pos (by omega) _
  have hqp : 0 < (q : Int) ^ (s + 1) := pow_pos (by omega) _
  obtain ⟨t, ht, htc⟩ := C24_crt (p : Int) (q : Int) (by omega) (by omega) (by simpa using h.toPrimes.crt 1)
  obtain ⟨t2, ht2, htc2⟩ := C24_crt _ _ hpp hqp (h.toPrimes.crt (s + 1))
  obtain rfl : t2 = priv.crtEnc := Outcome.ok.inj (ht2.symm.trans hok.crtEnc)
  have fp := fbe_ok hm (b := priv.pc.g) (e := rp) hpp gp.g1 hrp
  have fq := fbe_ok hm (b := priv.qc.g) (e := rq) hqp gq.g1 hrq
  obtain ⟨r, hr, ⟨r0, r1, rep, req⟩, -⟩ := htc (priv.pc.g ^ rp.toNat % (p : Int) ^ (s + 1)) (priv.qc.g ^ rq.toNat % (q : Int) ^ (s + 1))
  obtain ⟨c, hcc, ⟨c0, c1, cp, cq⟩, -⟩ := htc2 ((1 + ((p * q : Nat) : Int)) ^ m * priv.pc.gpn ^ rp.toNat % (p : Int) ^ (s + 1))
      ((1 + ((q * p : Nat) : Int)) ^ m * priv.qc.gpn ^ rq.toNat % (q : Int) ^ (s + 1))
  have ea := prime_encrypt_eq h.toPrimes hm hok.pc m rp hrp
  have eb := prime_encrypt_eq h.toPrimes.swap hm hok.qc m rq hrq
  have hlt' : ¬ ((m : Int) ≥ ((p * q : Nat) : Int) ^ s) := by
    have : (m : Int) < (((p * q) ^ s : Nat) : Int) := by exact_mod_cast hlt
    push_cast at this ⊢; omega
  have rep' : r ≡ priv.pc.g ^ rp.toNat [ZMOD p] := rep.trans ((Int.mod_modEq _ _).of_dvd (dvd_pow_self _ (by omega)))
  have req' : r ≡ priv.qc.g ^ rq.toNat [ZMOD q] := req.trans ((Int.mod_modEq _ _).of_dvd (dvd_pow_self _ (by omega)))
  have hgcd : Int.gcd r ((p * q : Nat) : Int) = 1 := by
    rw [← Int.isCoprime_iff_gcd_eq_one, hcast]
    refine IsCoprime.mul_right ?_ ?_
    · rw [Int.isCoprime_iff_gcd_eq_one, gcd_eq_one_of_modEq rep']
      simpa using gcd_pow_mul rp.toNat 0 gp.gcd gp.gcd
    · rw [Int.isCoprime_iff_gcd_eq_one, gcd_eq_one_of_modEq req']
      simpa using gcd_pow_mul rq.toNat 0 gq.gcd gq.gcd
  have hpub' : pub.encryptWithRand m r = .ok c := by
    rw [encryptWithRand_eq hn h.toPrimes.small_mul hkok m _ hgcd]
    refine congrArg Outcome.ok ?_
    have hcr : (1 + ((p * q : Nat) : Int)) ^ m * r ^ ((p * q) ^ s) ≡ c [ZMOD ((p * q : Nat) : Int) ^ (s + 1)] := by
      rw [h.toPrimes.modEq_iff]
      constructor
      · refine Int.ModEq.trans ?_ (cp.trans (Int.mod_modEq _ _)).symm
        refine Int.ModEq.mul_left _ ((pow_lift rep').trans ?_)
        rw [← pow_mul, mul_comm, pow_mul]
        exact (gp.pow.pow _).symm
      · refine Int.ModEq.trans ?_ (cq.trans (Int.mod_modEq _ _)).symm
        rw [mul_comm p q]
        refine Int.ModEq.mul_left _ ((pow_lift req').trans ?_)
        rw [← pow_mul, mul_comm, pow_mul]
        exact (gq.pow.pow _).symm
    rw [hcr, Int.emod_eq_of_lt c0 (by rw [hcast, mul_pow]; exact c1)]
  have henc : priv.encrypt mont m rp rq = .ok c := by
    rw [Private.encrypt, if_neg (by omega), hok.ns, if_neg hlt', ea, eb]
    simp only [Outcome.bind_ok, hcc]
  refine ⟨c, r, ?_, ?_, r1, hgcd, henc, ?_, ?_⟩
  · rw [Private.encryptAndGetRand, hok.pc.powers, hok.qc.powers, getPowers_get _ _ _ (by omega), getPowers_get _ _ _ (by omega)]
    simp only [Outcome.bind_ok, pow_one, ht]
    rw [if_neg (by omega), hok.ns, if_neg hlt', Prime.encryptAndGetRand, Prime.encryptAndGetRand, ea, eb, hok.pc.powers,
      hok.qc.powers, hok.pc.hs, hok.qc.hs, getPowers_get _ _ _ (le_refl _), getPowers_get _ _ _ (le_refl _)]
    simp only [Outcome.bind_ok, fp, fq, Outcome.pure_eq, hcc, hr]
  · rcases r0.lt_or_eq with h1 | h1
    · exact h1
    · rw [← h1, Int.gcd_zero_left] at hgcd
      have : 1 < p * q := by nlinarith
      omega
  · rw [Public.encryptAndGetRand, hpub']; rfl
  · obtain ⟨c', h1, h2⟩ := C22_private_encrypt h.toPrimes hm hok m hlt rp rq hrp hrq
    obtain rfl : c' = c := Outcome.ok.inj (h1.symm.trans henc)
    exact h2

/-! Non-vacuity: `p = 7`, `q = 11`. -/
theorem safe_7_11 : SafePrimes 7 11 1 :=
  { hp := by norm_num, hq := by norm_num, ne := by norm_num, p5 := by norm_num, q5 := by norm_num, s1 := by norm_num,
    sp := by norm_num, sq := by norm_num, safeP := ⟨3, by norm_num, by norm_num⟩, safeQ := ⟨5, by norm_num, by norm_num⟩,
    pq := by norm_num, qp := by norm_num }

/-- Primes of the same bit length (as generated by `GeneratePaillierKeyPair`) are never related in the excluded way. -/
theorem C69_same_length {p q : Nat} (h : Nat.size p = Nat.size q) : p ≠ 2 * q + 1 ∧ q ≠ 2 * p + 1 := by
  have key : ∀ {a b : Nat}, Nat.size a = Nat.size b → 0 < b → a ≠ 2 * b + 1 := by
    rintro a b h hb rfl
    have h1 : 2 ^ (Nat.size b - 1) ≤ b := by
      rw [← Nat.lt_size]; have := Nat.size_pos.2 hb; omega
    have h2 : 2 * b + 1 < 2 ^ Nat.size b := by rw [← h]; exact Nat.lt_size_self _
    obtain ⟨t, ht⟩ : ∃ t, Nat.size b = t + 1 := ⟨Nat.size b - 1, by have := Nat.size_pos.2 hb; omega⟩
    rw [ht, pow_succ] at h2
    rw [ht, Nat.add_sub_cancel] at h1
    omega
  constructor
  · rcases Nat.eq_zero_or_pos q with rfl | hq
    · rw [Nat.size_zero, Nat.size_eq_zero] at h; omega
    · exact key h hq
  · rcases Nat.eq_zero_or_pos p with rfl | hp
    · rw [Nat.size_zero] at h; have := Nat.size_eq_zero.1 h.symm; omega
    · exact key h.symm hp

/-- **C69** The exclusion is needed: for safe primes with `p = 2q + 1` the randomness degenerates, coins `rp` and `rp + 2`
always give the same ciphertext. -/
theorem C69_related_primes {p q s tries : Nat} (h : Primes p q s) (hpq : p = 2 * q + 1) {mont : Int → Option Mont}
    (hm : MontOK mont) {priv : Private} (hpriv : Private.new tries p q s = .ok priv) (m : Nat) {rp rq : Int} (hrp : 0 ≤ rp) :
    priv.encrypt mont m (rp + 2) rq = priv.encrypt mont m rp rq := by
  have hok := private_new h hpriv
  have h1 := prime_encrypt_eq h hm hok.pc m rp hrp
  have h2 := prime_encrypt_eq h hm hok.pc m (rp + 2) (by omega)
  have h3 : priv.pc.encrypt mont m (rp + 2) = priv.pc.encrypt mont m rp := by
    rw [h1, h2, show (rp + 2).toNat = 2 + rp.toNat by omega]
    refine congrArg Outcome.ok (Int.ModEq.mul_left _ ?_)
    obtain ⟨g, hg, hgn⟩ := hok.pc.gpn
    rw [pow_add _ 2 rp.toNat]
    have h4 : priv.pc.gpn ^ 2 ≡ 1 [ZMOD (p : Int) ^ (s + 1)] := by
      refine (hgn.pow 2).trans ?_
      have hs := h.s1
      obtain ⟨t, rfl⟩ : ∃ t, s = t + 1 := ⟨s - 1, by omega⟩
      rw [← pow_mul, show (p * q) ^ (t + 1) * 2 = p ^ (t + 1) * (p - 1) * q ^ t by
        rw [show p - 1 = 2 * q by omega]; ring, pow_mul]
      simpa using (unit_pow h.hp hg (t + 1)).pow (q ^ t)
    have h5 := h4.mul_right (priv.pc.gpn ^ rp.toNat)
    rw [one_mul] at h5
    exact h5
  rw [Private.encrypt, Private.encrypt, h3]

/-- **C69** What does *not* hold for `Encrypt` with the public key: the mask is a power of one fixed element whose order
divides `(p - 1)(q - 1) / 2`, so coins `r` and `r + (p - 1)(q - 1) / 2` give the same ciphertext: at most half of the
`(p - 1)(q - 1)` ciphertexts of a message are ever produced. -/
theorem C69_public_encrypt_half {p q s : Nat} (h : Primes p q s) {x : Int} {mont : Int → Option Mont} (hm : MontOK mont)
    {pub : Public} (hpub : Public.new x ((p * q : Nat) : Int) s = .ok pub) (hx : Int.gcd x ((p * q : Nat) : Int) = 1)
    (m r : Int) (hr : 0 ≤ r) (hn : r + ((p - 1) * (q - 1) / 2 : Nat) ≤ p * q) :
    pub.encrypt mont m (r + ((p - 1) * (q - 1) / 2 : Nat)) = pub.encrypt mont m r := by
  obtain ⟨k, hk, hok⟩ := public_new h x hx
  obtain rfl : pub = k := Outcome.ok.inj (hpub.symm.trans hk)
  have hpos : 0 < ((p * q : Nat) : Int) ^ (s + 1) := pow_pos (by exact_mod_cast Nat.mul_pos h.hp.pos h.hq.pos) _
  have f1 := fbe_ok hm (b := pub.gn) (e := r) hpos hok.gn1 hr
  have f2 := fbe_ok hm (b := pub.gn) (e := r + ((p - 1) * (q - 1) / 2 : Nat)) hpos hok.gn1 (by omega)
  have hc : ((p * q : Nat) : Int) = (p : Int) * q := by push_cast; rfl
  obtain ⟨g, hg, hgn⟩ := hok.gn
  have hodd : ∀ {a : Nat}, a.Prime → 5 ≤ a → ∃ t, a - 1 = 2 * t := fun {a} ha h5 => by
    rcases ha.eq_two_or_odd with rfl | h2
    · omega
    · exact ⟨(a - 1) / 2, by omega⟩
  obtain ⟨a, ha⟩ := hodd h.hp h.p5
  obtain ⟨b, hb⟩ := hodd h.hq h.q5
  have hL : (p - 1) * (q - 1) / 2 = 2 * a * b := by
    rw [ha, hb, show 2 * a * (2 * b) = 2 * (2 * a * b) by ring, Nat.mul_div_cancel_left _ (by omega)]
  have hgs : Int.gcd g p = 1 ∧ Int.gcd g q = 1 := by
    rw [← Int.isCoprime_iff_gcd_eq_one, hc] at hg
    exact ⟨Int.isCoprime_iff_gcd_eq_one.1 hg.of_mul_right_left, Int.isCoprime_iff_gcd_eq_one.1 hg.of_mul_right_right⟩
  have hL1 : pub.gn ^ (2 * a * b) ≡ 1 [ZMOD ((p * q : Nat) : Int) ^ (s + 1)] := by
    refine (hgn.pow (2 * a * b)).trans ?_
    rw [← pow_mul, h.modEq_iff]
    constructor
    · rw [show (p * q) ^ s * (2 * a * b) = p ^ s * (p - 1) * (q ^ s * b) by rw [ha]; ring, pow_mul]
      simpa using (unit_pow h.hp hgs.1 s).pow (q ^ s * b)
    · rw [show (p * q) ^ s * (2 * a * b) = q ^ s * (q - 1) * (p ^ s * a) by rw [hb]; ring, pow_mul]
      simpa using (unit_pow h.hq hgs.2 s).pow (p ^ s * a)
  have h3 : pub.gn ^ (r + ((p - 1) * (q - 1) / 2 : Nat)).toNat % ((p * q : Nat) : Int) ^ (s + 1) =
      pub.gn ^ r.toNat % ((p * q : Nat) : Int) ^ (s + 1) := by
    rw [show (r + ((p - 1) * (q - 1) / 2 : Nat)).toNat = r.toNat + (p - 1) * (q - 1) / 2 by omega, hL, pow_add]
    have := hL1.mul_left (pub.gn ^ r.toNat)
    rw [mul_one] at this
    exact this
  have hn1 : ¬ r + ((p - 1) * (q - 1) / 2 : Nat) > pub.n := by rw [hok.hn, hc]; omega
  have hn2 : ¬ r > pub.n := by omega
  rw [Public.encrypt, Public.encrypt, Public.encryptWithGen, Public.encryptWithGen, if_neg hn1, if_neg hn2, hok.modulus, f1, f2, h3]

/-- `n = 77`: coins 2 and 32 give the same encryption of 42. -/
example : ∃ pub c, Public.new 2 77 1 = .ok pub ∧ pub.encrypt (fun _ => none) 42 2 = .ok c ∧
    pub.encrypt (fun _ => none) 42 32 = .ok c := by
  obtain ⟨pub, hpub, hok⟩ := public_new safe_7_11.toPrimes 2 (by norm_num)
  obtain ⟨c, hc, _⟩ := C21_encrypt (n := 7 * 11) (by norm_num) safe_7_11.toPrimes.small_mul
    (mont := fun _ => none) (by intro m c h; simp at h) hok 42 (by norm_num) 2 (by norm_num) (by norm_num)
  refine ⟨pub, c, hpub, hc, ?_⟩
  rw [← hc]
  exact C69_public_encrypt_half safe_7_11.toPrimes (by intro m c h; simp at h) hpub (by norm_num) 42 2 (by norm_num) (by norm_num)

/-- The key exists: `p = 11 = 2 * 5 + 1`, `q = 5 = 2 * 2 + 1`. -/
example : Primes 11 5 1 ∧ (∃ k, Private.new 1000 (11 : Nat) (5 : Nat) 1 = .ok k) :=
  ⟨⟨by norm_num, by norm_num, by norm_num, by norm_num, by norm_num, by norm_num, by norm_num, by norm_num⟩,
    Outcome.isOk_iff.1 (by decide +kernel)⟩

/-- A round trip with the reported randomness: message 42, coins 3 and 4. -/
example : ∃ pub priv c r, Public.new 2 77 1 = .ok pub ∧ Private.new 1000 (7 : Nat) (11 : Nat) 1 = .ok priv ∧
    priv.encryptAndGetRand (fun _ => none) 42 3 4 = .ok (c, r) ∧ pub.encryptAndGetRand 42 r = .ok (c, r) ∧ r < 77 := by
  have hpriv : ∃ k, Private.new 1000 (7 : Nat) (11 : Nat) 1 = .ok k := Outcome.isOk_iff.1 (by decide +kernel)
  obtain ⟨priv, hpriv⟩ := hpriv
  obtain ⟨pub, hpub, _⟩ := public_new safe_7_11.toPrimes 2 (by norm_num)
  obtain ⟨c, r, h1, h2, h3, h4, h5, h6, h7⟩ := C69_reported_rand (mont := fun _ => none) safe_7_11 (by intro m c h; simp at h)
    hpub (by norm_num) hpriv 42 (by norm_num) (rp := 3) (rq := 4) (by norm_num) (by norm_num)
  exact ⟨pub, priv, c, r, hpub, hpriv, h1, h6, h3⟩

/-- Message 5 has `6 * 10` ciphertexts under `n = 77`, one of them with the coins `(1, 1)`. -/
example : ∃ priv, Private.new 1000 (7 : Nat) (11 : Nat) 1 = .ok priv ∧ ∃ c, priv.encrypt (fun _ => none) 5 1 1 = .ok c ∧
    IsEnc (7 * 11) 1 c 5 := by
  have hpriv : ∃ k, Private.new 1000 (7 : Nat) (11 : Nat) 1 = .ok k := Outcome.isOk_iff.1 (by decide +kernel)
  obtain ⟨priv, hpriv⟩ := hpriv
  exact ⟨priv, hpriv, C22_private_encrypt safe_7_11.toPrimes (by intro m c h; simp at h) (private_new safe_7_11.toPrimes hpriv) 5
    (by norm_num) 1 1 (by norm_num) (by norm_num)⟩

end Upsi.Paillier
