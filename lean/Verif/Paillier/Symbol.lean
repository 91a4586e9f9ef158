import Verif.Paillier.Rand
import Mathlib.NumberTheory.LegendreSymbol.JacobiSymbol
/-
C71, the cryptosystem: the Jacobi symbol of a ciphertext modulo the public modulus.  The symbol is computed from the
ciphertext and `n` alone, without the factors.
-/
namespace Upsi.Paillier
open Upsi Upsi.Num

/-- What anybody can compute from a ciphertext: its Jacobi symbol modulo `n`. -/
abbrev symbol (n : Nat) (c : Int) : Int := jacobiSym c n

theorem symbol_congr {n : Nat} {a b : Int} (h : a ≡ b [ZMOD n]) : symbol n a = symbol n b := jacobiSym.mod_left' h

theorem symbol_emod {n k : Nat} (a : Int) : symbol n (a % (n : Int) ^ (k + 1)) = symbol n a :=
  symbol_congr ((Int.mod_modEq a _).of_dvd (dvd_pow_self _ (by omega)))

theorem symbol_one_add_pow (n m : Nat) : symbol n ((1 + (n : Int)) ^ m) = 1 := by
  have h : (1 + (n : Int)) ^ m ≡ 1 ^ m [ZMOD n] := Int.ModEq.pow m (by simp [Int.ModEq])
  rw [symbol_congr h, one_pow]
  exact jacobiSym.one_left n

/-- **C71** Adding ciphertexts multiplies the symbols. -/
theorem C71_add_symbol {n s : Nat} {k : Public} (hk : PublicOK n s k) {a b c : Int} (h : k.add a b = .ok c) :
    symbol n c = symbol n a * symbol n b := by
  rw [Public.add, modMul, hk.modulus] at h
  split at h
  · simp at h
  · rw [← Outcome.ok.inj h, symbol_emod]
    exact jacobiSym.mul_left a b n

/-- **C71** Multiplying by a plaintext number raises the symbol to that power. -/
theorem C71_multiply_symbol {n s : Nat} (hn : 0 < n) {k : Public} (hk : PublicOK n s k) {a c : Int} {t : Nat}
    (h : k.multiply a t = .ok c) : symbol n c = symbol n a ^ t := by
  have hpos : 0 < (n : Int) ^ (s + 1) := pow_pos (by exact_mod_cast hn) _
  rw [Public.multiply, hk.modulus, modExp_ok t hpos] at h
  rw [← Outcome.ok.inj h, symbol_emod]
  exact jacobiSym.pow_left a t n

/-- The fixed base of a public key: minus a square, hence of symbol one for moduli whose prime factors are three modulo four. -/
theorem public_gn_symbol {p q s : Nat} (h : Primes p q s) (hp : p % 4 = 3) (hq : q % 4 = 3) {x : Int} {pub : Public}
    (hpub : Public.new x ((p * q : Nat) : Int) s = .ok pub) (hx : Int.gcd x ((p * q : Nat) : Int) = 1) :
    PublicOK (p * q) s pub ∧ symbol (p * q) pub.gn = 1 := by
  obtain ⟨k, hk, hok⟩ := public_new h x hx
  obtain rfl : pub = k := Outcome.ok.inj (hpub.symm.trans hk)
  refine ⟨hok, ?_⟩
  have hpos : 0 < ((p * q : Nat) : Int) ^ (s + 1) := pow_pos (by exact_mod_cast Nat.mul_pos h.hp.pos h.hq.pos) _
  have hn0 : ((p * q : Nat) : Int) ≠ 0 := by
    have := Nat.mul_pos h.hp.pos h.hq.pos; omega
  have hmod4 : (p * q) % 4 = 1 := by rw [Nat.mul_mod, hp, hq]
  have hexp := modExp_ok (b := ((p * q : Nat) : Int) - x * x % ((p * q : Nat) : Int)) ((p * q) ^ s) hpos
  simp only [Public.new, getPowers_get _ _ _ (le_refl _), getPowers_get _ _ _ (Nat.le_succ s),
      Outcome.bind_ok, genSafeModulus, modSqr, modMul_ok hn0, Outcome.pure_eq] at hpub
  rw [show ((p * q : Nat) : Int) ^ s = (((p * q) ^ s : Nat) : Int) by push_cast; rfl, hexp, Outcome.bind_ok] at hpub
  simp only [Outcome.bind_eq_ok, Outcome.ok.injEq] at hpub
  obtain ⟨pre, _, rfl⟩ := hpub
  dsimp only
  rw [symbol_emod]
  have h1 : ((p * q : Nat) : Int) - x * x % ((p * q : Nat) : Int) ≡ -(x * x) [ZMOD (p * q : Nat)] := by
    have h2 : ((p * q : Nat) : Int) - x * x % ((p * q : Nat) : Int) ≡ 0 - x * x [ZMOD (p * q : Nat)] :=
      Int.ModEq.sub (by simp [Int.ModEq]) (Int.mod_modEq _ _)
    simpa using h2
  rw [symbol_congr (h1.pow _)]
  unfold symbol
  have hodd : Odd (p * q) := Nat.odd_iff.2 (by omega)
  rw [jacobiSym.pow_left, jacobiSym.neg _ hodd, ← pow_two, jacobiSym.pow_left, jacobiSym.sq_one hx,
    ZMod.χ₄_nat_one_mod_four hmod4, one_mul, one_pow]

/-- **C71** Every encryption with the public key has symbol one. -/
theorem C71_public_symbol {p q s : Nat} (h : Primes p q s) (hp : p % 4 = 3) (hq : q % 4 = 3) {x : Int} {pub : Public}
    (hpub : Public.new x ((p * q : Nat) : Int) s = .ok pub) (hx : Int.gcd x ((p * q : Nat) : Int) = 1)
    {mont : Int → Option Mont} (hm : MontOK mont) {m r c : Int} (hc : pub.encrypt mont m r = .ok c) :
    symbol (p * q) c = 1 := by
  obtain ⟨hok, hg⟩ := public_gn_symbol h hp hq hpub hx
  have hn0 : 0 < p * q := Nat.mul_pos h.hp.pos h.hq.pos
  have hpos : 0 < ((p * q : Nat) : Int) ^ (s + 1) := pow_pos (by exact_mod_cast hn0) _
  rw [Public.encrypt] at hc
  split at hc
  · simp at hc
  · rename_i hm0
    rw [hok.powers, hok.hs, getPowers_get _ _ _ (Nat.le_succ s), Outcome.bind_ok] at hc
    split at hc
    · simp at hc
    · rw [Public.encryptWithGen] at hc
      split at hc
      · simp at hc
      · obtain ⟨c0, h1, h2⟩ := binomialExpansion_spec (M := p * q) (by omega) (dvd_refl _) h.small_mul hok.pre m.toNat
        rw [Int.toNat_of_nonneg (by omega)] at h1
        rw [hok.powers, h1, Outcome.bind_ok, hok.modulus] at hc
        have hr : 0 ≤ r := by
          by_contra hneg
          obtain ⟨msg, hmsg⟩ := C25_negative (mont (((p * q : Nat) : Int) ^ (s + 1))) pub.gn (((p * q : Nat) : Int) ^ (s + 1)) r (by omega)
          rw [hmsg] at hc; simp at hc
        rw [fbe_ok hm hpos hok.gn1 hr, Outcome.bind_ok, modMul_ok hpos.ne', Outcome.ok.injEq] at hc
        rw [← hc, symbol_emod]
        unfold symbol at *
        have e1 : jacobiSym c0 (p * q) = 1 := by
          have := symbol_congr (n := p * q) (h2.of_dvd (dvd_pow_self _ (by omega)))
          rw [symbol_one_add_pow] at this
          exact this
        have e2 := symbol_emod (n := p * q) (k := s) (pub.gn ^ r.toNat)
        unfold symbol at e2
        rw [jacobiSym.mul_left, e1, e2, jacobiSym.pow_left, hg, one_pow, one_mul]

/-- **C71** Re-randomising keeps the symbol. -/
theorem C71_rerand_symbol {p q s : Nat} (h : Primes p q s) (hp : p % 4 = 3) (hq : q % 4 = 3) {x : Int} {pub : Public}
    (hpub : Public.new x ((p * q : Nat) : Int) s = .ok pub) (hx : Int.gcd x ((p * q : Nat) : Int) = 1)
    {mont : Int → Option Mont} (hm : MontOK mont) {a r c : Int} (hr : 0 ≤ r) (hc : pub.reRand mont a r = .ok c) :
    symbol (p * q) c = symbol (p * q) a := by
  obtain ⟨hok, hg⟩ := public_gn_symbol h hp hq hpub hx
  have hn0 : 0 < p * q := Nat.mul_pos h.hp.pos h.hq.pos
  have hpos : 0 < ((p * q : Nat) : Int) ^ (s + 1) := pow_pos (by exact_mod_cast hn0) _
  rw [Public.reRand, hok.modulus, fbe_ok hm hpos hok.gn1 hr, Outcome.bind_ok, modMul_ok hpos.ne', Outcome.ok.injEq] at hc
  rw [← hc, symbol_emod]
  unfold symbol at *
  have e2 := symbol_emod (n := p * q) (k := s) (pub.gn ^ r.toNat)
  unfold symbol at e2
  rw [jacobiSym.mul_left, e2, jacobiSym.pow_left, hg, one_pow, mul_one]

/-- The generator modulo a safe prime is not a square. -/
theorem gen_nonsquare {p q s : Nat} (h : SafePrimes p q s) {k : Prime} (hk : GenOK p q s k) : jacobiSym k.g p = -1 := by
  have hf : Fact p.Prime := ⟨h.hp⟩
  have hp5 := h.p5
  rcases jacobiSym.eq_one_or_neg_one hk.gcd with h1 | h1
  · exfalso
    obtain ⟨y, hy⟩ := ZMod.isSquare_of_jacobiSym_eq_one h1
    -- `g ≡ y²` modulo `p`
    have hy' : k.g ≡ (y.val : Int) ^ 2 [ZMOD p] := by
      rw [← ZMod.intCast_eq_intCast_iff]
      push_cast
      rw [ZMod.natCast_zmod_val, hy, pow_two]
    have hgy : Int.gcd (y.val : Int) p = 1 := by
      have h2 := gcd_eq_one_of_modEq hy'
      rw [hk.gcd] at h2
      rw [← Int.isCoprime_iff_gcd_eq_one]
      exact IsCoprime.of_mul_left_left (y := (y.val : Int)) (by
        rw [← pow_two, Int.isCoprime_iff_gcd_eq_one]; exact h2.symm)
    obtain ⟨t, ht⟩ : ∃ t, p - 1 = 2 * t := by
      rcases h.hp.eq_two_or_odd with h2 | h2
      · omega
      · exact ⟨(p - 1) / 2, by omega⟩
    have h3 := pow_lift (q := 1) (s := s) hy'
    rw [mul_one] at h3
    have h4 := h3.pow t
    rw [← pow_mul, ← pow_mul, ← pow_mul, show 2 * (p ^ s * t) = p ^ s * (p - 1) by rw [ht]; ring] at h4
    have h5 : k.g ^ (p ^ s * t) ≡ 1 [ZMOD (p : Int) ^ (s + 1)] := h4.trans (unit_pow h.hp hgy s)
    have h6 : ((k.g : Int) : ZMod (p ^ (s + 1))) ^ (p ^ s * t) = 1 := by
      have := (ZMod.intCast_eq_intCast_iff (k.g ^ (p ^ s * t)) 1 (p ^ (s + 1))).2 (by push_cast; exact h5)
      push_cast at this
      exact this
    have h7 := Nat.le_of_dvd (Nat.mul_pos (Nat.pos_of_ne_zero (pow_ne_zero _ (by omega))) (by omega)) (orderOf_dvd_of_pow_eq_one h6)
    rw [hk.ord, ht] at h7
    have h8 : 0 < p ^ s := Nat.pos_of_ne_zero (pow_ne_zero _ (by omega))
    have h9 := Nat.le_of_mul_le_mul_left h7 h8
    omega
  · exact h1

theorem prime_symbol {p q s : Nat} (h : SafePrimes p q s) (hodd : (p * q) % 2 = 1) {k : Prime} (hk : GenOK p q s k) {c : Int} (m : Nat) (r : Nat)
    (hc : c ≡ (1 + ((p * q : Nat) : Int)) ^ m * k.gpn ^ r [ZMOD (p : Int) ^ (s + 1)]) : jacobiSym c p = (-1) ^ r := by
  have hd : (p : Int) ∣ (p : Int) ^ (s + 1) := dvd_pow_self _ (by omega)
  have h1 : c ≡ k.g ^ ((p * q) ^ s * r) [ZMOD p] := by
    refine (hc.of_dvd hd).trans ?_
    have e1 : (1 + ((p * q : Nat) : Int)) ^ m ≡ 1 ^ m [ZMOD p] :=
      Int.ModEq.pow m (Int.modEq_iff_dvd.2 ⟨-q, by push_cast; ring⟩)
    have e2 := (hk.pow.of_dvd hd).pow r
    rw [← pow_mul] at e2
    simpa using e1.mul e2
  rw [jacobiSym.mod_left' h1, jacobiSym.pow_left, gen_nonsquare h hk, pow_mul]
  have h2 : Odd ((p * q) ^ s) := (Nat.odd_iff.2 hodd).pow
  rw [h2.neg_one_pow]

/-- **C71** An encryption with the private key has the symbol given by the parity of its two coins: one for half of all coins, minus
one for the other half. -/
theorem C71_private_symbol {p q s tries : Nat} (h : SafePrimes p q s) {mont : Int → Option Mont} (hm : MontOK mont)
    {priv : Private} (hpriv : Private.new tries p q s = .ok priv) {m rp rq : Int} (hrp : 0 ≤ rp) (hrq : 0 ≤ rq) {c : Int}
    (hc : priv.encrypt mont m rp rq = .ok c) : symbol (p * q) c = (-1) ^ (rp.toNat + rq.toNat) := by
  obtain ⟨gp, gq⟩ := private_gen h hpriv
  have hk := private_new h.toPrimes hpriv
  rw [Private.encrypt] at hc
  split at hc
  · simp at hc
  · rename_i hm0
    split at hc
    · simp at hc
    · have em : ((m.toNat : Nat) : Int) = m := Int.toNat_of_nonneg (by omega)
      have e1 := prime_encrypt_eq h.toPrimes hm hk.pc m.toNat rp hrp
      have e2 := prime_encrypt_eq h.toPrimes.swap hm hk.qc m.toNat rq hrq
      rw [em] at e1 e2
      rw [e1, e2] at hc
      simp only [Outcome.bind_ok] at hc
      have hpp : 0 < (p : Int) ^ (s + 1) := pow_pos (by have := h.p5; omega) _
      have hqp : 0 < (q : Int) ^ (s + 1) := pow_pos (by have := h.q5; omega) _
      obtain ⟨t, ht, htc⟩ := C24_crt _ _ hpp hqp (h.toPrimes.crt (s + 1))
      obtain rfl : t = priv.crtEnc := by rw [hk.crtEnc] at ht; simpa using ht.symm
      obtain ⟨x, hx, ⟨x0, x1, xp, xq⟩, _⟩ := htc ((1 + ((p * q : Nat) : Int)) ^ m.toNat * priv.pc.gpn ^ rp.toNat % (p : Int) ^ (s + 1))
        ((1 + ((q * p : Nat) : Int)) ^ m.toNat * priv.qc.gpn ^ rq.toNat % (q : Int) ^ (s + 1))
      obtain rfl : x = c := Outcome.ok.inj (hx.symm.trans hc)
      have hodd : ∀ {a : Nat}, a.Prime → 5 ≤ a → a % 2 = 1 := fun {a} ha h5 => by
        rcases ha.eq_two_or_odd with rfl | h2
        · omega
        · exact h2
      have o1 := hodd h.hp h.p5
      have o2 := hodd h.hq h.q5
      have s1 := prime_symbol h (by rw [Nat.mul_mod, o1, o2]) gp m.toNat rp.toNat (xp.trans (Int.mod_modEq _ _))
      have s2 := prime_symbol h.swap (by rw [Nat.mul_mod, o1, o2]) gq m.toNat rq.toNat (xq.trans (Int.mod_modEq _ _))
      unfold symbol
      rw [jacobiSym.mul_right' _ h.hp.ne_zero h.hq.ne_zero, s1, s2, pow_add]

/-- Safe primes from seven on are three modulo four. -/
theorem safe_mod_four {p t : Nat} (ht : t.Prime) (hp : p = 2 * t + 1) (h7 : 7 ≤ p) : p % 4 = 3 := by
  rcases ht.eq_two_or_odd with rfl | h2
  · omega
  · omega

/-- `n = 77`: public encryptions of 42 have symbol one; private ones have symbol minus one for the coins `(3, 4)`. -/
example : ∃ pub priv c c', Public.new 2 77 1 = .ok pub ∧ Private.new 1000 (7 : Nat) (11 : Nat) 1 = .ok priv ∧
    pub.encrypt (fun _ => none) 42 5 = .ok c ∧ priv.encrypt (fun _ => none) 42 3 4 = .ok c' ∧
    symbol 77 c = 1 ∧ symbol 77 c' = -1 := by
  obtain ⟨pub, hpub, hok⟩ := public_new safe_7_11.toPrimes 2 (by norm_num)
  have hpriv : ∃ k, Private.new 1000 (7 : Nat) (11 : Nat) 1 = .ok k := Outcome.isOk_iff.1 (by decide +kernel)
  obtain ⟨priv, hpriv⟩ := hpriv
  have hm : MontOK (fun _ => none) := by intro m c h; simp at h
  obtain ⟨c, hc, _⟩ := C21_encrypt (n := 7 * 11) (by norm_num) safe_7_11.toPrimes.small_mul hm hok 42 (by norm_num) 5 (by norm_num) (by norm_num)
  obtain ⟨c', hc', _⟩ := C22_private_encrypt safe_7_11.toPrimes hm (private_new safe_7_11.toPrimes hpriv) 42 (by norm_num) 3 4 (by norm_num) (by norm_num)
  refine ⟨pub, priv, c, c', hpub, hpriv, hc, hc', ?_, ?_⟩
  · exact C71_public_symbol safe_7_11.toPrimes (by norm_num) (by norm_num) hpub (by norm_num) hm hc
  · exact C71_private_symbol safe_7_11 hm hpriv (by norm_num) (by norm_num) hc'

end Upsi.Paillier
