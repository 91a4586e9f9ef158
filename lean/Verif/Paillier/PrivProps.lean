import Verif.Paillier.Props
import Mathlib.Tactic.NormNum.Prime
import Mathlib.Tactic.NormNum.GCD
/- Property theorems C21 (decryption) and C22 (private-key operations). -/
namespace Upsi.Paillier
open Upsi Upsi.Num Finset

/-! ### generators -/

/-- Some number below `p` passes the generator test. -/
theorem exists_good {p : Nat} (hp : p.Prime) (h5 : 5 ≤ p) {q : Nat} (hq : 2 * q = p - 1) :
    ∃ g : Nat, 2 ≤ g ∧ g < p ∧ ¬ ((g : Int) * g % p = 1 ∨ (g : Int) ^ q % p = 1) := by
  haveI := Fact.mk hp
  obtain ⟨g, hg⟩ := IsCyclic.exists_generator (α := (ZMod p)ˣ)
  have hord : orderOf g = p - 1 := by
    rw [orderOf_eq_card_of_forall_mem_zpowers hg, Nat.card_eq_fintype_card, ZMod.card_units]
  have hpow : ∀ k : Nat, ((((g : ZMod p).val : Nat) : Int) ^ k % p = 1) → p - 1 ∣ k := by
    intro k hk
    have h1 : ((((g : ZMod p).val : Nat) : Int) ^ k : Int) ≡ 1 [ZMOD p] := by
      unfold Int.ModEq; rw [hk]
      rw [Int.emod_eq_of_lt (by omega) (by omega)]
    have h2 := (ZMod.intCast_eq_intCast_iff _ _ p).2 h1
    push_cast at h2
    rw [ZMod.natCast_zmod_val] at h2
    rw [← hord]
    exact orderOf_dvd_of_pow_eq_one (Units.ext (by push_cast; exact h2))
  refine ⟨(g : ZMod p).val, ?_, ZMod.val_lt _, ?_⟩
  · by_contra hlt
    have h01 : (g : ZMod p).val = 0 ∨ (g : ZMod p).val = 1 := by omega
    rcases h01 with h0 | h1
    · have : (g : ZMod p) = 0 := (ZMod.val_eq_zero _).1 h0
      exact g.ne_zero this
    · have := hpow 1 (by rw [h1]; simp; exact Int.emod_eq_of_lt (by omega) (by omega))
      have := Nat.le_of_dvd (by omega) this
      omega
  · rintro (h | h)
    · have := hpow 2 (by rw [pow_two]; exact h)
      have := Nat.le_of_dvd (by omega) this
      omega
    · have := hpow q h
      have := Nat.le_of_dvd (by omega) this
      omega

theorem genSafeGo_bound {p : Nat} (hp0 : 0 < p) {q : Nat} {g0 : Nat}
    (hg0 : ¬ ((g0 : Int) * g0 % p = 1 ∨ (g0 : Int) ^ q % p = 1)) :
    ∀ (k : Nat) (g : Nat) (r : Int), g ≤ g0 → genSafeGo p q k g = .ok r →
    ∃ r' : Nat, r = r' ∧ g ≤ r' ∧ r' ≤ g0 := by
  intro k
  have hp : (p : Int) ≠ 0 := by omega
  induction k with
  | zero => intro g r _ h; simp [genSafeGo] at h
  | succ k ih =>
    intro g r hle h
    rw [genSafeGo, modSqr, modMul_ok hp, modExp_ok _ (by omega)] at h
    simp only [Outcome.bind_ok] at h
    split at h
    · rename_i hbad
      have : g ≠ g0 := by rintro rfl; exact hg0 hbad
      obtain ⟨r', h1, h2, h3⟩ := ih (g + 1) r (by omega) (by push_cast; exact h)
      exact ⟨r', h1, by omega, h3⟩
    · simp only [Outcome.pure_eq, Outcome.ok.injEq] at h
      exact ⟨g, h.symm, le_rfl, hle⟩

/-- The generator found for a prime is not divisible by it. -/
theorem genPrimePowers_coprime {p : Nat} (hp : p.Prime) (h5 : 5 ≤ p) {tries : Nat} {g : Int}
    (h : genPrimePowers tries p = .ok g) : Int.gcd g p = 1 := by
  simp only [genPrimePowers, genSafePrime, Outcome.bind_eq_ok, Outcome.pure_eq, Outcome.ok.injEq] at h
  obtain ⟨g1, ⟨q, hq, hg1⟩, y, _, hg⟩ := h
  have hq' : ∃ q' : Nat, q = q' ∧ 2 * q' = p - 1 := by
    simp only [div] at hq
    split at hq
    · simp at hq
    · split at hq
      · rename_i h2
        simp only [Outcome.ok.injEq] at hq
        refine ⟨(p - 1) / 2, ?_, ?_⟩
        · rw [← hq, Int.tdiv_eq_ediv_of_nonneg (by omega)]; omega
        · have : ((p : Int) - 1) % 2 = 0 := by
            rw [Int.tmod_eq_emod_of_nonneg (by omega)] at h2; exact h2
          omega
      · simp at hq
  obtain ⟨q', rfl, hq'⟩ := hq'
  obtain ⟨g0, h2, h3, h4⟩ := exists_good hp h5 hq'
  obtain ⟨r, hr, h6, h7⟩ := genSafeGo_bound hp.pos h4 tries 2 g1 h2 hg1
  have hc : Int.gcd (r : Int) p = 1 := by
    simp only [Int.gcd_natCast_natCast]
    exact ((Nat.Prime.coprime_iff_not_dvd hp).2 (Nat.not_dvd_of_pos_of_lt (by omega) (by omega))).symm
  rw [← hg, hr]
  split
  · rw [← hc]; exact gcd_eq_one_of_modEq (by simp [Int.ModEq])
  · exact hc

/-! ### PrimeCrypto -/

/-- A `PrimeCrypto` object for the prime `p` of `n = p * other`. -/
structure PrimeOK (p other s : Nat) (k : Prime) : Prop where
  hp : k.p = p
  hs : k.s = s
  powers : k.powers = getPowers p s
  pre : PreOK ((p * other : Nat) : Int) ((p : Int) ^ (s + 1)) s k.precomp
  lambdaInv : k.lambdaInv * ((p : Int) - 1) ≡ 1 [ZMOD (p : Int) ^ s]
  otherInv : k.otherInv * (other : Int) ≡ 1 [ZMOD (p : Int) ^ s]
  table : TableOK p ((p * other : Nat) : Int) s 2 (s + 1) k.table
  gpn0 : 0 ≤ k.gpn
  gpn1 : k.gpn < (p : Int) ^ (s + 1)
  gpn : ∃ g : Int, Int.gcd g p = 1 ∧ k.gpn ≡ g ^ ((p * other) ^ s) [ZMOD (p : Int) ^ (s + 1)]

theorem prime_new {p q s tries : Nat} (h : Primes p q s) {k : Prime}
    (hk : Prime.new tries p q s = .ok k) : PrimeOK p q s k := by
  have hp0 : (p : Int) ≠ 0 := by have := h.p5; omega
  have hps1 : (p : Int) ^ (s + 1) ≠ 0 := pow_ne_zero _ hp0
  have hpos : 0 < (p : Int) ^ (s + 1) := pow_pos (by have := h.p5; omega) _
  have hsm := small_prime h.hp h.sp
  obtain ⟨pre, hpre, hpre'⟩ := getPrecomp_spec (num := ((p * q : Nat) : Int)) hps1 s
    (fun j h0 hj => hsm.gcd (s + 1) j h0 hj)
  obtain ⟨t, ht, ht'⟩ := getDecryptPrecomp_spec hp0 h.s1 hsm hpre'
  obtain ⟨li, hli, hli'⟩ := modInverse_ok (a := (p : Int) - 1) (m := (p : Int) ^ s) (by
    rw [← Int.isCoprime_iff_gcd_eq_one]
    exact IsCoprime.pow_right ⟨-1, 1, by ring⟩)
  obtain ⟨oi, hoi, hoi'⟩ := modInverse_ok (a := (q : Int)) (m := (p : Int) ^ s) (by
    rw [← Int.isCoprime_iff_gcd_eq_one]
    exact IsCoprime.pow_right (Nat.isCoprime_iff_coprime.2 h.coprime.symm))
  push_cast at hpre
  simp only [Prime.new, getPowers_get _ _ _ (le_refl _), getPowers_get _ _ _ (Nat.le_succ s),
    Outcome.bind_ok, hpre, hli, hoi, value_ok, ht, Outcome.bind_eq_ok, Outcome.pure_eq,
    Outcome.ok.injEq] at hk
  obtain ⟨g, hg, x, hx, rfl⟩ := hk
  have hx' : x = g ^ ((p * q) ^ s) % (p : Int) ^ (s + 1) := by
    have := modExp_ok (b := g) ((p * q) ^ s) (lt_of_le_of_ne (by positivity) hps1.symm)
    push_cast at this
    rw [this] at hx
    simpa using hx.symm
  refine ⟨rfl, rfl, rfl, hpre', hli', hoi', ht', ?_, ?_, g, genPrimePowers_coprime h.hp h.p5 hg, ?_⟩
  · rw [hx']; exact Int.emod_nonneg _ hps1
  · rw [hx']; exact Int.emod_lt_of_pos _ hpos
  · rw [hx']; exact Int.mod_modEq _ _

/-- Units raised to `p^s (p-1)` are one modulo `p^(s+1)`. -/
theorem unit_pow {p : Nat} (hp : p.Prime) {u : Int} (hu : Int.gcd u p = 1) (s : Nat) :
    u ^ (p ^ s * (p - 1)) ≡ 1 [ZMOD (p : Int) ^ (s + 1)] := by
  have h1 : u ^ (p - 1) ≡ 1 [ZMOD p] :=
    Int.ModEq.pow_card_sub_one_eq_one hp (Int.isCoprime_iff_gcd_eq_one.2 hu)
  have h2 := dvd_sub_pow_of_dvd_sub (R := Int) (p := p) (Int.modEq_iff_dvd.1 h1.symm) s
  rw [one_pow, ← pow_mul, mul_comm] at h2
  exact (Int.modEq_iff_dvd.2 h2).symm

/-- The prime component of a decryption. -/
theorem prime_decrypt {p q s : Nat} (h : Primes p q s) {k : Prime} (hk : PrimeOK p q s k) {c u : Int}
    {m : Nat} (hu : Int.gcd u p = 1)
    (hc : c ≡ (1 + ((p * q : Nat) : Int)) ^ m * u ^ ((p * q) ^ s) [ZMOD (p : Int) ^ (s + 1)]) :
    ∃ r, k.decrypt c = .ok r ∧ r ≡ m [ZMOD (p : Int) ^ s] := by
  set n : Int := ((p * q : Nat) : Int) with hn
  have hd : (p : Int) ∣ n := ⟨q, by rw [hn]; push_cast; ring⟩
  have hp0 : (p : Int) ≠ 0 := by have := h.p5; omega
  have hps1 : (p : Int) ^ (s + 1) ≠ 0 := pow_ne_zero _ hp0
  have hps : (p : Int) ^ s ≠ 0 := pow_ne_zero _ hp0
  set M := m * (p - 1) with hM
  set x := c ^ (p - 1) % (p : Int) ^ (s + 1) with hx
  have hx1 : x ≡ (1 + n) ^ M [ZMOD (p : Int) ^ (s + 1)] := by
    refine (Int.mod_modEq _ _).trans ((hc.pow (p - 1)).trans ?_)
    rw [mul_pow, ← pow_mul, ← pow_mul, ← hM]
    have h1 : u ^ ((p * q) ^ s * (p - 1)) ≡ 1 [ZMOD (p : Int) ^ (s + 1)] := by
      rw [mul_pow, show p ^ s * q ^ s * (p - 1) = p ^ s * (p - 1) * q ^ s by ring, pow_mul]
      simpa using (unit_pow h.hp hu s).pow (q ^ s)
    simpa using h1.mul_left ((1 + n) ^ M)
  have hx2 : x ≡ n * lsum M n s + 1 [ZMOD (p : Int) ^ (s + 1)] := by
    rw [lsum_mul]; exact hx1.trans (one_add_pow_trunc M hd (s + 1))
  -- the exact division
  obtain ⟨z, hz⟩ := Int.modEq_iff_dvd.1 hx2.symm
  have hxz : x - 1 = p * (q * lsum M n s + (p : Int) ^ s * z) := by
    have : n = p * q := by rw [hn]; push_cast; rfl
    rw [this] at hz ⊢
    rw [pow_succ] at hz
    linear_combination hz
  set w := (q : Int) * lsum M n s + (p : Int) ^ s * z with hw
  have hdiv : div (x - 1) p = .ok w := by
    simp only [div, hp0, if_false]
    rw [hxz, Int.mul_tmod_right, if_pos rfl, Int.mul_tdiv_cancel_left _ hp0]
  have hlu : w * k.otherInv % (p : Int) ^ s ≡ lsum M n s [ZMOD (p : Int) ^ s] := by
    refine (Int.mod_modEq _ _).trans ?_
    have h1 : w ≡ q * lsum M n s [ZMOD (p : Int) ^ s] := by
      rw [hw]; exact Int.modEq_iff_dvd.2 ⟨-z, by ring⟩
    refine (h1.mul_right _).trans ?_
    rw [show (q : Int) * lsum M n s * k.otherInv = lsum M n s * (k.otherInv * q) by ring]
    simpa using hk.otherInv.mul_left (lsum M n s)
  obtain ⟨ml, hml, hml'⟩ := decOuter_spec hp0 hd (small_prime h.hp h.sp) hk.table M _ hlu s 1 0 le_rfl
    (by omega) (by simp [Int.modEq_one])
  refine ⟨ml * k.lambdaInv % (p : Int) ^ s, ?_, ?_⟩
  · have he : modExp c ((p : Int) - 1) ((p : Int) ^ (s + 1)) = .ok x := by
      have := modExp_ok (b := c) (p - 1) (lt_of_le_of_ne (by positivity) hps1.symm)
      rw [show (((p - 1 : Nat)) : Int) = (p : Int) - 1 by have := h.p5; omega] at this
      exact this
    rw [Prime.decrypt, hk.powers, hk.hs, hk.hp, getPowers_get _ _ _ (le_refl _)]
    simp only [Outcome.bind_ok, he, Prime.lFunc, hk.hp, hk.hs, hk.powers, hdiv,
      getPowers_get _ _ _ (Nat.le_succ s), modMul_ok hps, hml]
  · refine (Int.mod_modEq _ _).trans ((hml'.mul_right _).trans ?_)
    rw [hM]
    push_cast [Nat.cast_sub (show 1 ≤ p by have := h.p5; omega)]
    rw [show (m : Int) * ((p : Int) - 1) * k.lambdaInv = m * (k.lambdaInv * ((p : Int) - 1)) by ring]
    simpa using hk.lambdaInv.mul_left (m : Int)

/-- The prime component of an encryption. -/
theorem prime_encrypt {p q s : Nat} (h : Primes p q s) {mont : Int → Option Mont} (hm : MontOK mont)
    {k : Prime} (hk : PrimeOK p q s k) (m : Nat) (r : Int) (hr : 0 ≤ r) :
    ∃ c u, k.encrypt mont m r = .ok c ∧ Int.gcd u p = 1 ∧
      c ≡ (1 + ((p * q : Nat) : Int)) ^ m * u ^ ((p * q) ^ s) [ZMOD (p : Int) ^ (s + 1)] := by
  have hd : (p : Int) ∣ ((p * q : Nat) : Int) := ⟨q, by push_cast; ring⟩
  have hp0 : (p : Int) ≠ 0 := by have := h.p5; omega
  have hpos : 0 < (p : Int) ^ (s + 1) := pow_pos (by have := h.p5; omega) _
  obtain ⟨c0, h1, h2⟩ := binomialExpansion_spec hp0 hd (small_prime h.hp h.sp) hk.pre m
  obtain ⟨g, hg, hgn⟩ := hk.gpn
  have hf := fbe_ok hm (b := k.gpn) (e := r) hpos hk.gpn1 hr
  refine ⟨c0 * (k.gpn ^ r.toNat % (p : Int) ^ (s + 1)) % (p : Int) ^ (s + 1), g ^ r.toNat, ?_, ?_, ?_⟩
  · rw [Prime.encrypt, hk.powers, h1, hk.hs, getPowers_get _ _ _ (le_refl _)]
    simp only [Outcome.bind_ok, hf, modMul_ok hpos.ne']
  · simpa using gcd_pow_mul r.toNat 0 hg hg
  · refine (Int.mod_modEq _ _).trans (h2.mul ((Int.mod_modEq _ _).trans ((hgn.pow r.toNat).trans ?_)))
    rw [← pow_mul, ← pow_mul, mul_comm]

/-! ### PrivatePaillier -/

/-- A `PrivatePaillier` object for the primes `p`, `q`. -/
structure PrivateOK (p q s : Nat) (k : Private) : Prop where
  ns : k.ns = ((p * q : Nat) : Int) ^ s
  ns1 : k.ns1 = ((p * q : Nat) : Int) ^ (s + 1)
  pc : PrimeOK p q s k.pc
  qc : PrimeOK q p s k.qc
  crtEnc : Crt.new ((p : Int) ^ (s + 1)) ((q : Int) ^ (s + 1)) = .ok k.crtEnc
  crtDec : Crt.new ((p : Int) ^ s) ((q : Int) ^ s) = .ok k.crtDec

theorem private_new {p q s tries : Nat} (h : Primes p q s) {k : Private}
    (hk : Private.new tries p q s = .ok k) : PrivateOK p q s k := by
  simp only [Private.new, Outcome.bind_eq_ok, Outcome.pure_eq, Outcome.ok.injEq] at hk
  obtain ⟨pc, hpc, qc, hqc, p1, hp1, q1, hq1, e, he, p0, hp0, q0, hq0, d, hd, rfl⟩ := hk
  have hpo := prime_new h hpc
  have hqo := prime_new h.swap hqc
  rw [hpo.powers, getPowers_get _ _ _ (le_refl _)] at hp1
  rw [hpo.powers, getPowers_get _ _ _ (Nat.le_succ s)] at hp0
  rw [hqo.powers, getPowers_get _ _ _ (le_refl _)] at hq1
  rw [hqo.powers, getPowers_get _ _ _ (Nat.le_succ s)] at hq0
  simp only [Outcome.ok.injEq] at hp1 hp0 hq1 hq0
  subst hp1 hp0 hq1 hq0
  refine ⟨by push_cast; rfl, by push_cast; ring, hpo, hqo, he, hd⟩

theorem Primes.crt {p q s : Nat} (h : Primes p q s) (e : Nat) :
    Int.gcd ((p : Int) ^ e) ((q : Int) ^ e) = 1 := by
  rw [← Int.isCoprime_iff_gcd_eq_one]
  exact IsCoprime.pow (Nat.isCoprime_iff_coprime.2 h.coprime)

theorem Primes.modEq_iff {p q s : Nat} (h : Primes p q s) (e : Nat) (a b : Int) :
    a ≡ b [ZMOD ((p * q : Nat) : Int) ^ e] ↔
      a ≡ b [ZMOD (p : Int) ^ e] ∧ a ≡ b [ZMOD (q : Int) ^ e] := by
  push_cast
  rw [mul_pow]
  refine (Int.modEq_and_modEq_iff_modEq_mul ?_).symm
  have := h.crt e
  simpa [Int.gcd] using this

/-- **C21** Decryption: every Paillier ciphertext of `m` decrypts to `m mod n^s`; in particular to `m`
when `m < n^s`. -/
theorem C21_decrypt {p q s : Nat} (h : Primes p q s) {k : Private} (hk : PrivateOK p q s k) {c : Int}
    {m : Nat} (hc : IsEnc (p * q) s c m) : k.decrypt c = .ok ((m % (p * q) ^ s : Nat) : Int) := by
  obtain ⟨h0, h1, u, hu, e⟩ := hc
  have hup : Int.gcd u p = 1 := by
    rw [← Int.isCoprime_iff_gcd_eq_one] at *
    push_cast at hu
    exact hu.of_mul_right_left
  have huq : Int.gcd u q = 1 := by
    rw [← Int.isCoprime_iff_gcd_eq_one] at *
    push_cast at hu
    exact hu.of_mul_right_right
  obtain ⟨ep, eq⟩ := (h.modEq_iff (s + 1) _ _).1 e
  obtain ⟨a, ha, ha'⟩ := prime_decrypt h hk.pc hup ep
  obtain ⟨b, hb, hb'⟩ := prime_decrypt (c := c) (u := u) (m := m) h.swap hk.qc huq (by rw [mul_comm q p]; exact eq)
  have hpp : 0 < (p : Int) ^ s := pow_pos (by have := h.p5; omega) _
  have hqp : 0 < (q : Int) ^ s := pow_pos (by have := h.q5; omega) _
  obtain ⟨t, ht, htc⟩ := C24_crt _ _ hpp hqp (h.crt s)
  obtain rfl : t = k.crtDec := by rw [hk.crtDec] at ht; simpa using ht.symm
  obtain ⟨x, hx, _, huniq⟩ := htc a b
  have hnpos : 0 < (p * q) ^ s := pow_pos (Nat.mul_pos h.hp.pos h.hq.pos) _
  have hmm : ((m % (p * q) ^ s : Nat) : Int) ≡ m [ZMOD ((p * q : Nat) : Int) ^ s] := by
    push_cast; exact Int.mod_modEq _ _
  obtain ⟨mp, mq⟩ := (h.modEq_iff s _ _).1 hmm
  have hval : ((m % (p * q) ^ s : Nat) : Int) = x := by
    refine huniq _ (by positivity) ?_ (mp.trans ha'.symm) (mq.trans hb'.symm)
    have := Nat.mod_lt m hnpos
    rw [← mul_pow]
    exact_mod_cast this
  rw [Private.decrypt, if_neg (by omega), hk.ns1, if_neg (by omega), ha, hb]
  simp only [Outcome.bind_ok, hx, hval]

/-- **C22** Encryption with the private key (CRT of the two prime parts) yields a ciphertext of exactly
the same form as encryption with the public key. -/
theorem C22_private_encrypt {p q s : Nat} (h : Primes p q s) {mont : Int → Option Mont} (hm : MontOK mont)
    {k : Private} (hk : PrivateOK p q s k) (m : Nat) (hlt : m < (p * q) ^ s) (rp rq : Int)
    (hrp : 0 ≤ rp) (hrq : 0 ≤ rq) :
    ∃ c, k.encrypt mont m rp rq = .ok c ∧ IsEnc (p * q) s c m := by
  obtain ⟨a, u, ha, hu, ha'⟩ := prime_encrypt h hm hk.pc m rp hrp
  obtain ⟨b, v, hb, hv, hb'⟩ := prime_encrypt h.swap hm hk.qc m rq hrq
  have hpp : 0 < (p : Int) ^ (s + 1) := pow_pos (by have := h.p5; omega) _
  have hqp : 0 < (q : Int) ^ (s + 1) := pow_pos (by have := h.q5; omega) _
  obtain ⟨t, ht, htc⟩ := C24_crt _ _ hpp hqp (h.crt (s + 1))
  obtain rfl : t = k.crtEnc := by rw [hk.crtEnc] at ht; simpa using ht.symm
  obtain ⟨x, hx, ⟨x0, x1, xp, xq⟩, _⟩ := htc a b
  obtain ⟨w, _, ⟨_, _, wp, wq⟩, _⟩ := htc u v
  refine ⟨x, ?_, x0, ?_, w, ?_, ?_⟩
  · have hlt' : ¬ ((m : Int) ≥ ((p * q : Nat) : Int) ^ s) := by
      have : (m : Int) < (((p * q) ^ s : Nat) : Int) := by exact_mod_cast hlt
      push_cast at this ⊢; omega
    rw [Private.encrypt, if_neg (by omega), hk.ns, if_neg hlt', ha, hb]
    simp only [Outcome.bind_ok, hx]
  · push_cast; rw [mul_pow]; exact x1
  · rw [← Int.isCoprime_iff_gcd_eq_one]
    push_cast
    refine IsCoprime.mul_right ?_ ?_
    · rw [Int.isCoprime_iff_gcd_eq_one, ← hu]
      exact gcd_eq_one_of_modEq (wp.of_dvd (dvd_pow_self _ (by omega)))
    · rw [Int.isCoprime_iff_gcd_eq_one, ← hv]
      exact gcd_eq_one_of_modEq (wq.of_dvd (dvd_pow_self _ (by omega)))
  · rw [h.modEq_iff]
    refine ⟨xp.trans (ha'.trans ((wp.pow _).symm.mul_left _)), xq.trans ?_⟩
    rw [mul_comm q p] at hb'
    exact hb'.trans ((wq.pow _).symm.mul_left _)

/-- **C21** End to end with objects built by the constructors: every message below `n^s` encrypted under
the public key decrypts to itself. -/
theorem C21_roundtrip {p q s tries : Nat} (h : Primes p q s) {mont : Int → Option Mont} (hm : MontOK mont)
    {x : Int} {pub : Public} (hpub : Public.new x ((p * q : Nat) : Int) s = .ok pub)
    (hx : Int.gcd x ((p * q : Nat) : Int) = 1)
    {priv : Private} (hpriv : Private.new tries p q s = .ok priv)
    (m : Nat) (hlt : m < (p * q) ^ s) (r : Int) (hr : 0 ≤ r) (hrn : r ≤ ((p * q : Nat) : Int)) :
    ∃ c, pub.encrypt mont m r = .ok c ∧ priv.decrypt c = .ok m := by
  obtain ⟨k, hk, hkok⟩ := public_new h x hx
  rw [hpub, Outcome.ok.injEq] at hk
  subst hk
  obtain ⟨c, hc, hcm⟩ := C21_encrypt (Nat.mul_pos h.hp.pos h.hq.pos) h.small_mul hm hkok m hlt r hr hrn
  refine ⟨c, hc, ?_⟩
  rw [C21_decrypt h (private_new h hpriv) hcm, Nat.mod_eq_of_lt hlt]

/-- **C21** Homomorphic sums, multiples and re-randomizations decrypt to the sum / multiple modulo `n^s`. -/
theorem C21_homomorphic {p q s tries : Nat} (h : Primes p q s) {mont : Int → Option Mont} (hm : MontOK mont)
    {x : Int} {pub : Public} (hpub : Public.new x ((p * q : Nat) : Int) s = .ok pub)
    (hx : Int.gcd x ((p * q : Nat) : Int) = 1)
    {priv : Private} (hpriv : Private.new tries p q s = .ok priv)
    {c1 c2 : Int} {m1 m2 : Nat} (h1 : IsEnc (p * q) s c1 m1) (h2 : IsEnc (p * q) s c2 m2) (t : Nat) (r : Int)
    (hr : 0 ≤ r) :
    (pub.add c1 c2 >>= priv.decrypt) = .ok (((m1 + m2) % (p * q) ^ s : Nat) : Int) ∧
    (pub.multiply c1 t >>= priv.decrypt) = .ok (((m1 * t) % (p * q) ^ s : Nat) : Int) ∧
    (pub.reRand mont c1 r >>= priv.decrypt) = .ok ((m1 % (p * q) ^ s : Nat) : Int) := by
  obtain ⟨k, hk, hkok⟩ := public_new h x hx
  rw [hpub, Outcome.ok.injEq] at hk
  subst hk
  have hn : 0 < p * q := Nat.mul_pos h.hp.pos h.hq.pos
  have hd := fun {c : Int} {m : Nat} (hc : IsEnc (p * q) s c m) => C21_decrypt h (private_new h hpriv) hc
  obtain ⟨a, ha, ha'⟩ := C21_add hn hkok h1 h2
  obtain ⟨b, hb, hb'⟩ := C21_multiply hn hkok h1 t
  obtain ⟨d, hd', hd''⟩ := C21_rerand hn hm hkok h1 r hr
  exact ⟨by rw [ha, Outcome.bind_ok, hd ha'], by rw [hb, Outcome.bind_ok, hd hb'],
    by rw [hd', Outcome.bind_ok, hd hd'']⟩

/-- **C21** The private key rejects out-of-range messages and ciphertexts with an error. -/
theorem C21_private_rejects {p q s : Nat} {mont : Int → Option Mont} {k : Private} (hk : PrivateOK p q s k)
    (x rp rq : Int) :
    ((x < 0 ∨ ((p * q : Nat) : Int) ^ s ≤ x) → ∃ msg, k.encrypt mont x rp rq = .err msg) ∧
    ((x < 0 ∨ ((p * q : Nat) : Int) ^ (s + 1) ≤ x) → ∃ msg, k.decrypt x = .err msg) := by
  constructor
  · intro h
    by_cases h0 : x < 0
    · exact ⟨_, by rw [Private.encrypt, if_pos h0]⟩
    · exact ⟨_, by rw [Private.encrypt, if_neg h0, hk.ns, if_pos (by omega)]⟩
  · intro h
    by_cases h0 : x < 0
    · exact ⟨_, by rw [Private.decrypt, if_pos h0]⟩
    · exact ⟨_, by rw [Private.decrypt, if_neg h0, hk.ns1, if_pos (by omega)]⟩

/-- A number divisible by the first prime is not a ciphertext; decrypting it kills the process (the exact
division is `CHECK`ed). -/
theorem C21_nonunit_aborts {p q s : Nat} (h : Primes p q s) {k : Private} (hk : PrivateOK p q s k) {c : Int}
    (hc0 : 0 ≤ c) (hc1 : c < ((p * q : Nat) : Int) ^ (s + 1)) (hd : (p : Int) ∣ c) :
    k.decrypt c = .abort := by
  have hp := h.p5
  have hp0 : (p : Int) ≠ 0 := by omega
  have hps1 : (p : Int) ^ (s + 1) ≠ 0 := pow_ne_zero _ hp0
  have he : modExp c ((p : Int) - 1) ((p : Int) ^ (s + 1)) = .ok (c ^ (p - 1) % (p : Int) ^ (s + 1)) := by
    have := modExp_ok (b := c) (p - 1) (lt_of_le_of_ne (by positivity) hps1.symm)
    rw [show (((p - 1 : Nat)) : Int) = (p : Int) - 1 by omega] at this
    exact this
  have hdx : (p : Int) ∣ c ^ (p - 1) % (p : Int) ^ (s + 1) :=
    (EuclideanDomain.dvd_mod_iff (dvd_pow_self _ (by omega))).2 (hd.trans (dvd_pow_self c (by omega)))
  have hL : k.pc.lFunc (c ^ (p - 1) % (p : Int) ^ (s + 1)) = .abort := by
    rw [Prime.lFunc, hk.pc.hp, div, if_neg hp0, if_neg]
    · rfl
    · intro h0
      have h1 := Int.dvd_sub hdx (Int.dvd_of_tmod_eq_zero h0)
      have h2 : (p : Int) ∣ 1 := by simpa using h1
      have := Int.le_of_dvd (by omega) h2
      omega
  have hdec : k.pc.decrypt c = .abort := by
    rw [Prime.decrypt, hk.pc.powers, hk.pc.hs, hk.pc.hp, getPowers_get _ _ _ (le_refl _)]
    simp only [Outcome.bind_ok, he, hL, Outcome.bind_abort]
  rw [Private.decrypt, if_neg (by omega), hk.ns1, if_neg (by omega), hdec]
  rfl

/-- **C22** Interoperation: a message encrypted with the public key and with the private key decrypts to
the same plaintext, namely itself; and ciphertexts of the two kinds may be added together. -/
theorem C22_interoperable {p q s tries : Nat} (h : Primes p q s) {mont : Int → Option Mont} (hm : MontOK mont)
    {x : Int} {pub : Public} (hpub : Public.new x ((p * q : Nat) : Int) s = .ok pub)
    (hx : Int.gcd x ((p * q : Nat) : Int) = 1)
    {priv : Private} (hpriv : Private.new tries p q s = .ok priv)
    (m : Nat) (hlt : m < (p * q) ^ s) (r rp rq : Int) (hr : 0 ≤ r) (hrn : r ≤ ((p * q : Nat) : Int))
    (hrp : 0 ≤ rp) (hrq : 0 ≤ rq) :
    ∃ c1 c2, pub.encrypt mont m r = .ok c1 ∧ priv.encrypt mont m rp rq = .ok c2 ∧
      priv.decrypt c1 = .ok m ∧ priv.decrypt c2 = .ok m ∧
      (pub.add c1 c2 >>= priv.decrypt) = .ok ((2 * m % (p * q) ^ s : Nat) : Int) := by
  obtain ⟨k, hk, hkok⟩ := public_new h x hx
  rw [hpub, Outcome.ok.injEq] at hk
  subst hk
  have hn : 0 < p * q := Nat.mul_pos h.hp.pos h.hq.pos
  have hpo := private_new h hpriv
  obtain ⟨c1, h1, e1⟩ := C21_encrypt hn h.small_mul hm hkok m hlt r hr hrn
  obtain ⟨c2, h2, e2⟩ := C22_private_encrypt h hm hpo m hlt rp rq hrp hrq
  obtain ⟨c3, h3, e3⟩ := C21_add hn hkok e1 e2
  refine ⟨c1, c2, h1, h2, ?_, ?_, ?_⟩
  · rw [C21_decrypt h hpo e1, Nat.mod_eq_of_lt hlt]
  · rw [C21_decrypt h hpo e2, Nat.mod_eq_of_lt hlt]
  · rw [h3, Outcome.bind_ok, C21_decrypt h hpo e3, two_mul]

/-! ### concrete instances: `p = 7`, `q = 11`, with `s = 1` and `s = 2` -/

/-- The constructors succeed and a round trip of the message 42 works (`s = 1`). -/
example : ∃ pub priv c, Public.new 2 77 1 = .ok pub ∧ Private.new 1000 (7 : Nat) (11 : Nat) 1 = .ok priv ∧
    pub.encrypt (fun _ => none) 42 5 = .ok c ∧ priv.decrypt c = .ok 42 := by
  have h : Primes 7 11 1 := by constructor <;> norm_num
  obtain ⟨pub, hpub, _⟩ := public_new h 2 (by norm_num)
  have hpriv : ∃ k, Private.new 1000 (7 : Nat) (11 : Nat) 1 = .ok k := Outcome.isOk_iff.1 (by decide +kernel)
  obtain ⟨priv, hpriv⟩ := hpriv
  obtain ⟨c, h1, h2⟩ := C21_roundtrip (mont := fun _ => none) h (by intro m c h; simp at h) hpub (by norm_num) hpriv 42
    (by norm_num) 5 (by norm_num) (by norm_num)
  exact ⟨pub, priv, c, hpub, hpriv, h1, h2⟩

/-- The same with `s = 2` and a message above `n`. -/
example : ∃ pub priv c, Public.new 2 77 2 = .ok pub ∧ Private.new 1000 (7 : Nat) (11 : Nat) 2 = .ok priv ∧
    pub.encrypt (fun _ => none) 4200 5 = .ok c ∧ priv.decrypt c = .ok 4200 := by
  have h : Primes 7 11 2 := by constructor <;> norm_num
  obtain ⟨pub, hpub, _⟩ := public_new h 2 (by norm_num)
  have hpriv : ∃ k, Private.new 1000 (7 : Nat) (11 : Nat) 2 = .ok k := Outcome.isOk_iff.1 (by decide +kernel)
  obtain ⟨priv, hpriv⟩ := hpriv
  obtain ⟨c, h1, h2⟩ := C21_roundtrip (mont := fun _ => none) h (by intro m c h; simp at h) hpub (by norm_num) hpriv 4200
    (by norm_num) 5 (by norm_num) (by norm_num)
  exact ⟨pub, priv, c, hpub, hpriv, h1, h2⟩

end Upsi.Paillier
