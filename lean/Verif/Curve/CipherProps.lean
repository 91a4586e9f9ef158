import Verif.Curve.Cipher
import Verif.Curve.OracleProps
import Mathlib.FieldTheory.Finite.Basic
import Mathlib.Tactic.Module
/-
Property theorems C26 (commutative cipher), C28 (keys of the cipher), C59 (byte-level ElGamal).
-/
namespace Upsi.Curve
open Upsi Upsi.Num Upsi.ElGamal

variable {G : Type} [AddCommGroup G] [DecidableEq G]

/-- A valid private key for a group of order `q`. -/
def ValidKey (q : Nat) (k : Int) : Prop := 1 ≤ k ∧ k ≤ (q : Int) - 1

/-! ### Lemmas -/

theorem smul_congr {q : Nat} (hq : ∀ x : G, (q : Int) • x = 0) {a b : Int} (h : a % q = b % q) (x : G) :
    a • x = b • x := by
  have h1 := Int.emod_add_mul_ediv a q
  have h2 := Int.emod_add_mul_ediv b q
  rw [← h1, ← h2, add_smul, add_smul, h, mul_comm, mul_smul, hq, mul_comm, mul_smul, hq, smul_zero, smul_zero]

theorem inv_key {q : Nat} (hp : q.Prime) {k : Int} (hk : ValidKey q k) :
    ∃ i, invertScalar k q = .ok i ∧ 0 ≤ i ∧ i < q ∧ i * k % q = 1 := by
  haveI : Fact q.Prime := ⟨hp⟩
  have h2 := hp.two_le
  refine ⟨k ^ (q - 2) % q, ?_, Int.emod_nonneg _ (by omega), Int.emod_lt_of_pos _ (by omega), ?_⟩
  · simp only [invertScalar, modExp, if_neg (show ¬ (q : Int) - 2 < 0 by omega), if_neg (show ¬ (q : Int) ≤ 0 by omega),
      powMod_eq, show ((q : Int) - 2).toNat = q - 2 by omega]
  · have hk0 : (k : ZMod q) ≠ 0 := by
      intro h
      have := (ZMod.intCast_zmod_eq_zero_iff_dvd k q).1 h
      exact absurd (Int.le_of_dvd (by unfold ValidKey at hk; omega) this) (by unfold ValidKey at hk; omega)
    have hf : (k : ZMod q) ^ (q - 2) * k = 1 := by
      rw [← pow_succ, show q - 2 + 1 = q - 1 by omega]
      exact ZMod.pow_card_sub_one_eq_one hk0
    have : ((k ^ (q - 2) * k : Int) : ZMod q) = ((1 : Int) : ZMod q) := by push_cast; exact hf
    have := (ZMod.intCast_eq_intCast_iff _ _ _).1 this
    unfold Int.ModEq at this
    rw [Int.mul_emod, Int.emod_emod_of_dvd _ (Int.dvd_refl _), ← Int.mul_emod, this]
    exact Int.emod_eq_of_lt (by decide) (by omega)

theorem smul_ne_zero' {q : Nat} (hp : q.Prime) (hq : ∀ x : G, (q : Int) • x = 0) {k : Int} (hk : ValidKey q k) {x : G}
    (hx : x ≠ 0) : k • x ≠ 0 := by
  intro h
  obtain ⟨i, _, _, _, hi⟩ := inv_key hp hk
  apply hx
  have h2 := hp.two_le
  have : (i * k) • x = (1 : Int) • x := smul_congr hq (by rw [hi]; exact (Int.emod_eq_of_lt (by decide) (by omega)).symm) x
  rw [one_smul, mul_smul, h, smul_zero] at this
  exact this.symm

theorem mkCipher_ok {q : Nat} (hp : q.Prime) {k : Int} (hk : ValidKey q k) :
    ∃ c, mkCipher q k = .ok c ∧ c.key = k ∧ c.inv * k % q = 1 := by
  obtain ⟨i, e, _, _, hi⟩ := inv_key hp hk
  exact ⟨⟨k, i⟩, by simp [mkCipher, e], rfl, hi⟩

theorem pointToBytes_ok (cd : Codec G) {x : G} (h : x ≠ 0) : pointToBytes cd x = .ok (cd.enc x) := by
  simp [pointToBytes, h]

theorem createECPoint_enc (cd : Codec G) {x : G} (h : x ≠ 0) : createECPoint cd (cd.enc x) = .ok x := by
  simp [createECPoint, cd.dec_enc x h, h]

theorem createECPoint_ne (cd : Codec G) {b : Bytes} {x : G} (h : createECPoint cd b = .ok x) : x ≠ 0 := by
  unfold createECPoint at h
  split at h
  · simp at h
  · split at h
    · simp at h
    · rename_i h0
      simp only [Outcome.ok.injEq] at h
      exact h ▸ h0

/-! ### C26 -/

/-- The two ciphers of the theorems: ciphers made from valid keys of the same group. -/
def Made (q : Nat) (c : Cipher) : Prop := ∃ k, ValidKey q k ∧ mkCipher q k = .ok c

theorem Made.key {q : Nat} (hp : q.Prime) {c : Cipher} (h : Made q c) : ValidKey q c.key ∧ c.inv * c.key % q = 1 := by
  obtain ⟨k, hk, e⟩ := h
  obtain ⟨c', e', hk', hi⟩ := mkCipher_ok hp hk
  have : c = c' := Outcome.ok.inj (e.symm.trans e')
  subst this
  rw [hk']; exact ⟨hk, hi⟩

/-- **C26** Encrypting with one key and re-encrypting with another never fails and gives the same bytes in either
order; the bytes are those of the hashed point multiplied by both keys. -/
theorem C26_commutes {q : Nat} (hp : q.Prime) (hq : ∀ x : G, (q : Int) • x = 0) (cd : Codec G) (hash : Bytes → Outcome G)
    (c1 c2 : Cipher) (h1 : Made q c1) (h2 : Made q c2) (m : Bytes) (h : G) (hm : hash m = .ok h) (h0 : h ≠ 0) :
    ∃ a b r, c1.encrypt cd hash m = .ok a ∧ c2.encrypt cd hash m = .ok b ∧
      c2.reEncrypt cd a = .ok r ∧ c1.reEncrypt cd b = .ok r ∧ cd.dec r = some ((c1.key * c2.key) • h) := by
  obtain ⟨k1, _⟩ := h1.key hp
  obtain ⟨k2, _⟩ := h2.key hp
  have n1 := smul_ne_zero' hp hq k1 h0
  have n2 := smul_ne_zero' hp hq k2 h0
  have n12 := smul_ne_zero' hp hq k2 n1
  have n21 := smul_ne_zero' hp hq k1 n2
  have e21 : c1.key • c2.key • h = (c1.key * c2.key) • h := (mul_smul _ _ _).symm
  have e12 : c2.key • c1.key • h = (c1.key * c2.key) • h := by rw [mul_comm, mul_smul]
  refine ⟨cd.enc (c1.key • h), cd.enc (c2.key • h), cd.enc ((c1.key * c2.key) • h), ?_, ?_, ?_, ?_, ?_⟩
  · simp [Cipher.encrypt, hm, pointToBytes_ok cd n1]
  · simp [Cipher.encrypt, hm, pointToBytes_ok cd n2]
  · rw [← e12]; simp only [Cipher.reEncrypt, createECPoint_enc cd n1, Outcome.bind_ok, pointToBytes_ok cd n12]
  · rw [← e21]; simp only [Cipher.reEncrypt, createECPoint_enc cd n2, Outcome.bind_ok, pointToBytes_ok cd n21]
  · exact cd.dec_enc _ (e21 ▸ n21)

/-- **C26** Decryption undoes re-encryption with the same key on every ciphertext that can be decoded, and
re-encryption undoes decryption. -/
theorem C26_decrypt {q : Nat} (hp : q.Prime) (hq : ∀ x : G, (q : Int) • x = 0) (cd : Codec G)
    (c : Cipher) (hc : Made q c) (b : Bytes) (x : G) (hb : createECPoint cd b = .ok x) :
    (∃ r, c.reEncrypt cd b = .ok r ∧ c.decrypt cd r = .ok (cd.enc x)) ∧
    (∃ r, c.decrypt cd b = .ok r ∧ c.reEncrypt cd r = .ok (cd.enc x)) := by
  obtain ⟨k, hi⟩ := hc.key hp
  have h2 := hp.two_le
  have x0 := createECPoint_ne cd hb
  have n1 := smul_ne_zero' hp hq k x0
  have hone : (1 : Int) % q = 1 := Int.emod_eq_of_lt (by decide) (by omega)
  have e1 : c.inv • c.key • x = x := by
    rw [← mul_smul, smul_congr hq (hi.trans hone.symm), one_smul]
  have e2 : c.key • c.inv • x = x := by
    rw [← mul_smul, mul_comm, smul_congr hq (hi.trans hone.symm), one_smul]
  have n2 : c.inv • x ≠ 0 := by
    intro h
    rw [h, smul_zero] at e2
    exact x0 e2.symm
  constructor
  · refine ⟨cd.enc (c.key • x), ?_, ?_⟩
    · simp only [Cipher.reEncrypt, hb, Outcome.bind_ok, pointToBytes_ok cd n1]
    · simp only [Cipher.decrypt, createECPoint_enc cd n1, Outcome.bind_ok, e1, pointToBytes_ok cd x0]
  · refine ⟨cd.enc (c.inv • x), ?_, ?_⟩
    · simp only [Cipher.decrypt, hb, Outcome.bind_ok, pointToBytes_ok cd n2]
    · simp only [Cipher.reEncrypt, createECPoint_enc cd n2, Outcome.bind_ok, e2, pointToBytes_ok cd x0]

/-- **C26** Decrypting an encrypted plaintext gives the bytes of its hashed point. -/
theorem C26_decrypt_encrypt {q : Nat} (hp : q.Prime) (hq : ∀ x : G, (q : Int) • x = 0) (cd : Codec G)
    (hash : Bytes → Outcome G) (c : Cipher) (hc : Made q c) (m : Bytes) (h : G) (hm : hash m = .ok h) (h0 : h ≠ 0) :
    ∃ e, c.encrypt cd hash m = .ok e ∧ c.decrypt cd e = hashToBytes cd hash m := by
  obtain ⟨k, _⟩ := hc.key hp
  obtain ⟨r, e1, e2⟩ := (C26_decrypt hp hq cd c hc (cd.enc h) h (createECPoint_enc cd h0)).1
  refine ⟨r, ?_, ?_⟩
  · simp only [Cipher.reEncrypt, createECPoint_enc cd h0, Outcome.bind_ok] at e1
    simp only [Cipher.encrypt, hm, Outcome.bind_ok, e1]
  · simp [e2, hashToBytes, hm, pointToBytes_ok cd h0]

/-- **C26** Two plaintexts encrypt to the same bytes under a valid key exactly when their hashed points are equal. -/
theorem C26_injective {q : Nat} (hp : q.Prime) (hq : ∀ x : G, (q : Int) • x = 0) (cd : Codec G)
    (hash : Bytes → Outcome G) (c : Cipher) (hc : Made q c) (m m' : Bytes) (h h' : G) (hm : hash m = .ok h)
    (hm' : hash m' = .ok h') (h0 : h ≠ 0) (h0' : h' ≠ 0) :
    c.encrypt cd hash m = c.encrypt cd hash m' ↔ h = h' := by
  constructor
  · intro e
    obtain ⟨r, a1, a2⟩ := C26_decrypt_encrypt hp hq cd hash c hc m h hm h0
    obtain ⟨r', b1, b2⟩ := C26_decrypt_encrypt hp hq cd hash c hc m' h' hm' h0'
    have : r = r' := Outcome.ok.inj (a1.symm.trans (e.trans b1))
    subst this
    rw [a2] at b2
    simp only [hashToBytes, hm, hm', Outcome.bind_ok, pointToBytes_ok cd h0, pointToBytes_ok cd h0', Outcome.ok.injEq] at b2
    have h1 := cd.dec_enc h h0
    rw [b2, cd.dec_enc h' h0'] at h1
    exact (Option.some.inj h1).symm
  · rintro rfl
    simp only [Cipher.encrypt, hm, hm']

/-- **C26** Re-encrypting an ElGamal ciphertext multiplies its plaintext by the key: it decrypts to the point that
the cipher produces from the plaintext point. -/
theorem C26_elgamal {q : Nat} (hp : q.Prime) (hq : ∀ x : G, (q : Int) • x = 0) (cd : Codec G)
    (c : Cipher) (hc : Made q c) (ct : Bytes × Bytes) (u e : G) (hu : createECPoint cd ct.1 = .ok u)
    (he : createECPoint cd ct.2 = .ok e) (sk : Int) :
    ∃ r u' e', c.reEncryptElGamal cd ct = .ok r ∧ createECPoint cd r.1 = .ok u' ∧ createECPoint cd r.2 = .ok e' ∧
      decrypt sk (⟨u', e'⟩ : Ct G) = c.key • decrypt sk ⟨u, e⟩ := by
  obtain ⟨k, _⟩ := hc.key hp
  have nu := smul_ne_zero' hp hq k (createECPoint_ne cd hu)
  have ne := smul_ne_zero' hp hq k (createECPoint_ne cd he)
  refine ⟨(cd.enc (c.key • u), cd.enc (c.key • e)), c.key • u, c.key • e, ?_, createECPoint_enc cd nu, createECPoint_enc cd ne, ?_⟩
  · simp only [Cipher.reEncryptElGamal, hu, he, Outcome.bind_ok, exp, pointToBytes_ok cd nu, pointToBytes_ok cd ne, Outcome.pure_eq]
  · simp only [decrypt]; module

/-! ### C28: keys of the cipher -/

/-- **C28** The accepted hash types are exactly the four of the `enum`, which have different values. -/
theorem C28_hash_types : (∀ h : Int, validateHashType h = true ↔ ∃ t : HashType, t.toInt = h) ∧
    ∀ t t' : HashType, t.toInt = t'.toInt → t = t' := by
  constructor
  · intro h
    simp only [validateHashType, Bool.and_eq_true, decide_eq_true_eq]
    constructor
    · intro ⟨h0, h3⟩
      obtain rfl | rfl | rfl | rfl : h = 0 ∨ h = 1 ∨ h = 2 ∨ h = 3 := by omega
      · exact ⟨.SHA256, rfl⟩
      · exact ⟨.SHA384, rfl⟩
      · exact ⟨.SHA512, rfl⟩
      · exact ⟨.SSWU_RO, rfl⟩
    · rintro ⟨t, rfl⟩
      cases t <;> decide
  · intro t t' h
    cases t <;> cases t' <;> first | rfl | exact absurd h (by decide)

/-- **C28** A cipher is created from key bytes exactly when the hash type is one of the four and the number the
bytes denote is in `[1, order - 1]`; otherwise there is an error. -/
theorem C28_from_key {q : Nat} (hp : q.Prime) (keyBytes : Bytes) (ht : Int) :
    ((∃ c, createFromKey q keyBytes ht = .ok c) ↔ (0 ≤ ht ∧ ht ≤ 3) ∧ ValidKey q (ofBytes keyBytes : Nat)) ∧
    (∀ c, createFromKey q keyBytes ht = .ok c → Made q c ∧ c.key = (ofBytes keyBytes : Nat)) ∧
    ((∃ c, createFromKey q keyBytes ht = .ok c) ∨ (∃ e, createFromKey q keyBytes ht = .err e)) := by
  unfold createFromKey
  by_cases hv : 0 ≤ ht ∧ ht ≤ 3
  · have : validateHashType ht = true := by simp [validateHashType, hv]
    simp only [this, if_true]
    by_cases hk : ValidKey q (ofBytes keyBytes : Nat)
    · obtain ⟨c, e, ek, _⟩ := mkCipher_ok hp hk
      have hc := (C28_check (ofBytes keyBytes : Nat) q).1.2 hk
      simp only [hc, Outcome.bind_ok, e]
      refine ⟨⟨fun _ => ⟨hv, hk⟩, fun _ => ⟨c, rfl⟩⟩, ?_, Or.inl ⟨c, rfl⟩⟩
      intro c' h
      have : c = c' := Outcome.ok.inj h
      subst this
      exact ⟨⟨_, hk, e⟩, ek⟩
    · obtain ⟨m, hm⟩ := (C28_check (ofBytes keyBytes : Nat) q).2 hk
      simp only [hm, Outcome.bind_err]
      refine ⟨⟨by rintro ⟨c, h⟩; simp at h, fun h => absurd h.2 hk⟩, by intro c h; simp at h, Or.inr ⟨_, rfl⟩⟩
  · have : validateHashType ht = false := by
      rw [← Bool.not_eq_true]; simpa [validateHashType] using hv
    simp only [this]
    refine ⟨⟨by rintro ⟨c, h⟩; simp at h, fun h => absurd h.1 hv⟩, by intro c h; simp at h, Or.inr ⟨_, rfl⟩⟩

/-- **C28** A freshly generated key gives a working cipher, and restoring a cipher from its exported key bytes gives
the same cipher. -/
theorem C28_new_key {q : Nat} (hp : q.Prime) (coin : Nat) (ht ht' : Int) (h : 0 ≤ ht ∧ ht ≤ 3) (h' : 0 ≤ ht' ∧ ht' ≤ 3) :
    ∃ c b, createWithNewKey q coin ht = .ok c ∧ Made q c ∧ c.keyBytes = .ok b ∧ createFromKey q b ht' = .ok c := by
  obtain ⟨k, e1, e2⟩ := (C28_generated q hp.one_lt).1 coin
  have hk : ValidKey q k := (C28_check k q).1.1 e2
  obtain ⟨c, e, ek, _⟩ := mkCipher_ok hp hk
  have hk0 : ((k.toNat : Nat) : Int) = k := Int.toNat_of_nonneg (by unfold ValidKey at hk; omega)
  refine ⟨c, natBytes k.toNat, ?_, ⟨k, hk, e⟩, ?_, ?_⟩
  · simp [createWithNewKey, validateHashType, h, e1, e]
  · unfold Cipher.keyBytes toBytes
    rw [ek, if_neg (by unfold ValidKey at hk; omega)]
  · simp only [createFromKey, validateHashType, h', decide_true, Bool.and_self, if_true, ofBytes_natBytes, hk0, e2,
      Outcome.bind_ok, e]

/-- **C28** A seed-derived key is below the order but is not checked: for some keyed hash functions it is zero, and
then every encryption fails. -/
theorem C28_seed (mac : Bytes → Bytes → Bytes) {q : Nat} (hp : q.Prime) (fuel : Nat) (seed tag : Bytes) (ht : Int) (c : Cipher)
    (h : createFromSeed mac q fuel seed tag ht = .ok (some c)) : 0 ≤ c.key ∧ c.key < q ∧ (c.key ≠ 0 → Made q c) := by
  unfold createFromSeed at h
  split at h
  · simp at h
  · split at h
    · rename_i hs _
      simp only [Outcome.bind_eq_ok] at h
      obtain ⟨k, hk, h⟩ := h
      cases k with
      | none => simp at h
      | some k =>
        simp only [Outcome.bind_eq_ok, Outcome.pure_eq, Outcome.ok.injEq, Option.some.injEq] at h
        obtain ⟨c', hc, rfl⟩ := h
        have hlt : k < q := by
          by_cases hb : bitLength q ≤ 512
          · obtain ⟨r, e1, e2, _⟩ := (C58_prf mac seed tag q fuel).2 (by omega) hb
            exact e2 k (Outcome.ok.inj (e1.symm.trans hk))
          · have := (C58_prf mac seed tag q fuel).1 (Or.inr (by omega))
            rw [this] at hk; simp at hk
        have hkey : c'.key = k := by
          simp only [mkCipher, Outcome.bind_eq_ok, Outcome.pure_eq, Outcome.ok.injEq] at hc
          obtain ⟨i, _, rfl⟩ := hc
          rfl
        rw [hkey]
        refine ⟨by omega, by omega, fun h0 => ⟨k, ⟨by omega, by omega⟩, hc⟩⟩
    · simp at h

theorem C28_seed_zero (cd : Codec G) (hash : Bytes → Outcome G) :
    ∃ (mac : Bytes → Bytes → Bytes) (seed tag : Bytes) (c : Cipher), createFromSeed mac 101 1 seed tag 0 = .ok (some c) ∧
      ∀ m h, hash m = .ok h → ∃ e, c.encrypt cd hash m = .err e := by
  refine ⟨fun _ _ => [128], List.replicate 16 1, [5], ⟨0, 0⟩, by decide +kernel, ?_⟩
  intro m h hm
  exact ⟨"EC_POINT_point2oct failed", by simp [Cipher.encrypt, hm, pointToBytes]⟩

/-! ### C59: CommutativeElGamal -/

/-- **C59** Whatever key object decrypts, decryption inverts encryption at the level of bytes: for keys generated here
and for keys restored from bytes.  Encryption fails only when the second component happens to be the point at infinity. -/
theorem C59_roundtrip {q : Nat} (hp : q.Prime) (hq : ∀ x : G, (q : Int) • x = 0) (cd : Codec G) (k : CElGamal G) (x : Int)
    (hk : k.sk = some x) (hy : k.pk.y = x • k.pk.g) (hg : k.pk.g ≠ 0) (coin : Nat) (b : Bytes) (m : G)
    (hb : createECPoint cd b = .ok m) :
    (∀ ct, k.encrypt cd q coin b = .ok ct → k.decrypt cd ct = .ok (cd.enc m)) ∧
    ((∃ ct, k.encrypt cd q coin b = .ok ct) ∨ (∃ r, generatePrivateKey coin q = .ok r ∧ m + r • k.pk.y = 0)) := by
  obtain ⟨r, e1, e2⟩ := (C28_generated q hp.one_lt).1 coin
  have hr : ValidKey q r := (C28_check r q).1.1 e2
  have nu := smul_ne_zero' hp hq hr hg
  have m0 := createECPoint_ne cd hb
  by_cases he : m + r • k.pk.y = 0
  · refine ⟨?_, Or.inr ⟨r, e1, he⟩⟩
    intro ct h
    simp only [CElGamal.encrypt, hb, e1, Outcome.bind_ok, encryptPoint, pairBytes, he, pointToBytes_ok cd nu] at h
    simp [pointToBytes] at h
  · have henc : k.encrypt cd q coin b = .ok (cd.enc (r • k.pk.g), cd.enc (m + r • k.pk.y)) := by
      simp only [CElGamal.encrypt, hb, e1, Outcome.bind_ok, encryptPoint, pairBytes, pointToBytes_ok cd nu,
        pointToBytes_ok cd he, Outcome.pure_eq]
    refine ⟨?_, Or.inl ⟨_, henc⟩⟩
    intro ct h
    have : ct = _ := Outcome.ok.inj (h.symm.trans henc)
    subst this
    have hd : decrypt x (⟨r • k.pk.g, m + r • k.pk.y⟩ : Ct G) = m := by
      simp only [decrypt, hy]; module
    simp only [CElGamal.decrypt, hk, createECPoint_enc cd nu, createECPoint_enc cd he, Outcome.bind_ok, hd, pointToBytes_ok cd m0]

/-- **C59** An encryption of the identity element can be produced but never be decrypted to bytes: the plaintext has
no byte representation. -/
theorem C59_identity {q : Nat} (cd : Codec G) (k : CElGamal G) (x : Int)
    (hk : k.sk = some x) (hy : k.pk.y = x • k.pk.g) (coin : Nat) (ct : Bytes × Bytes)
    (h : k.encryptIdentity cd q coin = .ok ct) : ∃ e, k.decrypt cd ct = .err e := by
  simp only [CElGamal.encryptIdentity, Outcome.bind_eq_ok, encryptPoint] at h
  obtain ⟨r, _, h⟩ := h
  by_cases nu : r • k.pk.g = 0
  · simp [pairBytes, nu, pointToBytes] at h
  · by_cases ne : 0 + r • k.pk.y = 0
    · simp only [pairBytes, ne, pointToBytes_ok cd nu, Outcome.bind_ok] at h
      simp [pointToBytes] at h
    · simp only [pairBytes, pointToBytes_ok cd nu, pointToBytes_ok cd ne, Outcome.bind_ok, Outcome.pure_eq, Outcome.ok.injEq] at h
      subst h
      have hd : decrypt x (⟨r • k.pk.g, 0 + r • k.pk.y⟩ : Ct G) = 0 := by
        simp only [decrypt, hy]; module
      simp only [CElGamal.decrypt, hk, createECPoint_enc cd nu, createECPoint_enc cd ne, Outcome.bind_ok, hd]
      exact ⟨"EC_POINT_point2oct failed", by simp [pointToBytes]⟩

/-- **C59** Exported keys restore the same key object; a private key that does not fit the public key is rejected; an
object made from the public key alone encrypts identically and cannot decrypt. -/
theorem C59_export {q : Nat} (hp : q.Prime) (hq : ∀ x : G, (q : Int) • x = 0) (cd : Codec G) (g : G) (hg : g ≠ 0) (coin : Nat) :
    ∃ k pb sb, CElGamal.new g q coin = .ok k ∧ k.publicBytes cd = .ok pb ∧ k.privateBytes = .ok sb ∧
      CElGamal.fromKeys cd pb sb = .ok k ∧ CElGamal.fromPublic cd pb = .ok ⟨k.pk, none⟩ ∧
      (∀ ct, ∃ e, (⟨k.pk, none⟩ : CElGamal G).decrypt cd ct = .err e) ∧
      (∀ sb', (ofBytes sb' : Int) • g ≠ k.pk.y → ∃ e, CElGamal.fromKeys cd pb sb' = .err e) := by
  obtain ⟨r, e1, e2⟩ := (C28_generated q hp.one_lt).1 coin
  have hr : ValidKey q r := (C28_check r q).1.1 e2
  have ny := smul_ne_zero' hp hq hr hg
  have hr0 : ((r.toNat : Nat) : Int) = r := Int.toNat_of_nonneg (by unfold ValidKey at hr; omega)
  refine ⟨⟨⟨g, r • g⟩, some r⟩, (cd.enc g, cd.enc (r • g)), natBytes r.toNat, ?_, ?_, ?_, ?_, ?_, ?_, ?_⟩
  · simp [CElGamal.new, e1, keyPair]
  · simp only [CElGamal.publicBytes, pairBytes, pointToBytes_ok cd hg, pointToBytes_ok cd ny, Outcome.bind_ok, Outcome.pure_eq]
  · simp only [CElGamal.privateBytes, toBytes]
    rw [if_neg (by unfold ValidKey at hr; omega)]
  · simp only [CElGamal.fromKeys, createECPoint_enc cd hg, createECPoint_enc cd ny, Outcome.bind_ok, ofBytes_natBytes, hr0,
      ne_eq, not_true, if_false, Outcome.pure_eq]
  · simp only [CElGamal.fromPublic, createECPoint_enc cd hg, createECPoint_enc cd ny, Outcome.bind_ok, Outcome.pure_eq]
  · intro ct; exact ⟨_, rfl⟩
  · intro sb' h
    refine ⟨"CommutativeElGamal::CreateFromPublicAndPrivateKeys : Public key is not consistent with private key", ?_⟩
    simp only [CElGamal.fromKeys, createECPoint_enc cd hg, createECPoint_enc cd ny, Outcome.bind_ok]
    rw [if_pos (fun h' => h h'.symm)]

/-- **C59** A stored curve key is read back with its exact value when the curve matches, and rejected otherwise. -/
theorem C59_ec_key {q : Nat} (hp : q.Prime) (curveId : Int) (coin : Nat) :
    ∃ p k, generateEcKey curveId q coin = .ok p ∧ generatePrivateKey coin q = .ok (k : Nat) ∧
      deserializeEcKey curveId p = .ok k ∧ ∀ other, other ≠ curveId → ∃ e, deserializeEcKey other p = .err e := by
  obtain ⟨r, e1, e2⟩ := (C28_generated q hp.one_lt).1 coin
  have hr : ValidKey q r := (C28_check r q).1.1 e2
  have hr0 : ((r.toNat : Nat) : Int) = r := Int.toNat_of_nonneg (by unfold ValidKey at hr; omega)
  refine ⟨⟨curveId, natBytes r.toNat⟩, r.toNat, ?_, by rw [hr0]; exact e1, ?_, ?_⟩
  · simp only [generateEcKey, e1, Outcome.bind_ok, toBytes]
    rw [if_neg (by unfold ValidKey at hr; omega)]
    rfl
  · simp only [deserializeEcKey, ne_eq, not_true, if_false, ofBytes_natBytes]
  · intro other ho
    exact ⟨"EC key conversion failed", by simp only [deserializeEcKey, if_pos ho]⟩

/-! Non-vacuity: the group of integers modulo 101. -/

/-- Points as single bytes. -/
def toyCodec : Codec (ZMod 101) where
  enc x := [UInt8.ofNat x.val]
  dec b := match b with
    | [c] => some (c.toNat : ZMod 101)
    | _ => none
  dec_enc := by decide +kernel

example : ∀ x : ZMod 101, ((101 : Nat) : Int) • x = 0 := by decide +kernel

example : Made 101 ⟨7, 29⟩ ∧ Made 101 ⟨55, 90⟩ := by
  refine ⟨⟨7, by unfold ValidKey; decide, by decide +kernel⟩, ⟨55, by unfold ValidKey; decide, by decide +kernel⟩⟩

example : createECPoint toyCodec [5] = .ok 5 := by decide +kernel

example : ∃ ct, (⟨⟨2, 14⟩, some 7⟩ : CElGamal (ZMod 101)).encrypt toyCodec 101 9 [5] = .ok ct := ⟨([20], [44]), by decide +kernel⟩
example : ∃ ct, (⟨⟨2, 14⟩, some 7⟩ : CElGamal (ZMod 101)).encryptIdentity toyCodec 101 9 = .ok ct := ⟨([20], [39]), by decide +kernel⟩

end Upsi.Curve
