import Verif.ElGamal.Model
import Mathlib.Tactic.Abel
import Mathlib.Tactic.Module
import Mathlib.GroupTheory.OrderOfElement
import Mathlib.Data.ZMod.Basic
import Mathlib.RingTheory.Int.Basic
/- Property theorems C16-C20, C29. -/
namespace Upsi.ElGamal
open Upsi

variable {G : Type} [AddCommGroup G]

/-! ### C16 -/

/-- **C16** Decryption inverts encryption of a point, for every key and coin. -/
theorem C16_decrypt_encrypt (g : G) (x r : Int) (m : G) :
    decrypt (keyPair g x).2 (encryptPoint (keyPair g x).1 r m) = m := by
  simp only [decrypt, keyPair, encryptPoint]; module

/-- **C16** ... and of an integer in the exponent. -/
theorem C16_decrypt_encrypt_exp (g : G) (x r m : Int) :
    decrypt (keyPair g x).2 (encrypt (keyPair g x).1 r m) = m • g :=
  C16_decrypt_encrypt g x r _

/-- **C16** Products, powers, inverses, the trivial ciphertext and copies, for all ciphertexts. -/
theorem C16_homomorphic (x k : Int) (a b : Ct G) :
    decrypt x (mul a b) = decrypt x a + decrypt x b ∧
    decrypt x (exp a k) = k • decrypt x a ∧
    decrypt x (invert a) = -decrypt x a ∧
    decrypt x (zero : Ct G) = 0 ∧
    decrypt x (clone a) = decrypt x a := by
  refine ⟨?_, ?_, ?_, ?_, rfl⟩ <;> simp only [decrypt, mul, exp, invert, zero] <;> module

/-- **C16** Re-randomization under the matching public key keeps the plaintext. -/
theorem C16_rerandomize (g : G) (x r : Int) (c : Ct G) :
    decrypt (keyPair g x).2 (reRandomize (keyPair g x).1 r c) = decrypt x c := by
  simp only [decrypt, keyPair, reRandomize]; module

/-- A re-randomized ciphertext is a fresh-looking one: the randomness of an encryption is shifted. -/
theorem C16_rerandomize_coins (pk : PK G) (r s : Int) (m : G) :
    reRandomize pk s (encryptPoint pk r m) = encryptPoint pk (r + s) m := by
  ext <;> simp only [reRandomize, encryptPoint] <;> module

/-- Non-vacuity: the additive group of integers modulo 7 with generator 1. -/
example : decrypt (keyPair (1 : ZMod 7) 3).2 (encrypt (keyPair (1 : ZMod 7) 3).1 5 4) = 4 := by decide

/-- **C16** `IsCiphertextZero` recognises the trivial ciphertext and nothing else; in particular it is false for an
encryption of zero whose coin does not annihilate the generator, although that ciphertext decrypts to zero too. -/
theorem C16_is_zero [DecidableEq G] (g : G) (x r : Int) (c : Ct G) :
    (isZero c = true ↔ c = zero) ∧
    (r • g ≠ 0 → isZero (encrypt (keyPair g x).1 r 0) = false ∧
      decrypt (keyPair g x).2 (encrypt (keyPair g x).1 r 0) = 0) := by
  refine ⟨?_, fun h => ⟨?_, ?_⟩⟩
  · rcases c with ⟨u, e⟩
    simp [isZero, zero]
  · simp [isZero, encrypt, encryptPoint, keyPair, h]
  · rw [C16_decrypt_encrypt_exp, zero_smul]

example : isZero (zero : Ct (ZMod 7)) = true ∧ isZero (encrypt (keyPair (1 : ZMod 7) 3).1 5 0) = false := by decide

/-! ### C17 -/

/-- **C17** Two-party threshold decryption opens the ciphertext, whichever party starts, and also
when the joint ciphertext is re-randomized before and after the first step. -/
theorem C17_threshold (g : G) [DecidableEq G] (x0 x1 r s : Int) (m : G) (pk : PK G)
    (hpk : fromShares [(keyPair g x0).1, (keyPair g x1).1] = .ok pk) :
    decrypt x1 (partialDecrypt x0 (reRandomize pk s (encryptPoint pk r m))) = m ∧
    decrypt x0 (partialDecrypt x1 (reRandomize pk s (encryptPoint pk r m))) = m ∧
    decrypt x1 (partialDecrypt x0 (encryptPoint pk r m)) = m ∧
    decrypt x0 (partialDecrypt x1 (encryptPoint pk r m)) = m := by
  simp only [fromShares, keyPair, addShares, if_true, Outcome.bind_ok, Outcome.pure_eq,
    Outcome.ok.injEq] at hpk
  subst hpk
  refine ⟨?_, ?_, ?_, ?_⟩ <;>
    simp only [decrypt, partialDecrypt, reRandomize, encryptPoint] <;> module

/-- **C17** (re-randomization between the two steps) After party `x0` has partially decrypted, a
re-randomization must use the *remaining* key `x1`; then the result is still the plaintext. -/
theorem C17_rerandomize_between (g : G) (x0 x1 r s : Int) (m : G) :
    decrypt x1 (reRandomize (keyPair g x1).1 s
      (partialDecrypt x0 (encryptPoint ⟨g, x0 • g + x1 • g⟩ r m))) = m := by
  simp only [decrypt, partialDecrypt, reRandomize, encryptPoint, keyPair]; module

example : fromShares [(keyPair (1 : ZMod 7) 3).1, (keyPair (1 : ZMod 7) 5).1] = .ok ⟨1, 1⟩ := by
  decide

/-! ### C18 -/

theorem addShares_keyPairs [DecidableEq G] (g : G) (xs : List Int) : ∀ y : G,
    addShares g y (xs.map (fun x => (keyPair g x).1)) = .ok (y + xs.sum • g) := by
  induction xs with
  | nil => intro y; simp [addShares]
  | cons x xs ih =>
    intro y
    simp only [List.map_cons, addShares, keyPair, if_true, List.sum_cons] at ih ⊢
    rw [ih]
    congr 1
    module

/-- **C18** The public key combined from shares is the key of the sum of the private keys. -/
theorem C18_joint_key [DecidableEq G] (g : G) (xs : List Int) (hne : xs ≠ []) :
    fromShares (xs.map (fun x => (keyPair g x).1)) = .ok (keyPair g xs.sum).1 := by
  cases xs with
  | nil => exact absurd rfl hne
  | cons x xs =>
    simp only [List.map_cons, fromShares]
    have := addShares_keyPairs g xs (keyPair g x).1.y
    simp only [keyPair] at this ⊢
    rw [this]
    simp only [Outcome.bind_ok, Outcome.pure_eq, List.sum_cons, Outcome.ok.injEq, PK.mk.injEq, true_and]
    module

theorem partial_fold (xs : List Int) : ∀ c : Ct G,
    (xs.foldl (fun c x => partialDecrypt x c) c).e = c.e - xs.sum • c.u ∧
    (xs.foldl (fun c x => partialDecrypt x c) c).u = c.u := by
  induction xs with
  | nil => intro c; simp
  | cons x xs ih =>
    intro c
    simp only [List.foldl_cons, List.sum_cons]
    obtain ⟨h1, h2⟩ := ih (partialDecrypt x c)
    rw [h1, h2]
    refine ⟨?_, rfl⟩
    simp only [partialDecrypt, decrypt]
    module

/-- **C18** All share holders, in any order, open a ciphertext made under the joint key. -/
theorem C18_all_open [DecidableEq G] (g : G) (xs ys : List Int) (hne : xs ≠ []) (hp : ys.Perm xs)
    (r : Int) (m : G) (pk : PK G) (hpk : fromShares (xs.map (fun x => (keyPair g x).1)) = .ok pk) :
    (ys.foldl (fun c x => partialDecrypt x c) (encryptPoint pk r m)).e = m := by
  rw [C18_joint_key g xs hne] at hpk
  simp only [Outcome.ok.injEq] at hpk
  subst hpk
  rw [(partial_fold ys _).1, hp.sum_eq]
  simp only [encryptPoint, keyPair]
  module

/-- **C18** An empty list of shares is an error. -/
theorem C18_empty [DecidableEq G] : ∃ m, fromShares ([] : List (PK G)) = .err m := ⟨_, rfl⟩

/-- **C18** A share with a different generator anywhere aborts. -/
theorem C18_mismatch [DecidableEq G] (s : PK G) (ss : List (PK G)) (h : ∃ t ∈ ss, t.g ≠ s.g) :
    fromShares (s :: ss) = .abort := by
  have key : ∀ (ss : List (PK G)) (y : G), (∃ t ∈ ss, t.g ≠ s.g) → addShares s.g y ss = .abort := by
    intro ss
    induction ss with
    | nil => intro y h; obtain ⟨t, ht, _⟩ := h; simp at ht
    | cons a ss ih =>
      intro y h
      unfold addShares
      split
      · rename_i he
        apply ih
        obtain ⟨t, ht, hne⟩ := h
        rcases List.mem_cons.1 ht with rfl | ht
        · exact absurd he.symm hne
        · exact ⟨t, ht, hne⟩
      · rfl
  simp [fromShares, key ss s.y h]

example : fromShares (([2, 3, 6] : List Int).map (fun x => (keyPair (1 : ZMod 7) x).1)) =
    .ok ⟨1, 4⟩ := by decide
example : fromShares [⟨(1 : ZMod 7), 2⟩, ⟨2, 3⟩] = .abort := by decide

/-! ### C19 -/

theorem zsmul_eq_zero_iff {g : G} {q : Nat} (hq : addOrderOf g = q) (k : Int) :
    k • g = 0 ↔ (q : Int) ∣ k := by
  rw [← hq]; exact addOrderOf_dvd_iff_zsmul_eq_zero.symm

/-- **C19** Masked equality test: the difference of an encrypted tree element `y` and an encrypted
query `x`, raised to a mask that is not a multiple of the prime group order, decrypts to the
identity exactly when `x ≡ y` modulo the order. -/
theorem C19_masked_equality (g : G) (q : Nat) (hqp : q.Prime) (hq : addOrderOf g = q)
    (k r s x y mask : Int) (hmask : ¬ (q : Int) ∣ mask) :
    decrypt (keyPair g k).2 (exp (mul (encrypt (keyPair g k).1 r y)
      (invert (encrypt (keyPair g k).1 s x))) mask) = 0 ↔ x ≡ y [ZMOD q] := by
  obtain ⟨h1, h2, h3, _⟩ := C16_homomorphic (G := G) (keyPair g k).2 mask
    (mul (encrypt (keyPair g k).1 r y) (invert (encrypt (keyPair g k).1 s x))) zero
  rw [h2, (C16_homomorphic _ mask _ _).1, (C16_homomorphic _ mask _ zero).2.2.1,
    C16_decrypt_encrypt_exp, C16_decrypt_encrypt_exp]
  have : mask • (y • g + -(x • g)) = (mask * (y - x)) • g := by module
  rw [this, zsmul_eq_zero_iff hq, Int.modEq_iff_dvd]
  constructor
  · intro h
    rcases (Nat.prime_iff_prime_int.1 hqp).dvd_or_dvd h with h | h
    · exact absurd h hmask
    · exact h
  · intro h; exact Dvd.dvd.mul_left h _

/-- **C19** For elements below the group order there are neither false positives nor false
negatives. -/
theorem C19_exact (g : G) (q : Nat) (hqp : q.Prime) (hq : addOrderOf g = q)
    (k r s mask : Int) (hmask : ¬ (q : Int) ∣ mask) (x y : Nat) (hx : x < q) (hy : y < q) :
    decrypt (keyPair g k).2 (exp (mul (encrypt (keyPair g k).1 r y)
      (invert (encrypt (keyPair g k).1 s x))) mask) = 0 ↔ x = y := by
  rw [C19_masked_equality g q hqp hq k r s x y mask hmask, Int.natCast_modEq_iff]
  constructor
  · intro h; exact h.eq_of_lt_of_lt hx hy
  · rintro rfl; rfl

/-- **C19** A mask that is a multiple of the order (e.g. zero) flags every pair as equal. -/
theorem C19_zero_mask (g : G) (q : Nat) (hq : addOrderOf g = q)
    (k r s x y mask : Int) (hmask : (q : Int) ∣ mask) :
    decrypt (keyPair g k).2 (exp (mul (encrypt (keyPair g k).1 r y)
      (invert (encrypt (keyPair g k).1 s x))) mask) = 0 := by
  rw [(C16_homomorphic _ mask _ zero).2.1, (C16_homomorphic _ mask _ _).1,
    (C16_homomorphic _ mask _ zero).2.2.1, C16_decrypt_encrypt_exp, C16_decrypt_encrypt_exp]
  have : mask • (y • g + -(x • g)) = (mask * (y - x)) • g := by module
  rw [this, zsmul_eq_zero_iff hq]
  exact Dvd.dvd.mul_right hmask _

theorem addOrderOf_one_seven : addOrderOf (1 : ZMod 7) = 7 := ZMod.addOrderOf_one 7

example : decrypt (keyPair (1 : ZMod 7) 3).2 (exp (mul (encrypt (keyPair (1 : ZMod 7) 3).1 5 4)
    (invert (encrypt (keyPair (1 : ZMod 7) 3).1 2 4))) 6) = 0 ↔ 4 = 4 :=
  C19_exact (1 : ZMod 7) 7 (by decide) addOrderOf_one_seven 3 5 2 6 (by decide) 4 4 (by decide) (by decide)

/-! ### C20 -/

theorem findExp_spec [DecidableEq G] (p : G) (table : List G) : ∀ i,
    (∃ j, table[j]? = some p ∧ (∀ k, k < j → table[k]? ≠ some p) ∧ findExp p i table = .ok (i + j)) ∨
    (p ∉ table ∧ ∃ m, findExp p i table = .err m) := by
  induction table with
  | nil => intro i; right; exact ⟨by simp, _, rfl⟩
  | cons t ts ih =>
    intro i
    by_cases h : p = t
    · left
      exact ⟨0, by simp [h], by intro k hk; omega, by simp [findExp, h]⟩
    · rcases ih (i + 1) with ⟨j, h1, h2, h3⟩ | ⟨h1, m, h2⟩
      · left
        refine ⟨j + 1, by simpa using h1, ?_, ?_⟩
        · intro k hk
          cases k with
          | zero => simp [Ne.symm h]
          | succ k => simpa using h2 k (by omega)
        · simp only [findExp, if_neg h, h3]; congr 1; omega
      · right
        exact ⟨by simp [h, h1], m, by simp only [findExp, if_neg h, h2]⟩

/-- **C20** With a non-empty table not longer than the group order, exponential decryption of any
integer `m` under any coin returns `m mod q` exactly when that is below the limit, and an error
otherwise. -/
theorem C20_decrypt_exp [DecidableEq G] (g : G) (q : Nat) (hq : addOrderOf g = q)
    (limit : Nat) (hl0 : 0 < limit) (hl : limit ≤ q) (x r : Int) (m : Nat) :
    (m % q < limit → decryptExp x (initDecryptExp g limit) (encrypt (keyPair g x).1 r m) = .ok (m % q)) ∧
    (limit ≤ m % q → ∃ msg, decryptExp x (initDecryptExp g limit) (encrypt (keyPair g x).1 r m) = .err msg) := by
  have hdec : decrypt x (encrypt (keyPair g x).1 r m) = (m : Int) • g := C16_decrypt_encrypt_exp g x r m
  have hlen : (initDecryptExp g limit).length = limit := by simp [initDecryptExp]
  have hget : ∀ j, (initDecryptExp g limit)[j]? = some ((m : Int) • g) ↔ j < limit ∧ j = m % q := by
    intro j
    by_cases hj : j < limit
    · have : (initDecryptExp g limit)[j]? = some ((j : Int) • g) := by
        simp [initDecryptExp, List.getElem?_range hj]
      rw [this, Option.some.injEq, ← sub_eq_zero, ← sub_smul, zsmul_eq_zero_iff hq]
      constructor
      · intro h
        refine ⟨hj, ?_⟩
        have h' : (m : Int) ≡ j [ZMOD q] := Int.modEq_iff_dvd.2 h
        rw [Int.natCast_modEq_iff] at h'
        have h'' : m % q = j % q := h'
        rw [h'', Nat.mod_eq_of_lt (by omega)]
      · rintro ⟨_, rfl⟩
        have : (m : Int) ≡ (m % q : Nat) [ZMOD q] := by
          rw [Int.natCast_modEq_iff]; exact (Nat.mod_modEq m q).symm
        exact this.dvd
    · constructor
      · intro h
        rw [List.getElem?_eq_none (by omega)] at h
        simp at h
      · rintro ⟨h, _⟩; omega
  unfold decryptExp
  rw [if_neg (by omega), hdec]
  rcases findExp_spec ((m : Int) • g) (initDecryptExp g limit) 0 with ⟨j, h1, h2, h3⟩ | ⟨h1, msg, h2⟩
  · obtain ⟨a, b⟩ := (hget j).1 h1
    refine ⟨fun _ => by rw [h3, b]; simp, fun h => by omega⟩
  · refine ⟨fun h => ?_, fun _ => ⟨msg, h2⟩⟩
    exact absurd (List.mem_of_getElem? ((hget (m % q)).2 ⟨h, rfl⟩)) h1

/-- **C20** For messages below the order: exact below the limit, an error from the limit on; never
a wrong number. -/
theorem C20_exact_or_error [DecidableEq G] (g : G) (q : Nat) (hq : addOrderOf g = q)
    (limit : Nat) (hl0 : 0 < limit) (hl : limit ≤ q) (x r : Int) (m : Nat) (hm : m < q) :
    (m < limit → decryptExp x (initDecryptExp g limit) (encrypt (keyPair g x).1 r m) = .ok m) ∧
    (limit ≤ m → ∃ msg, decryptExp x (initDecryptExp g limit) (encrypt (keyPair g x).1 r m) = .err msg) := by
  have := C20_decrypt_exp g q hq limit hl0 hl x r m
  rwa [Nat.mod_eq_of_lt hm] at this

/-- **C20** Without initialisation every decryption is an error. -/
theorem C20_uninitialised [DecidableEq G] (x : Int) (c : Ct G) : ∃ msg, decryptExp x [] c = .err msg :=
  ⟨_, rfl⟩

example : decryptExp 3 (initDecryptExp (1 : ZMod 7) 5) (encrypt (keyPair (1 : ZMod 7) 3).1 2 4) = .ok 4 := by
  decide
example : (0 : Nat) < 5 ∧ 5 ≤ 7 ∧ addOrderOf (1 : ZMod 7) = 7 := ⟨by decide, by decide, addOrderOf_one_seven⟩

/-! ### C29 -/

/-- **C29** Wire round trip: a ciphertext with two affine components is returned unchanged; if a
component is the point at infinity the sender reports an error (so nothing is sent). -/
theorem C29_wire [DecidableEq G] (c : Codec G) (x : Ct G) :
    (x.u ≠ 0 ∧ x.e ≠ 0 → ∃ p, serializeCt c x = .ok p ∧ deserializeCt c p = .ok x) ∧
    (x.u = 0 ∨ x.e = 0 → ∃ m, serializeCt c x = .err m) := by
  constructor
  · rintro ⟨h1, h2⟩
    refine ⟨⟨c.enc x.u, c.enc x.e⟩, by simp [serializeCt, pointToBytes, h1, h2], ?_⟩
    simp [deserializeCt, createECPoint, c.dec_enc _ h1, c.dec_enc _ h2, h1, h2]
  · intro h
    by_cases hu : x.u = 0
    · exact ⟨_, by simp [serializeCt, pointToBytes, hu]; rfl⟩
    · have he : x.e = 0 := by
        rcases h with h | h
        · exact absurd h hu
        · exact h
      exact ⟨_, by simp [serializeCt, pointToBytes, hu, he]; rfl⟩

/-- **C29** Deserialization of *any* bytes never yields a ciphertext with a component at infinity. -/
theorem C29_no_infinity [DecidableEq G] (c : Codec G) (p : CtProto) (x : Ct G)
    (h : deserializeCt c p = .ok x) : x.u ≠ 0 ∧ x.e ≠ 0 := by
  simp only [deserializeCt, Outcome.bind_eq_ok, Outcome.pure_eq, Outcome.ok.injEq] at h
  obtain ⟨u, h1, e, h2, rfl⟩ := h
  have key : ∀ b p, createECPoint c b = .ok p → p ≠ 0 := by
    intro b p hp
    unfold createECPoint at hp
    split at hp
    · simp at hp
    · split at hp
      · simp at hp
      · simp only [Outcome.ok.injEq] at hp; subst hp; assumption
  exact ⟨key _ _ h1, key _ _ h2⟩

/-- A codec for the toy group. -/
def toyCodec : Codec (ZMod 7) where
  enc p := [UInt8.ofNat p.val]
  dec b := match b with
    | [n] => if n.toNat < 7 then some (n.toNat : ZMod 7) else none
    | _ => none
  dec_enc := by decide

example : serializeCt toyCodec ⟨3, 5⟩ = .ok ⟨[3], [5]⟩ ∧ deserializeCt toyCodec ⟨[3], [5]⟩ = .ok ⟨3, 5⟩ := by
  decide
example : ∃ m, serializeCt toyCodec ⟨3, 0⟩ = .err m := (C29_wire toyCodec ⟨3, 0⟩).2 (Or.inr rfl)

/-! ### `exponentiate` -/

/-- `exponentiate(group, m)` is documented as `g^m` but always yields the point at infinity. -/
theorem exponentiate_always_infinity (m : Int) : (exponentiate m : G) = 0 := by simp [exponentiate]

end Upsi.ElGamal
