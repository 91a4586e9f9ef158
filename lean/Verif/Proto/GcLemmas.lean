import Verif.Proto.ShareProps
import Verif.Proto.SSProps
import Verif.Proto.AddCore
import Verif.Tree.DeletionProps
/- Helper lemmas for C46, C47: one message round and one circuit phase. -/
namespace Upsi.Proto
open Upsi Upsi.Tree Upsi.Num Upsi.Paillier

/-! ### Paillier ciphertexts of signed messages -/

/-- `c` encrypts the signed message `m` modulo `n`. -/
def PEnc (n : Nat) (c m : Int) : Prop := ∃ k : Nat, IsEnc n 1 c k ∧ (k : Int) ≡ m [ZMOD n]

/-- A matching pair of a public and a private key object for the distinct primes `p`, `q`. -/
structure KeyPair (p q : Nat) (mont : Int → Option Mont) (pk : Public) (sk : Private) : Prop where
  primes : Primes p q 1
  mont : MontOK mont
  pub : PublicOK (p * q) 1 pk
  priv : PrivateOK p q 1 sk

theorem Primes.n_pos {p q s : Nat} (h : Primes p q s) : 0 < p * q := Nat.mul_pos h.hp.pos h.hq.pos

theorem PEnc.congr {n : Nat} {c m m' : Int} (h : PEnc n c m) (hm : m ≡ m' [ZMOD n]) : PEnc n c m' := by
  obtain ⟨k, h1, h2⟩ := h
  exact ⟨k, h1, h2.trans hm⟩

theorem PEnc.bounds {n : Nat} {c m : Int} (h : PEnc n c m) : 0 ≤ c ∧ c < (n : Int) ^ 2 := by
  obtain ⟨k, h1, _⟩ := h
  exact ⟨h1.1, h1.2.1⟩

variable {p q : Nat} {mont : Int → Option Mont} {pk : Public} {sk : Private}

theorem KeyPair.enc_pub (K : KeyPair p q mont pk sk) {m r c : Int} (h : pk.encrypt mont m r = .ok c) :
    PEnc (p * q) c m := by
  obtain ⟨h0, _, h1⟩ := Paillier'.encrypt_inv K.primes K.mont K.pub h
  exact ⟨m.toNat, h1, by rw [Int.toNat_of_nonneg h0]⟩

theorem prime_encrypt_neg {p q : Nat} {k : Prime} (_hk : PrimeOK p q 1 k) {m r c : Int} (hr : r < 0)
    (h : k.encrypt mont m r = .ok c) : False := by
  simp only [Prime.encrypt, Outcome.bind_eq_ok] at h
  obtain ⟨_, _, _, _, g, hg, _⟩ := h
  obtain ⟨msg, hm⟩ := C25_negative (mont _) k.gpn _ r hr
  rw [hm] at hg; simp at hg

theorem KeyPair.enc_priv (K : KeyPair p q mont pk sk) {m rp rq c : Int}
    (h : sk.encrypt mont m rp rq = .ok c) : PEnc (p * q) c m := by
  by_cases hr : m < 0 ∨ ((p * q : Nat) : Int) ^ 1 ≤ m
  · obtain ⟨msg, hmsg⟩ := (C21_private_rejects (mont := mont) K.priv m rp rq).1 hr
    rw [hmsg] at h; simp at h
  · rw [pow_one] at hr
    push Not at hr
    have hm' : ((m.toNat : Nat) : Int) = m := Int.toNat_of_nonneg hr.1
    have h' := h
    rw [Private.encrypt, if_neg (by omega), K.priv.ns, pow_one, if_neg (by omega)] at h'
    simp only [Outcome.bind_eq_ok] at h'
    obtain ⟨a, ha, b, hb, _⟩ := h'
    have hrp : 0 ≤ rp := by
      by_contra hneg
      exact prime_encrypt_neg K.priv.pc (by omega) ha
    have hrq : 0 ≤ rq := by
      by_contra hneg
      exact prime_encrypt_neg K.priv.qc (by omega) hb
    obtain ⟨c', h1, h2⟩ := C22_private_encrypt K.primes K.mont K.priv m.toNat (by rw [pow_one]; omega) rp rq hrp hrq
    rw [hm', h, Outcome.ok.injEq] at h1
    subst h1
    exact ⟨m.toNat, h2, by rw [hm']⟩

theorem KeyPair.add (K : KeyPair p q mont pk sk) {a b c m m' : Int} (ha : PEnc (p * q) a m)
    (hb : PEnc (p * q) b m') (h : pk.add a b = .ok c) : PEnc (p * q) c (m + m') := by
  obtain ⟨k, h1, h2⟩ := ha
  obtain ⟨k', h1', h2'⟩ := hb
  obtain ⟨c', e, he⟩ := C21_add (Primes.n_pos K.primes) K.pub h1 h1'
  rw [h, Outcome.ok.injEq] at e
  subst e
  exact ⟨k + k', he, by push_cast; exact h2.add h2'⟩

theorem KeyPair.mul (K : KeyPair p q mont pk sk) {a c m t : Int} (ha : PEnc (p * q) a m)
    (h : pk.multiply a t = .ok c) : PEnc (p * q) c (m * t) := by
  obtain ⟨k, h1, h2⟩ := ha
  have ht : 0 ≤ t := by
    by_contra hneg
    rw [Public.multiply, modExp, if_pos (by omega)] at h
    simp at h
  obtain ⟨c', e, he⟩ := C21_multiply (Primes.n_pos K.primes) K.pub h1 t.toNat
  rw [Int.toNat_of_nonneg ht, h, Outcome.ok.injEq] at e
  subst e
  exact ⟨k * t.toNat, he, by push_cast; rw [Int.toNat_of_nonneg ht]; exact h2.mul_right _⟩

theorem KeyPair.dec (K : KeyPair p q mont pk sk) {c m d : Int} (hc : PEnc (p * q) c m)
    (h : sk.decrypt c = .ok d) : d = m % ((p * q : Nat) : Int) := by
  obtain ⟨k, h1, h2⟩ := hc
  rw [C21_decrypt K.primes K.priv h1, Outcome.ok.injEq, pow_one] at h
  rw [← h, Int.natCast_emod]
  exact h2

/-! ### one circuit phase -/

theorem cntBlock_spec {n b : Nat} (h : cntBlock n = .ok b) : ((n : Int)) ^ 2 ≤ 2 ^ (128 * b) := by
  simp only [cntBlock, toBytes, Outcome.bind_eq_ok, Outcome.pure_eq, Outcome.ok.injEq] at h
  obtain ⟨bs, h1, h2⟩ := h
  rw [if_neg (by omega), Outcome.ok.injEq] at h1
  have hl : n < 256 ^ bs.length := (natBytes_length_le n bs.length).1 (by rw [← h1]; simp)
  have h3 : n ^ 2 ≤ (256 ^ bs.length) ^ 2 := Nat.pow_le_pow_left hl.le 2
  have h4 : (256 ^ bs.length) ^ 2 = 2 ^ (16 * bs.length) := by
    rw [show (256 : Nat) = 2 ^ 8 by norm_num, ← pow_mul, ← pow_mul]; congr 1; ring
  have h5 : 2 ^ (16 * bs.length) ≤ 2 ^ (128 * b) := Nat.pow_le_pow_right (by norm_num) (by omega)
  have : n ^ 2 ≤ 2 ^ (128 * b) := by omega
  exact_mod_cast this

/-- The hashed inputs of two numbers collide only if the numbers are equal. -/
def NoCollision (ro : List UInt8 → Nat) (pr : Int × Int) : Prop :=
  bigNum2bool ro pr.1 72 = bigNum2bool ro pr.2 72 → pr.1 = pr.2

theorem gcItem_spec (K : KeyPair p q mont pk sk) {ro : List UInt8 → Nat} {aliceSends : Bool} {blocks : Nat}
    (hb : cntBlock ((p * q : Nat) : Int) = .ok blocks) {ρ : GcCoins} {i : Nat} {x z y v : Int}
    (hc : NoCollision ro (x, y)) (hz : PEnc (p * q) z v) {u w : Int}
    (h : gcItem ro mont pk sk aliceSends blocks ρ i x z y = .ok (u, w)) :
    u + w ≡ (if x = y then v else 0) [ZMOD ((p * q : Nat) : Int)] := by
  simp only [gcItem, Outcome.bind_eq_ok, Outcome.pure_eq, Outcome.ok.injEq, Prod.mk.injEq] at h
  obtain ⟨bx, hx, bY, hy, enc, he, ifEq, hi, b0, hb0, b1, hb1, d, hd, rfl, rfl⟩ := h
  have hE := K.enc_pub he
  rw [K.pub.hn] at hE
  have hI := K.add hz hE hi
  have heq : decide (bx = bY) = decide (x = y) := by
    rw [decide_eq_decide]
    constructor
    · intro e; exact hc (by rw [hx, hy, e])
    · intro e; subst e; rw [hx] at hy; simpa using hy
  have hbl : ∀ (c m : Int) (bl : List UInt8), PEnc (p * q) c m → bigNum2block c blocks = .ok bl →
      ((block2BigNum bl blocks : Nat) : Int) = c := by
    intro c m bl hm hbl
    obtain ⟨l, u⟩ := hm.bounds
    obtain ⟨bl', e1, _, e2⟩ := C33_block_roundtrip c blocks l (lt_of_lt_of_le u (cntBlock_spec hb))
    rw [hbl, Outcome.ok.injEq] at e1
    subst e1
    exact e2
  -- what the receiver decrypts
  have hch : d = (if x = y then v + (((p * q : Nat) : Int) - ρ.beta i) else ((p * q : Nat) : Int) - ρ.beta i) %
      ((p * q : Nat) : Int) := by
    rw [heq] at hd
    by_cases hxy : x = y
    · simp only [hxy, decide_true, if_true] at hd ⊢
      cases hA : ρ.bit i <;> cases hS : aliceSends <;> rw [hA, hS] at hd <;> rw [hA, hS, heq] at hb0 hb1 <;>
        simp [hxy] at hd hb0 hb1
      all_goals first
        | (rw [hbl _ _ _ hI hb0] at hd; exact K.dec hI hd)
        | (rw [hbl _ _ _ hI hb1] at hd; exact K.dec hI hd)
    · simp only [hxy, decide_false, if_false] at hd ⊢
      cases hA : ρ.bit i <;> cases hS : aliceSends <;> rw [hA, hS] at hd <;> rw [hA, hS, heq] at hb0 hb1 <;>
        simp [hxy] at hd hb0 hb1
      all_goals first
        | (rw [hbl _ _ _ hE hb0] at hd; exact K.dec hE hd)
        | (rw [hbl _ _ _ hE hb1] at hd; exact K.dec hE hd)
  rw [hch]
  refine (Int.ModEq.add_left _ (Int.mod_modEq _ _)).trans ?_
  by_cases hxy : x = y
  · simp only [hxy, if_true]
    exact Int.modEq_iff_dvd.2 ⟨-1, by ring⟩
  · simp only [hxy, if_false]
    exact Int.modEq_iff_dvd.2 ⟨-1, by ring⟩

/-- What one comparison contributes: the item's plaintext if the two circuit inputs are equal. -/
def ItemVal (n : Nat) (w : Int) (pr : Item × Int) : Prop :=
  ∃ v, PEnc n pr.1.z v ∧ w = if pr.1.x = pr.2 then v else 0

/-- Circuit inputs (initiator's items and responder's values) whose contributions sum to `w`. -/
def GroupOK (n : Nat) (w : Int) (its : List Item) (ys : List Int) : Prop :=
  its.length = ys.length ∧ ∃ ws, List.Forall₂ (ItemVal n) ws (its.zip ys) ∧ ws.sum = w

theorem GroupOK.nil (n : Nat) : GroupOK n 0 [] [] := ⟨rfl, [], .nil, rfl⟩

theorem GroupOK.append {n : Nat} {w w' : Int} {its its' : List Item} {ys ys' : List Int}
    (h : GroupOK n w its ys) (h' : GroupOK n w' its' ys') : GroupOK n (w + w') (its ++ its') (ys ++ ys') := by
  obtain ⟨h1, ws, h2, rfl⟩ := h
  obtain ⟨h1', ws', h2', rfl⟩ := h'
  refine ⟨by simp [h1, h1'], ws ++ ws', ?_, by simp⟩
  rw [List.zip_append h1]
  exact List.rel_append h2 h2'

theorem gcLoop_spec (K : KeyPair p q mont pk sk) {ro : List UInt8 → Nat} {aliceSends : Bool} {blocks : Nat}
    (hb : cntBlock ((p * q : Nat) : Int) = .ok blocks) {ρ : GcCoins} (its : List Item) :
    ∀ (i : Nat) (ys ws : List Int) (a b a' b' : Int),
    (∀ pr ∈ List.zip (its.map Item.x) ys, NoCollision ro pr) → List.Forall₂ (ItemVal (p * q)) ws (its.zip ys) →
    gcLoop ro mont pk sk aliceSends blocks ρ i its ys a b = .ok (a', b') →
    a' + b' ≡ a + b + ws.sum [ZMOD ((p * q : Nat) : Int)] := by
  induction its with
  | nil =>
    intro i ys ws a b a' b' hc hw h
    cases ys with
    | nil =>
      simp only [gcLoop, Outcome.ok.injEq, Prod.mk.injEq] at h
      cases hw
      rw [h.1, h.2]; simp
    | cons y ys => simp [gcLoop] at h
  | cons it its ih =>
    intro i ys ws a b a' b' hc hw h
    cases ys with
    | nil => simp [gcLoop] at h
    | cons y ys =>
      simp only [gcLoop, Outcome.bind_eq_ok] at h
      obtain ⟨⟨u, v⟩, h1, h2⟩ := h
      simp only [List.zip_cons_cons] at hw
      cases hw with
      | @cons w _ ws _ hv hws =>
      obtain ⟨m, hm, rfl⟩ := hv
      have e1 := gcItem_spec K hb (hc (it.x, y) (by simp)) hm h1
      have e2 := ih _ _ _ _ _ _ _ (fun pr hpr => hc pr (by simp [hpr])) hws h2
      refine e2.trans ?_
      simp only [List.sum_cons]
      have := (e1.add_left (a + b)).add_right ws.sum
      refine Int.ModEq.trans ?_ (this.trans ?_)
      · rw [show a + u + (b + v) + ws.sum = a + b + (u + v) + ws.sum by ring]
      · rw [add_assoc (a + b)]

/-- The centered shares of a finished phase did not wrap. -/
def Phase.NoWrap (f : Phase) : Prop :=
  2 * |centered f.modulus f.sumS + centered f.modulus f.sumR| < f.modulus

theorem gcPhase_spec (K : KeyPair p q mont pk sk) {ro : List UInt8 → Nat} {aliceSends : Bool} {ρ : GcCoins}
    {its : List Item} {ys : List Int} {w : Int} (hg : GroupOK (p * q) w its ys) {f : Phase}
    (h : gcPhase ro mont pk sk aliceSends ρ its ys = .ok f) (hc : ∀ pr ∈ f.compared, NoCollision ro pr)
    (hw : f.NoWrap) (hs : 2 * |w| < ((p * q : Nat) : Int)) : f.sender + f.receiver = UInt64.ofInt w := by
  have hn : 0 < ((p * q : Nat) : Int) := by have := Primes.n_pos K.primes; omega
  simp only [gcPhase, Outcome.bind_eq_ok] at h
  obtain ⟨bs, h1, br, h2, h3⟩ := h
  rw [K.pub.hn] at h1
  split at h3
  · simp at h3
  · simp only [Outcome.bind_eq_ok, Outcome.pure_eq, Outcome.ok.injEq] at h3
    obtain ⟨⟨a, b⟩, hl, s, hS, r, hR, rfl⟩ := h3
    obtain ⟨_, ws, hws, rfl⟩ := hg
    have hsum := gcLoop_spec K h1 its 0 ys ws 0 0 a b hc hws hl
    simp only [zero_add] at hsum
    rw [K.pub.hn, C49_share_word _ _ hn, Outcome.ok.injEq] at hS
    rw [K.priv.ns, pow_one, C49_share_word _ _ hn, Outcome.ok.injEq] at hR
    subst hS; subst hR
    simp only
    rw [← UInt64.ofInt_add]
    congr 1
    simp only [Phase.NoWrap, K.pub.hn] at hw
    obtain ⟨k1, _, _⟩ := (C49_centered _ a hn _).1 rfl
    obtain ⟨j1, _, _⟩ := (C49_centered _ b hn _).1 rfl
    have hd : ((p * q : Nat) : Int) ∣ (centered ((p * q : Nat) : Int) a + centered ((p * q : Nat) : Int) b) - ws.sum := by
      have e1 := Int.modEq_iff_dvd.1 hsum.symm
      have := dvd_sub (dvd_sub e1 k1) j1
      obtain ⟨z, hz⟩ := this
      exact ⟨z, by linarith⟩
    obtain ⟨t, ht⟩ := hd
    have h1' := abs_lt.1 (show |centered ((p * q : Nat) : Int) a + centered ((p * q : Nat) : Int) b| < ((p * q : Nat) : Int) by linarith [abs_nonneg (centered ((p * q : Nat) : Int) a + centered ((p * q : Nat) : Int) b)])
    have ab1 := le_abs_self (centered ((p * q : Nat) : Int) a + centered ((p * q : Nat) : Int) b)
    have ab2 := neg_abs_le (centered ((p * q : Nat) : Int) a + centered ((p * q : Nat) : Int) b)
    have ab3 := le_abs_self ws.sum
    have ab4 := neg_abs_le ws.sum
    have : -1 < t := by nlinarith
    have : t < 1 := by nlinarith
    obtain rfl : t = 0 := by omega
    linarith

end Upsi.Proto
