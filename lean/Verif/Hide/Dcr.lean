import Verif.Hide.Ddh
import Verif.Paillier.Rand
/-
The decisional composite residuosity experiment, and what encryptions with a private Paillier key look like in it (C81).
-/
namespace Upsi.Hide
open Upsi Upsi.Num Upsi.Paillier Upsi.View

/-- A distinguisher (with coins `Ω`) on `n`-th residues modulo `n^2`. -/
def dcrReal (n : Nat) [NeZero n] {Ω : Type} [Fintype Ω] (R : Ω → (ZMod (n ^ 2))ˣ → Bool) : ℚ :=
  prob (fun x : (ZMod (n ^ 2))ˣ × Ω => R x.2 (x.1 ^ n))

/-- The distinguisher on random units modulo `n^2`. -/
def dcrRand (n : Nat) [NeZero n] {Ω : Type} [Fintype Ω] (R : Ω → (ZMod (n ^ 2))ˣ → Bool) : ℚ :=
  prob (fun x : (ZMod (n ^ 2))ˣ × Ω => R x.2 x.1)

/-- The advantage of a distinguisher of `n`-th residues. -/
def dcrAdv (n : Nat) [NeZero n] {Ω : Type} [Fintype Ω] (R : Ω → (ZMod (n ^ 2))ˣ → Bool) : ℚ := |dcrReal n R - dcrRand n R|

/-- The distinguisher number `k` made of an experiment on `N` units: random units up to `k`, the challenge as unit `k`,
`n`-th powers of random units after `k`. -/
def dcrReduction (n : Nat) {N : Nat} (V : (Fin N → (ZMod (n ^ 2))ˣ) → Bool) (k : Fin N) (ω : Fin N → (ZMod (n ^ 2))ˣ)
    (c : (ZMod (n ^ 2))ˣ) : Bool :=
  V (fun j => if j < k then ω j else if j = k then c else ω j ^ n)

/-- `1 + n` modulo `n^2`. -/
def gen (n : Nat) : (ZMod (n ^ 2))ˣ where
  val := 1 + n
  inv := 1 - n
  val_inv := by
    have : (n : ZMod (n ^ 2)) ^ 2 = 0 := by exact_mod_cast ZMod.natCast_self (n ^ 2)
    linear_combination -this
  inv_val := by
    have : (n : ZMod (n ^ 2)) ^ 2 = 0 := by exact_mod_cast ZMod.natCast_self (n ^ 2)
    linear_combination -this

/-! ### proofs -/

section hybrid
variable {H : Type} [CommGroup H] [Fintype H]

/-- Random units up to `k` only. -/
def hybridR (n : Nat) {N : Nat} (V : (Fin N → H) → Bool) (k : Nat) : ℚ :=
  prob (fun x : Fin N → H => V (fun j => if j.val < k then x j else x j ^ n))

theorem prob_update' {B : Type} [Fintype B] [Nonempty B] {N : Nat} (k : Fin N) (f : (Fin N → B) → Bool) :
    prob (fun x : B × (Fin N → B) => f (Function.update x.2 k x.1)) = prob f := by
  let e : B × (Fin N → B) ≃ (Fin N → B) × B :=
    { toFun := fun x => (Function.update x.2 k x.1, x.2 k)
      invFun := fun y => (y.1 k, Function.update y.1 k y.2)
      left_inv := fun x => by simp
      right_inv := fun y => by simp }
  rw [← prob_snd (B := B) f]
  exact prob_equiv e (fun y => f y.1)

end hybrid

theorem dcr_real {n : Nat} [NeZero n] {N : Nat} (V : (Fin N → (ZMod (n ^ 2))ˣ) → Bool) (k : Fin N) :
    dcrReal n (dcrReduction n V k) = hybridR n V k.val := by
  rw [dcrReal, hybridR, ← prob_update' k]
  congr 1
  funext x
  simp only [dcrReduction]
  congr 1
  funext j
  rcases lt_trichotomy j k with h | h | h
  · rw [if_pos h, if_pos (by exact h), Function.update_of_ne (ne_of_lt h)]
  · subst h
    rw [if_neg (lt_irrefl _), if_pos rfl, if_neg (lt_irrefl _), Function.update_self]
  · rw [if_neg (not_lt_of_gt h), if_neg (ne_of_gt h), if_neg (not_lt_of_gt (show k.val < j.val from h)), Function.update_of_ne (ne_of_gt h)]

theorem dcr_rand {n : Nat} [NeZero n] {N : Nat} (V : (Fin N → (ZMod (n ^ 2))ˣ) → Bool) (k : Fin N) :
    dcrRand n (dcrReduction n V k) = hybridR n V (k.val + 1) := by
  rw [dcrRand, hybridR, ← prob_update' k]
  congr 1
  funext x
  simp only [dcrReduction]
  congr 1
  funext j
  rcases lt_trichotomy j k with h | h | h
  · rw [if_pos h, if_pos (by have : j.val < k.val := h; omega), Function.update_of_ne (ne_of_lt h)]
  · subst h
    rw [if_neg (lt_irrefl _), if_pos rfl, if_pos (by omega), Function.update_self]
  · rw [if_neg (not_lt_of_gt h), if_neg (ne_of_gt h), if_neg (by have : k.val < j.val := h; omega), Function.update_of_ne (ne_of_gt h)]

/-- Replacing `n`-th residues by random units changes an experiment by at most the advantages of the distinguishers. -/
theorem dcr_bound {n : Nat} [NeZero n] {N : Nat} (V : (Fin N → (ZMod (n ^ 2))ˣ) → Bool) :
    |prob (fun x : Fin N → (ZMod (n ^ 2))ˣ => V (fun j => x j ^ n)) - prob V| ≤ ∑ k, dcrAdv n (dcrReduction n V k) := by
  have key : ∀ m, m ≤ N → |hybridR n V 0 - hybridR n V m| ≤
      ∑ k ∈ Finset.univ.filter (fun k : Fin N => k.val < m), dcrAdv n (dcrReduction n V k) := by
    intro m
    induction m with
    | zero => intro _; simp
    | succ m ih =>
      intro hm
      have hsplit : (Finset.univ.filter (fun k : Fin N => k.val < m + 1)) =
          insert (⟨m, by omega⟩ : Fin N) (Finset.univ.filter (fun k : Fin N => k.val < m)) := by
        ext k
        simp only [Finset.mem_filter, Finset.mem_univ, true_and, Finset.mem_insert, Fin.ext_iff]
        omega
      rw [hsplit, Finset.sum_insert (by simp)]
      have h1 := ih (by omega)
      have h2 : dcrAdv n (dcrReduction n V ⟨m, by omega⟩) = |hybridR n V m - hybridR n V (m + 1)| := by
        rw [dcrAdv, dcr_real, dcr_rand]
      rw [h2]
      calc |hybridR n V 0 - hybridR n V (m + 1)|
          = |(hybridR n V 0 - hybridR n V m) + (hybridR n V m - hybridR n V (m + 1))| := by ring_nf
        _ ≤ |hybridR n V 0 - hybridR n V m| + |hybridR n V m - hybridR n V (m + 1)| := abs_add_le _ _
        _ ≤ _ := by rw [add_comm]; exact add_le_add_right h1 _
  have h := key N le_rfl
  have h0 : hybridR n V 0 = prob (fun x : Fin N → (ZMod (n ^ 2))ˣ => V (fun j => x j ^ n)) := by
    simp only [hybridR, Nat.not_lt_zero, if_false]
  have hN : hybridR n V N = prob V := by
    simp only [hybridR, Fin.is_lt, if_true]
  rw [h0, hN] at h
  simpa using h

/-- Random units stay random when each is multiplied by a fixed unit. -/
theorem dcr_shift {H : Type} [CommGroup H] [Fintype H] {N : Nat} (V : (Fin N → H) → Bool) (m : Fin N → H) :
    prob (fun x : Fin N → H => V (fun k => m k * x k)) = prob V :=
  prob_equiv (Equiv.piCongrRight (fun k => Equiv.mulLeft (m k))) V

/-- Values that take each `n`-th power exactly once are as good as `n`-th powers of random elements. -/
theorem prob_residues {H A : Type} [CommGroup H] [Fintype H] [Fintype A] {n N : Nat} (z : A → H) (h1 : ∀ a, ∃ r, z a = r ^ n)
    (h2 : ∀ r, ∃! a, z a = r ^ n) (V : (Fin N → H) → Bool) :
    prob (fun x : Fin N → A => V (fun k => z (x k))) = prob (fun x : Fin N → H => V (fun k => x k ^ n)) := by
  classical
  choose σ hσ using h1
  choose φ hφ hφu using h2
  simp only at hφ hφu
  let K := {k : H // k ^ n = 1}
  have : Nonempty K := ⟨⟨1, one_pow n⟩⟩
  let e : H ≃ A × K :=
    { toFun := fun r => (φ r, ⟨r / σ (φ r), by rw [div_pow, ← hσ, hφ, div_self']⟩)
      invFun := fun x => x.2.1 * σ x.1
      left_inv := fun r => by simp
      right_inv := fun x => by
        have hx : φ (x.2.1 * σ x.1) = x.1 := (hφu _ x.1 (by rw [mul_pow, x.2.2, one_mul, hσ])).symm
        ext
        · exact hx
        · simp [hx] }
  have hz : ∀ r, r ^ n = z (e r).1 := fun r => (hφ r).symm
  let E : (Fin N → H) ≃ (Fin N → A) × (Fin N → K) :=
    (Equiv.piCongrRight (fun _ => e)).trans (Equiv.arrowProdEquivProdArrow _ _ _)
  rw [← prob_snd (B := Fin N → K) (fun x : Fin N → A => V (fun k => z (x k))), ← prob_equiv E]
  congr 1
  funext x
  congr 1
  funext k
  exact (hz (x k)).symm

/-- A number with a unit as residue. -/
theorem unit_of_gcd {n : Nat} {c : Int} (h : Int.gcd c n = 1) : ∃ u : (ZMod (n ^ 2))ˣ, (u : ZMod (n ^ 2)) = (c : ZMod (n ^ 2)) := by
  have hc : IsCoprime c ((n ^ 2 : Nat) : Int) := by
    push_cast
    exact (Int.isCoprime_iff_gcd_eq_one.2 h).pow_right
  obtain ⟨a, b, hab⟩ := hc
  have h1 : (a : ZMod (n ^ 2)) * (c : ZMod (n ^ 2)) = 1 := by
    have := congrArg (Int.cast : Int → ZMod (n ^ 2)) hab
    push_cast at this
    have hn : (n : ZMod (n ^ 2)) ^ 2 = 0 := by exact_mod_cast ZMod.natCast_self (n ^ 2)
    rw [hn, mul_zero, add_zero] at this
    exact this
  exact ⟨⟨c, a, by rw [mul_comm]; exact h1, h1⟩, rfl⟩

/-- The least non-negative number with the residue of a unit, as a `BigNum`. -/
def rep {n : Nat} (u : (ZMod (n ^ 2))ˣ) : Int := ((u : ZMod (n ^ 2)).val : Int)

theorem rep_cast {n : Nat} [NeZero n] (u : (ZMod (n ^ 2))ˣ) : ((rep u : Int) : ZMod (n ^ 2)) = u := by
  rw [rep, Int.cast_natCast, ZMod.natCast_zmod_val]

theorem rep_eq {n : Nat} [NeZero n] {u : (ZMod (n ^ 2))ˣ} {c : Int} (h0 : 0 ≤ c) (h1 : c < (n : Int) ^ 2)
    (h : (u : ZMod (n ^ 2)) = (c : ZMod (n ^ 2))) : rep u = c := by
  obtain ⟨k, rfl⟩ := Int.eq_ofNat_of_zero_le h0
  rw [rep, h, Int.cast_natCast, ZMod.val_natCast, Nat.mod_eq_of_lt (by exact_mod_cast h1)]

/-- Encryption with the private key multiplies a power of `1 + n` by a unit which depends on the coins only; the pairs of
coins give each `n`-th power exactly once. -/
theorem private_residues {p q tries : Nat} (h : SafePrimes p q 1) [NeZero (p * q)] {mont : Int → Option Mont} (hm : MontOK mont)
    {sk : Private} (hsk : Private.new tries p q 1 = .ok sk) :
    ∃ z : Fin (p - 1) × Fin (q - 1) → (ZMod ((p * q) ^ 2))ˣ, (∀ a, ∃ r, z a = r ^ (p * q)) ∧ (∀ r, ∃! a, z a = r ^ (p * q)) ∧
      ∀ a (m : Nat), m < p * q → sk.encrypt mont m (maskOf a.1) (maskOf a.2) = .ok (rep (gen (p * q) ^ m * z a)) := by
  have hk := private_new h.toPrimes hsk
  have hpp : 0 < (p : Int) ^ (1 + 1) := pow_pos (by have := h.p5; omega) _
  have hqp : 0 < (q : Int) ^ (1 + 1) := pow_pos (by have := h.q5; omega) _
  have hn0 : 0 < p * q := Nat.mul_pos h.hp.pos h.hq.pos
  have hpos : ∀ {k : Nat} (i : Fin (k - 1)), 1 ≤ maskOf i ∧ maskOf i < k := by
    intro k i
    have := i.2
    simp only [maskOf]; omega
  have hcast : ∀ x y : Int, x ≡ y [ZMOD ((p * q : Nat) : Int) ^ (1 + 1)] ↔ ((x : Int) : ZMod ((p * q) ^ 2)) = (y : Int) := by
    intro x y
    rw [ZMod.intCast_eq_intCast_iff]; push_cast; rfl
  -- every encryption
  have henc : ∀ (a : Fin (p - 1) × Fin (q - 1)) (m : Nat), m < p * q → ∃ c, sk.encrypt mont m (maskOf a.1) (maskOf a.2) = .ok c ∧
      IsEnc (p * q) 1 c m ∧ c ≡ (1 + ((p * q : Nat) : Int)) ^ m * sk.pc.gpn ^ (maskOf a.1).toNat [ZMOD (p : Int) ^ (1 + 1)] ∧
      c ≡ (1 + ((p * q : Nat) : Int)) ^ m * sk.qc.gpn ^ (maskOf a.2).toNat [ZMOD (q : Int) ^ (1 + 1)] := by
    intro a m hlt
    obtain ⟨a1, -⟩ := hpos a.1
    obtain ⟨a2, -⟩ := hpos a.2
    obtain ⟨c, hc, hE⟩ := C22_private_encrypt h.toPrimes hm hk m (by rw [pow_one]; exact hlt) (maskOf a.1) (maskOf a.2) (by omega) (by omega)
    refine ⟨c, hc, hE, ?_⟩
    obtain ⟨t, ht, htc⟩ := C24_crt _ _ hpp hqp (h.toPrimes.crt (1 + 1))
    obtain rfl : t = sk.crtEnc := Outcome.ok.inj (ht.symm.trans hk.crtEnc)
    have hlt' : ¬ ((m : Int) ≥ ((p * q : Nat) : Int) ^ 1) := by
      rw [pow_one]
      have : (m : Int) < ((p * q : Nat) : Int) := by exact_mod_cast hlt
      omega
    rw [Private.encrypt, if_neg (by omega), hk.ns, if_neg hlt', prime_encrypt_eq h.toPrimes hm hk.pc m _ (by omega),
      prime_encrypt_eq h.toPrimes.swap hm hk.qc m _ (by omega), Outcome.bind_ok, Outcome.bind_ok] at hc
    obtain ⟨x, hx, ⟨-, -, xp, xq⟩, -⟩ := htc ((1 + ((p * q : Nat) : Int)) ^ m * sk.pc.gpn ^ (maskOf a.1).toNat % (p : Int) ^ (1 + 1))
      ((1 + ((q * p : Nat) : Int)) ^ m * sk.qc.gpn ^ (maskOf a.2).toNat % (q : Int) ^ (1 + 1))
    obtain rfl : x = c := Outcome.ok.inj (hx.symm.trans hc)
    refine ⟨xp.trans (Int.mod_modEq _ _), ?_⟩
    rw [mul_comm p q]
    exact xq.trans (Int.mod_modEq _ _)
  -- encryptions of zero
  have hz0 : ∀ a : Fin (p - 1) × Fin (q - 1), ∃ z : (ZMod ((p * q) ^ 2))ˣ, (∃ r, z = r ^ (p * q)) ∧
      sk.encrypt mont 0 (maskOf a.1) (maskOf a.2) = .ok (rep z) := by
    intro a
    obtain ⟨c, hc, ⟨c0, c1, u, hu, e⟩, -⟩ := henc a 0 hn0
    obtain ⟨r, hr⟩ := unit_of_gcd hu
    refine ⟨r ^ (p * q), ⟨r, rfl⟩, ?_⟩
    rw [rep_eq c0 c1]
    · exact_mod_cast hc
    · rw [(hcast _ _).1 e]
      push_cast
      rw [hr]; ring
  choose z hzr hz using hz0
  have hzm : ∀ a (m : Nat), m < p * q → sk.encrypt mont m (maskOf a.1) (maskOf a.2) = .ok (rep (gen (p * q) ^ m * z a)) := by
    intro a m hlt
    obtain ⟨c, hc, ⟨c0, c1, -⟩, cp, cq⟩ := henc a m hlt
    obtain ⟨d, hd, -, dp, dq⟩ := henc a 0 hn0
    obtain rfl : d = rep (z a) := Outcome.ok.inj (hd.symm.trans (by exact_mod_cast hz a))
    rw [hc]
    refine congrArg Outcome.ok (rep_eq c0 c1 ?_).symm
    have hcd : c ≡ (1 + ((p * q : Nat) : Int)) ^ m * rep (z a) [ZMOD ((p * q : Nat) : Int) ^ (1 + 1)] := by
      rw [h.toPrimes.modEq_iff]
      rw [pow_zero, one_mul] at dp dq
      exact ⟨cp.trans (dp.symm.mul_left _), cq.trans (dq.symm.mul_left _)⟩
    rw [(hcast _ _).1 hcd]
    push_cast [rep_cast]
    rw [gen]
    push_cast
    rfl
  refine ⟨z, hzr, fun r => ?_, hzm⟩
  have hE : IsEnc (p * q) 1 (rep (r ^ (p * q))) 0 := by
    refine ⟨Int.natCast_nonneg _, ?_, rep r, ?_, ?_⟩
    · have := ZMod.val_lt ((r ^ (p * q) : (ZMod ((p * q) ^ 2))ˣ) : ZMod ((p * q) ^ 2))
      rw [rep]; exact_mod_cast this
    · have := ZMod.val_coe_unit_coprime r
      rw [rep, Int.gcd_natCast_natCast]
      exact Nat.Coprime.coprime_dvd_right (dvd_pow_self _ (by omega)) this
    · rw [hcast]
      push_cast [rep_cast]
      ring
  obtain ⟨rp, rq, ⟨p1, p2, q1, q2, he⟩, hu⟩ := C69_private_uniform h hm hsk 0 (by rw [pow_one]; exact hn0) hE
  have hmask : ∀ {k : Nat} {x : Int} (h1 : 1 ≤ x) (h2 : x < k), maskOf (⟨(x - 1).toNat, by omega⟩ : Fin (k - 1)) = x := by
    intro k x h1 h2
    simp only [maskOf]; omega
  have hinj : ∀ u v : (ZMod ((p * q) ^ 2))ˣ, rep u = rep v → u = v := by
    intro u v huv
    have := congrArg (Int.cast : Int → ZMod ((p * q) ^ 2)) huv
    rw [rep_cast, rep_cast] at this
    exact Units.ext this
  refine ⟨(⟨(rp - 1).toNat, by omega⟩, ⟨(rq - 1).toNat, by omega⟩), ?_, ?_⟩
  · have := hz (⟨(rp - 1).toNat, by omega⟩, ⟨(rq - 1).toNat, by omega⟩)
    simp only [hmask p1 p2, hmask q1 q2] at this
    exact hinj _ _ (Outcome.ok.inj (this.symm.trans (by exact_mod_cast he)))
  · intro a ha
    have h1 := hz a
    rw [ha] at h1
    obtain ⟨e1, e2⟩ := hu _ _ (hpos a.1).1 (hpos a.1).2 (hpos a.2).1 (hpos a.2).2 (by exact_mod_cast h1)
    refine Prod.ext (Fin.ext ?_) (Fin.ext ?_)
    · simp only [maskOf] at e1; simp only; omega
    · simp only [maskOf] at e2; simp only; omega

end Upsi.Hide
