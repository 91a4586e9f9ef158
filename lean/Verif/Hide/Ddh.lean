import Verif.View.Model
import Mathlib.Algebra.BigOperators.Fin
import Mathlib.Algebra.Order.BigOperators.Group.Finset
import Mathlib.Data.Rat.Cast.Order
import Mathlib.Data.Fintype.BigOperators
/-
The decisional Diffie-Hellman experiment, and the replacement of encryptions of zero by random pairs, one at a time
(C79).  Probabilities are exact: the share of the draws, all of which are equally likely.
-/
namespace Upsi.Hide
open Upsi Upsi.ElGamal Upsi.View

/-- The probability that a test of uniformly drawn coins says yes. -/
def prob {Ω : Type} [Fintype Ω] (f : Ω → Bool) : ℚ := (∑ ω, if f ω then 1 else 0) / (Fintype.card Ω : ℚ)

variable {G : Type} [AddCommGroup G]

/-- A distinguisher (with coins `Ω`) on Diffie-Hellman triples: `a•g`, `b•g`, `(a b)•g`, the exponents drawn as the code
draws keys and coins, from `[1, q - 1]`. -/
def ddhReal (g : G) (q : Nat) {Ω : Type} [Fintype Ω] (R : Ω → G → G → G → Bool) : ℚ :=
  prob (fun x : Fin (q - 1) × Fin (q - 1) × Ω =>
    R x.2.2 (maskOf x.1 • g) (maskOf x.2.1 • g) (maskOf x.2.1 • maskOf x.1 • g))

/-- The distinguisher on triples whose last member is random. -/
def ddhRand (g : G) (q : Nat) {Ω : Type} [Fintype Ω] (R : Ω → G → G → G → Bool) : ℚ :=
  prob (fun x : Fin (q - 1) × Fin (q - 1) × Fin q × Ω =>
    R x.2.2.2 (maskOf x.1 • g) (maskOf x.2.1 • g) ((x.2.2.1 : Int) • g))

/-- The advantage of a distinguisher of Diffie-Hellman triples. -/
def ddhAdv (g : G) (q : Nat) {Ω : Type} [Fintype Ω] (R : Ω → G → G → G → Bool) : ℚ := |ddhReal g q R - ddhRand g q R|

/-- Encryptions of zero under the joint key of the shares `X` (party zero) and `s` (party one), with coins `r`. -/
def zeros (g : G) (s : Int) {q n : Nat} (X : G) (r : Fin n → Fin (q - 1)) (k : Fin n) : Ct G :=
  ⟨maskOf (r k) • g, maskOf (r k) • (X + s • g)⟩

/-- Random pairs in their place. -/
def randoms (g : G) (s : Int) {q n : Nat} (r : Fin n → Fin (q - 1)) (t : Fin n → Fin q) (k : Fin n) : Ct G :=
  ⟨maskOf (r k) • g, ((t k : Nat) : Int) • g + s • maskOf (r k) • g⟩

/-- An experiment `V` that uses `n` encryptions of zero under the joint key. -/
def realGame (g : G) (q : Nat) (s : Int) {n : Nat} (V : G → (Fin n → Ct G) → Bool) : ℚ :=
  prob (fun x : Fin (q - 1) × (Fin n → Fin (q - 1)) => V (maskOf x.1 • g) (zeros g s (maskOf x.1 • g) x.2))

/-- The same experiment with random pairs. -/
def idealGame (g : G) (q : Nat) (s : Int) {n : Nat} (V : G → (Fin n → Ct G) → Bool) : ℚ :=
  prob (fun x : Fin (q - 1) × (Fin n → Fin (q - 1)) × (Fin n → Fin q) => V (maskOf x.1 • g) (randoms g s x.2.1 x.2.2))

/-- The distinguisher number `k`: it runs the experiment with the first member of the challenge as party zero's public
share, random pairs up to `k`, the challenge as pair `k`, and encryptions of zero with coins it draws after `k`. -/
def reduction (g : G) (q : Nat) (s : Int) {n : Nat} (V : G → (Fin n → Ct G) → Bool) (k : Fin n)
    (ω : (Fin n → Fin (q - 1)) × (Fin n → Fin q)) (X U Z : G) : Bool :=
  V X (fun j => if j < k then randoms g s ω.1 ω.2 j else if j = k then ⟨U, Z + s • U⟩ else zeros g s X ω.1 j)

/-! ### proofs -/

theorem prob_equiv {Ω Ω' : Type} [Fintype Ω] [Fintype Ω'] (e : Ω ≃ Ω') (f : Ω' → Bool) : prob (fun ω => f (e ω)) = prob f := by
  rw [prob, prob, Fintype.card_congr e, ← Equiv.sum_comp e]

/-- Coins that are not used can be left out. -/
theorem prob_snd {A B : Type} [Fintype A] [Fintype B] [Nonempty B] (f : A → Bool) : prob (fun x : A × B => f x.1) = prob f := by
  have hB : (Fintype.card B : ℚ) ≠ 0 := by exact_mod_cast Fintype.card_ne_zero
  rw [prob, prob, Fintype.sum_prod_type, Fintype.card_prod]
  have h : (∑ a : A, ∑ _b : B, (if f a then (1 : ℚ) else 0)) = Fintype.card B * ∑ a : A, (if f a then (1 : ℚ) else 0) := by
    rw [Finset.mul_sum]
    exact Finset.sum_congr rfl fun a _ => by rw [Finset.sum_const, Finset.card_univ, nsmul_eq_mul]
  show (∑ a : A, ∑ _b : B, (if f a then (1 : ℚ) else 0)) / _ = _
  rw [h, Nat.cast_mul, mul_comm (Fintype.card A : ℚ), mul_div_mul_left _ _ hB]

/-- A coin drawn separately. -/
theorem prob_update {A B : Type} [Fintype A] [Fintype B] {n : Nat} (k : Fin n) (f : A × (Fin n → B) → Bool) [Nonempty B] :
    prob (fun x : B × A × (Fin n → B) => f (x.2.1, Function.update x.2.2 k x.1)) = prob f := by
  -- swap the drawn coin with the one it replaces
  let e : B × A × (Fin n → B) ≃ (A × (Fin n → B)) × B :=
    { toFun := fun x => ((x.2.1, Function.update x.2.2 k x.1), x.2.2 k)
      invFun := fun y => (y.1.2 k, y.1.1, Function.update y.1.2 k y.2)
      left_inv := fun x => by simp
      right_inv := fun y => by simp }
  rw [← prob_snd (B := B) f]
  exact prob_equiv e (fun y => f y.1)

/-- The experiment with random pairs up to `k` only. -/
def hybrid (g : G) (q : Nat) (s : Int) {n : Nat} (V : G → (Fin n → Ct G) → Bool) (k : Nat) : ℚ :=
  prob (fun x : Fin (q - 1) × (Fin n → Fin (q - 1)) × (Fin n → Fin q) =>
    V (maskOf x.1 • g) (fun j => if j.val < k then randoms g s x.2.1 x.2.2 j else zeros g s (maskOf x.1 • g) x.2.1 j))

theorem hybrid_zero {g : G} {q : Nat} (hq : 0 < q) {s : Int} {n : Nat} (V : G → (Fin n → Ct G) → Bool) :
    hybrid g q s V 0 = realGame g q s V := by
  have : Nonempty (Fin q) := ⟨⟨0, hq⟩⟩
  rw [hybrid, realGame]
  simp only [Nat.not_lt_zero, if_false]
  exact (prob_equiv (Equiv.prodAssoc _ _ _).symm (fun x : (Fin (q - 1) × (Fin n → Fin (q - 1))) × (Fin n → Fin q) =>
    V (maskOf x.1.1 • g) (zeros g s (maskOf x.1.1 • g) x.1.2))).trans
    (prob_snd (B := Fin n → Fin q) (fun x : Fin (q - 1) × (Fin n → Fin (q - 1)) => V (maskOf x.1 • g) (zeros g s (maskOf x.1 • g) x.2)))

theorem hybrid_last {g : G} {q : Nat} {s : Int} {n : Nat} (V : G → (Fin n → Ct G) → Bool) :
    hybrid g q s V n = idealGame g q s V := by
  rw [hybrid, idealGame]
  simp only [Fin.is_lt, if_true]

theorem hybrid_real {g : G} {q : Nat} (hq : 1 < q) {s : Int} {n : Nat} (V : G → (Fin n → Ct G) → Bool) (k : Fin n) :
    ddhReal g q (reduction g q s V k) = hybrid g q s V k.val := by
  have : Nonempty (Fin (q - 1)) := ⟨⟨0, by omega⟩⟩
  rw [ddhReal, hybrid]
  let f : (Fin (q - 1) × (Fin n → Fin q)) × (Fin n → Fin (q - 1)) → Bool := fun x =>
    V (maskOf x.1.1 • g) (fun j => if j.val < k.val then randoms g s x.2 x.1.2 j else zeros g s (maskOf x.1.1 • g) x.2 j)
  let e1 : Fin (q - 1) × (Fin n → Fin (q - 1)) × (Fin n → Fin q) ≃ (Fin (q - 1) × (Fin n → Fin q)) × (Fin n → Fin (q - 1)) :=
    { toFun := fun x => ((x.1, x.2.2), x.2.1), invFun := fun y => (y.1.1, y.2, y.1.2), left_inv := fun _ => rfl, right_inv := fun _ => rfl }
  let e2 : Fin (q - 1) × Fin (q - 1) × (Fin n → Fin (q - 1)) × (Fin n → Fin q) ≃
      Fin (q - 1) × (Fin (q - 1) × (Fin n → Fin q)) × (Fin n → Fin (q - 1)) :=
    { toFun := fun x => (x.2.1, (x.1, x.2.2.2), x.2.2.1), invFun := fun y => (y.2.1.1, y.1, y.2.2, y.2.1.2),
      left_inv := fun _ => rfl, right_inv := fun _ => rfl }
  refine Eq.trans ?_ (prob_equiv e1 f).symm
  refine Eq.trans ?_ (prob_update k f)
  refine Eq.trans ?_ (prob_equiv e2 _)
  congr 1
  funext x
  show reduction g q s V k _ _ _ _ = f _
  simp only [reduction, f, e2, Equiv.coe_fn_mk]
  congr 1
  funext j
  rcases lt_trichotomy j k with h | h | h
  · have hne : j ≠ k := ne_of_lt h
    rw [if_pos h, if_pos (by exact h)]
    simp only [randoms, Function.update_of_ne hne]
  · subst h
    rw [if_neg (lt_irrefl _), if_pos rfl, if_neg (lt_irrefl _)]
    simp only [zeros, Function.update_self]
    congr 1
    rw [smul_add, smul_comm s]
  · have hne : j ≠ k := ne_of_gt h
    rw [if_neg (not_lt_of_gt h), if_neg hne, if_neg (not_lt_of_gt (show k.val < j.val from h))]
    simp only [zeros, Function.update_of_ne hne]

theorem hybrid_rand {g : G} {q : Nat} (hq : 1 < q) {s : Int} {n : Nat} (V : G → (Fin n → Ct G) → Bool) (k : Fin n) :
    ddhRand g q (reduction g q s V k) = hybrid g q s V (k.val + 1) := by
  have : Nonempty (Fin (q - 1)) := ⟨⟨0, by omega⟩⟩
  have : Nonempty (Fin q) := ⟨⟨0, by omega⟩⟩
  rw [ddhRand, hybrid]
  let f : (Fin (q - 1) × (Fin n → Fin q)) × (Fin n → Fin (q - 1)) → Bool := fun x =>
    V (maskOf x.1.1 • g) (fun j => if j.val < k.val + 1 then randoms g s x.2 x.1.2 j else zeros g s (maskOf x.1.1 • g) x.2 j)
  let f' : (Fin (q - 1) × Fin (q - 1) × (Fin n → Fin (q - 1))) × (Fin n → Fin q) → Bool := fun x =>
    f ((x.1.2.1, x.2), Function.update x.1.2.2 k x.1.1)
  let e1 : Fin (q - 1) × (Fin n → Fin (q - 1)) × (Fin n → Fin q) ≃ (Fin (q - 1) × (Fin n → Fin q)) × (Fin n → Fin (q - 1)) :=
    { toFun := fun x => ((x.1, x.2.2), x.2.1), invFun := fun y => (y.1.1, y.2, y.1.2), left_inv := fun _ => rfl, right_inv := fun _ => rfl }
  let e2 : Fin (q - 1) × (Fin (q - 1) × (Fin n → Fin q)) × (Fin n → Fin (q - 1)) ≃
      (Fin (q - 1) × Fin (q - 1) × (Fin n → Fin (q - 1))) × (Fin n → Fin q) :=
    { toFun := fun x => ((x.1, x.2.1.1, x.2.2), x.2.1.2), invFun := fun y => (y.1.1, (y.1.2.1, y.2), y.1.2.2),
      left_inv := fun _ => rfl, right_inv := fun _ => rfl }
  let e3 : Fin (q - 1) × Fin (q - 1) × Fin q × (Fin n → Fin (q - 1)) × (Fin n → Fin q) ≃
      Fin q × (Fin (q - 1) × Fin (q - 1) × (Fin n → Fin (q - 1))) × (Fin n → Fin q) :=
    { toFun := fun x => (x.2.2.1, (x.2.1, x.1, x.2.2.2.1), x.2.2.2.2), invFun := fun y => (y.2.1.2.1, y.2.1.1, y.1, y.2.1.2.2, y.2.2),
      left_inv := fun _ => rfl, right_inv := fun _ => rfl }
  refine Eq.trans ?_ (prob_equiv e1 f).symm
  refine Eq.trans ?_ (prob_update k f)
  refine Eq.trans ?_ (prob_equiv e2 f').symm
  refine Eq.trans ?_ (prob_update k f')
  refine Eq.trans ?_ (prob_equiv e3 _)
  congr 1
  funext x
  show reduction g q s V k _ _ _ _ = f' _
  simp only [reduction, f', f, e3, Equiv.coe_fn_mk]
  congr 1
  funext j
  rcases lt_trichotomy j k with h | h | h
  · have hne : j ≠ k := ne_of_lt h
    have hv : j.val < k.val := h
    rw [if_pos h, if_pos (by omega)]
    simp only [randoms, Function.update_of_ne hne]
  · subst h
    rw [if_neg (lt_irrefl _), if_pos rfl, if_pos (by omega)]
    simp only [randoms, Function.update_self]
  · have hne : j ≠ k := ne_of_gt h
    have hv : k.val < j.val := h
    rw [if_neg (not_lt_of_gt h), if_neg hne, if_neg (by omega)]
    simp only [zeros, Function.update_of_ne hne]

/-- Replacing all encryptions of zero changes an experiment by at most the advantages of the `n` distinguishers. -/
theorem hybrid_bound {g : G} {q : Nat} (hq : 1 < q) {s : Int} {n : Nat} (V : G → (Fin n → Ct G) → Bool) :
    |realGame g q s V - idealGame g q s V| ≤ ∑ k, ddhAdv g q (reduction g q s V k) := by
  rw [← hybrid_zero (by omega) V, ← hybrid_last V]
  have key : ∀ m, m ≤ n → |hybrid g q s V 0 - hybrid g q s V m| ≤
      ∑ k ∈ Finset.univ.filter (fun k : Fin n => k.val < m), ddhAdv g q (reduction g q s V k) := by
    intro m
    induction m with
    | zero => intro _; simp
    | succ m ih =>
      intro hm
      have hsplit : (Finset.univ.filter (fun k : Fin n => k.val < m + 1)) =
          insert (⟨m, by omega⟩ : Fin n) (Finset.univ.filter (fun k : Fin n => k.val < m)) := by
        ext k
        simp only [Finset.mem_filter, Finset.mem_univ, true_and, Finset.mem_insert, Fin.ext_iff]
        omega
      rw [hsplit, Finset.sum_insert (by simp)]
      have h1 := ih (by omega)
      have h2 : ddhAdv g q (reduction g q s V ⟨m, by omega⟩) = |hybrid g q s V m - hybrid g q s V (m + 1)| := by
        rw [ddhAdv, hybrid_real hq, hybrid_rand hq]
      rw [h2]
      calc |hybrid g q s V 0 - hybrid g q s V (m + 1)|
          = |(hybrid g q s V 0 - hybrid g q s V m) + (hybrid g q s V m - hybrid g q s V (m + 1))| := by ring_nf
        _ ≤ |hybrid g q s V 0 - hybrid g q s V m| + |hybrid g q s V m - hybrid g q s V (m + 1)| := abs_add_le _ _
        _ ≤ _ := by rw [add_comm]; exact add_le_add_right h1 _
  have := key n le_rfl
  simpa using this

/-- The random pairs stay random when a multiple of the generator is added to each. -/
theorem ideal_shift {g : G} {q : Nat} (hq : 0 < q) (hg : (q : Int) • g = 0) {s : Int} {n : Nat} (V : G → (Fin n → Ct G) → Bool)
    (m : Fin n → Int) :
    idealGame g q s (fun X z => V X (fun k => ⟨(z k).u, m k • g + (z k).e⟩)) = idealGame g q s V := by
  have : NeZero q := ⟨by omega⟩
  rw [idealGame, idealGame]
  let e : Fin (q - 1) × (Fin n → Fin (q - 1)) × (Fin n → Fin q) ≃ Fin (q - 1) × (Fin n → Fin (q - 1)) × (Fin n → Fin q) :=
    Equiv.prodCongr (Equiv.refl _) (Equiv.prodCongr (Equiv.refl _)
      (Equiv.piCongrRight (fun k => Equiv.addRight (⟨(m k % q).toNat, by have := Int.emod_lt_of_pos (m k) (show (0 : Int) < q by omega); have := Int.emod_nonneg (m k) (show (q : Int) ≠ 0 by omega); omega⟩ : Fin q))))
  refine Eq.trans ?_ (prob_equiv e _)
  congr 1
  funext x
  show V _ _ = V _ _
  congr 1
  funext k
  have hm0 := Int.emod_nonneg (m k) (show (q : Int) ≠ 0 by omega)
  simp only [randoms, e, Equiv.prodCongr_apply, Prod.map_fst, Prod.map_snd, Equiv.refl_apply, Equiv.piCongrRight_apply,
    Pi.map_apply, Equiv.coe_addRight, Fin.val_add]
  congr 1
  rw [← add_assoc, ← add_smul]
  congr 1
  have hz : ∀ a b : Int, a % q = b % q → a • g = b • g := by
    intro a b h
    obtain ⟨c, hc⟩ := Int.dvd_of_emod_eq_zero (Int.emod_eq_emod_iff_emod_sub_eq_zero.1 h)
    have : a = b + c * q := by rw [mul_comm] ; omega
    rw [this, add_smul, mul_smul, hg, smul_zero, add_zero]
  apply hz
  push_cast
  rw [Int.toNat_of_nonneg hm0]
  simp [Int.add_emod, add_comm]

end Upsi.Hide
