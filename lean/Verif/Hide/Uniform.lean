import Verif.Hide.Ddh
import Mathlib.GroupTheory.OrderOfElement
import Mathlib.Algebra.Order.Ring.Pow
import Mathlib.Tactic.Linarith
import Mathlib.Tactic.FieldSimp
import Mathlib.Algebra.Order.Field.Basic
/-
From random pairs whose coin is not zero to uniformly random pairs of points (C79): the two experiments differ by at
most `n / q`.
-/
namespace Upsi.Hide
open Upsi Upsi.ElGamal Upsi.View

variable {G : Type} [AddCommGroup G]

/-- There are finitely many ciphertexts. -/
instance [Fintype G] : Fintype (Ct G) :=
  Fintype.ofEquiv (G × G) ⟨fun x => ⟨x.1, x.2⟩, fun x => (x.u, x.e), fun _ => rfl, fun _ => rfl⟩

omit [AddCommGroup G] in
theorem card_ct [Fintype G] : Fintype.card (Ct G) = Fintype.card G * Fintype.card G := by
  rw [← Fintype.card_prod]
  exact Fintype.card_congr ⟨fun x => (x.u, x.e), fun x => ⟨x.1, x.2⟩, fun _ => rfl, fun _ => rfl⟩

/-- An experiment on uniformly random pairs of points. -/
def uniformGame [Fintype G] (g : G) (q : Nat) {n : Nat} (V : G → (Fin n → Ct G) → Bool) : ℚ :=
  prob (fun x : Fin (q - 1) × (Fin n → Ct G) => V (maskOf x.1 • g) x.2)

/-- Drawing from a part of a set instead of the whole set. -/
theorem prob_embed {A B : Type} [Fintype A] [Fintype B] [Nonempty A] (i : A → B) (hi : Function.Injective i) (f : B → Bool) :
    |prob (fun a => f (i a)) - prob f| ≤ 1 - (Fintype.card A : ℚ) / Fintype.card B := by
  classical
  have hA : (0 : ℚ) < Fintype.card A := by exact_mod_cast Fintype.card_pos
  have hAB : (Fintype.card A : ℚ) ≤ Fintype.card B := by exact_mod_cast Fintype.card_le_of_injective i hi
  have hB : (0 : ℚ) < Fintype.card B := lt_of_lt_of_le hA hAB
  let a : ℚ := ∑ x : A, if f (i x) then 1 else 0
  let b : ℚ := ∑ y ∈ Finset.univ.filter (fun y => y ∉ Set.range i), if f y then 1 else 0
  have hsplit : (∑ y : B, if f y then (1 : ℚ) else 0) = a + b := by
    rw [← Finset.sum_filter_add_sum_filter_not Finset.univ (fun y => y ∈ Set.range i)]
    congr 1
    have : (Finset.univ.filter (fun y => y ∈ Set.range i)) = Finset.univ.image i := by
      ext y; simp
    rw [this, Finset.sum_image (fun x _ y _ h => hi h)]
  have ha0 : 0 ≤ a := Finset.sum_nonneg fun x _ => by split <;> norm_num
  have ha1 : a ≤ Fintype.card A := by
    have : a ≤ ∑ _x : A, (1 : ℚ) := Finset.sum_le_sum fun x _ => by split <;> norm_num
    simpa using this
  have hb0 : 0 ≤ b := Finset.sum_nonneg fun x _ => by split <;> norm_num
  have hb1 : b ≤ Fintype.card B - Fintype.card A := by
    have h1 : b ≤ ∑ _y ∈ Finset.univ.filter (fun y => y ∉ Set.range i), (1 : ℚ) :=
      Finset.sum_le_sum fun x _ => by split <;> norm_num
    rw [Finset.sum_const, nsmul_eq_mul, mul_one] at h1
    have h2 : (Finset.univ.filter (fun y => y ∉ Set.range i)).card + Fintype.card A = Fintype.card B := by
      have h3 := Finset.card_filter_add_card_filter_not (s := (Finset.univ : Finset B)) (fun y => y ∈ Set.range i)
      have h4 : (Finset.univ.filter (fun y => y ∈ Set.range i)) = Finset.univ.image i := by ext y; simp
      rw [h4, Finset.card_image_of_injective _ hi, Finset.card_univ, Finset.card_univ] at h3
      omega
    have h5 : ((Finset.univ.filter (fun y => y ∉ Set.range i)).card : ℚ) + Fintype.card A = Fintype.card B := by exact_mod_cast h2
    linarith
  rw [prob, prob, hsplit]
  show |a / _ - (a + b) / _| ≤ _
  set N : ℚ := (Fintype.card A : ℚ)
  set M : ℚ := (Fintype.card B : ℚ)
  have e1 : a / N ≤ 1 := (div_le_one hA).2 ha1
  have e2 : a / N * (1 - N / M) = a / N - a / M := by field_simp
  have e3 : 0 ≤ 1 - N / M := by rw [sub_nonneg, div_le_one hB]; exact hAB
  have e4 : (a + b) / M = a / M + b / M := add_div _ _ _
  have e5 : 0 ≤ b / M := div_nonneg hb0 hB.le
  have e6 : b / M ≤ 1 - N / M := by
    rw [show (1 : ℚ) - N / M = (M - N) / M by field_simp]
    exact div_le_div_of_nonneg_right hb1 hB.le
  have e7 : 0 ≤ a / N := div_nonneg ha0 hA.le
  have e8 : a / N * (1 - N / M) ≤ 1 - N / M := mul_le_of_le_one_left e3 e1
  have e9 : 0 ≤ a / N * (1 - N / M) := mul_nonneg e7 e3
  rw [e4, abs_le]
  constructor <;> linarith

/-- The random pairs are the uniformly random pairs, except that the coin is not zero. -/
theorem ideal_uniform [Fintype G] {g : G} {q : Nat} (hq : q.Prime) (hcard : Fintype.card G = q) (hg0 : g ≠ 0) {s : Int} {n : Nat}
    (V : G → (Fin n → Ct G) → Bool) : |idealGame g q s V - uniformGame g q V| ≤ (n : ℚ) / q := by
  classical
  have hq1 := hq.one_lt
  have : Nonempty (Fin (q - 1)) := ⟨⟨0, by omega⟩⟩
  have : Nonempty (Fin q) := ⟨⟨0, by omega⟩⟩
  have hord : addOrderOf g = q := by
    have hd : addOrderOf g ∣ q := hcard ▸ addOrderOf_dvd_card
    rcases (Nat.dvd_prime hq).1 hd with h | h
    · exact absurd (AddMonoid.addOrderOf_eq_one_iff.1 h) hg0
    · exact h
  have hinj : ∀ a b : Fin q, (((a : Nat) : Int) • g = ((b : Nat) : Int) • g) → a = b := by
    intro a b h
    rw [natCast_zsmul, natCast_zsmul, nsmul_inj_mod, hord, Nat.mod_eq_of_lt a.2, Nat.mod_eq_of_lt b.2] at h
    exact Fin.ext h
  -- the pairs, given by two numbers
  let pair : Fin q × Fin q → Ct G := fun x => ⟨((x.1 : Nat) : Int) • g, ((x.2 : Nat) : Int) • g + s • ((x.1 : Nat) : Int) • g⟩
  have hpi : Function.Injective pair := by
    rintro ⟨a, b⟩ ⟨a', b'⟩ h
    simp only [pair, Ct.mk.injEq] at h
    have h1 := hinj _ _ h.1
    subst h1
    have h2 := hinj _ _ (add_right_cancel h.2)
    rw [h2]
  have hpb : Function.Bijective pair := (Fintype.bijective_iff_injective_and_card pair).2
    ⟨hpi, by rw [card_ct, Fintype.card_prod, hcard, Fintype.card_fin]⟩
  let e : Fin (q - 1) × (Fin n → Fin q) × (Fin n → Fin q) ≃ Fin (q - 1) × (Fin n → Ct G) :=
    Equiv.prodCongr (Equiv.refl _) ((Equiv.arrowProdEquivProdArrow (Fin n) (fun _ => Fin q) (fun _ => Fin q)).symm.trans
      (Equiv.piCongrRight fun _ => Equiv.ofBijective pair hpb))
  rw [uniformGame, ← prob_equiv e]
  let i : Fin (q - 1) × (Fin n → Fin (q - 1)) × (Fin n → Fin q) → Fin (q - 1) × (Fin n → Fin q) × (Fin n → Fin q) :=
    fun x => (x.1, fun k => ⟨(x.2.1 k).val + 1, by have := (x.2.1 k).2; omega⟩, x.2.2)
  have hii : Function.Injective i := by
    rintro ⟨a, b, c⟩ ⟨a', b', c'⟩ h
    simp only [i, Prod.mk.injEq] at h
    obtain ⟨rfl, h2, rfl⟩ := h
    have : b = b' := by
      funext k
      have := congrFun h2 k
      simp only [Fin.mk.injEq] at this
      exact Fin.ext (by omega)
    rw [this]
  have key := prob_embed i hii (fun y => V (maskOf (e y).1 • g) (e y).2)
  have h0 : idealGame g q s V = prob (fun x => V (maskOf (e (i x)).1 • g) (e (i x)).2) := by
    rw [idealGame]
    congr 1
  rw [h0]
  refine key.trans ?_
  have hqq : (0 : ℚ) < q := by exact_mod_cast hq.pos
  have hc : ((Fintype.card (Fin (q - 1) × (Fin n → Fin (q - 1)) × (Fin n → Fin q)) : ℕ) : ℚ) /
      (Fintype.card (Fin (q - 1) × (Fin n → Fin q) × (Fin n → Fin q)) : ℕ) = (1 + -(1 / q)) ^ n := by
    simp only [Fintype.card_prod, Fintype.card_fun, Fintype.card_fin]
    have h1 : ((q - 1 : Nat) : ℚ) = q - 1 := by rw [Nat.cast_sub (by omega)]; simp
    have h2 : (q : ℚ) - 1 ≠ 0 := by
      have : (1 : ℚ) < q := by exact_mod_cast hq1
      linarith
    push_cast
    rw [h1]
    have : (1 : ℚ) + -(1 / q) = (q - 1) / q := by field_simp; ring
    rw [this, div_pow]
    field_simp
  rw [hc]
  have hb := one_add_mul_le_pow (a := -(1 / (q : ℚ))) (by
    have : 1 / (q : ℚ) ≤ 1 := by rw [div_le_one hqq]; exact_mod_cast hq1.le
    linarith) n
  have : (n : ℚ) / q = n * (1 / q) := by field_simp
  rw [this]
  linarith

end Upsi.Hide
