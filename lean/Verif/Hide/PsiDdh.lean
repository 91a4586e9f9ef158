import Verif.Hide.Ddh2
import Verif.Hide.Uniform
/-
Experiments on several Diffie-Hellman triples, and the difference between drawing from all residues and from those that
are not zero (C82).
-/
namespace Upsi.Hide
open Upsi Upsi.ElGamal Upsi.View

variable {G : Type} [AddCommGroup G]

/-- A Diffie-Hellman triple. -/
def tripleReal (g : G) {q : Nat} (a b : Fin (q - 1)) : G × G × G := (maskOf a • g, maskOf b • g, maskOf b • maskOf a • g)

/-- A triple whose last member is random. -/
def tripleRand (g : G) {q : Nat} (a b : Fin (q - 1)) (z : Fin q) : G × G × G := (maskOf a • g, maskOf b • g, ((z : Nat) : Int) • g)

/-- Distinguisher number `k` for an experiment `V` (with further coins `Ω`) on `n` triples: it puts the challenge in place of
triple `k`, and draws the others itself, random ones up to `k`, Diffie-Hellman triples after `k`. -/
def reductionTriple (g : G) (q : Nat) {Ω : Type} {n : Nat} (V : Ω → (Fin n → G × G × G) → Bool) (k : Fin n)
    (ω : Ω × (Fin n → Fin (q - 1)) × (Fin n → Fin (q - 1)) × (Fin n → Fin q)) (A B C : G) : Bool :=
  V ω.1 (fun j => if j < k then tripleRand g (ω.2.1 j) (ω.2.2.1 j) (ω.2.2.2 j) else if j = k then (A, B, C) else tripleReal g (ω.2.1 j) (ω.2.2.1 j))

/-! ### proofs -/

section Triples
variable {g : G} {q : Nat} {n : Nat} {Ω : Type} [Fintype Ω]

/-- The experiment with random triples up to `k` only. -/
def hybridTriple (g : G) (q : Nat) (V : Ω → (Fin n → G × G × G) → Bool) (k : Nat) : ℚ :=
  prob (fun x : Ω × (Fin n → Fin (q - 1)) × (Fin n → Fin (q - 1)) × (Fin n → Fin q) =>
    V x.1 (fun j => if j.val < k then tripleRand g (x.2.1 j) (x.2.2.1 j) (x.2.2.2 j) else tripleReal g (x.2.1 j) (x.2.2.1 j)))

theorem triple_real (hq : 1 < q) (V : Ω → (Fin n → G × G × G) → Bool) (k : Fin n) :
    ddhReal g q (reductionTriple g q V k) = hybridTriple g q V k.val := by
  have : Nonempty (Fin (q - 1)) := ⟨⟨0, by omega⟩⟩
  let h0 : Ω × (Fin n → Fin (q - 1)) × (Fin n → Fin (q - 1)) × (Fin n → Fin q) → Bool := fun x =>
    V x.1 (fun j => if j.val < k.val then tripleRand g (x.2.1 j) (x.2.2.1 j) (x.2.2.2 j) else tripleReal g (x.2.1 j) (x.2.2.1 j))
  let f1 : (Ω × (Fin n → Fin (q - 1)) × (Fin n → Fin q)) × (Fin n → Fin (q - 1)) → Bool := fun x => h0 (x.1.1, x.1.2.1, x.2, x.1.2.2)
  let f2 : (Fin (q - 1) × Ω × (Fin n → Fin (q - 1)) × (Fin n → Fin q)) × (Fin n → Fin (q - 1)) → Bool := fun x =>
    f1 ((x.1.2.1, x.2, x.1.2.2.2), Function.update x.1.2.2.1 k x.1.1)
  let e1 : Ω × (Fin n → Fin (q - 1)) × (Fin n → Fin (q - 1)) × (Fin n → Fin q) ≃ (Ω × (Fin n → Fin (q - 1)) × (Fin n → Fin q)) × (Fin n → Fin (q - 1)) :=
    { toFun := fun x => ((x.1, x.2.1, x.2.2.2), x.2.2.1), invFun := fun z => (z.1.1, z.1.2.1, z.2, z.1.2.2), left_inv := fun _ => rfl, right_inv := fun _ => rfl }
  let e2 : Fin (q - 1) × (Ω × (Fin n → Fin (q - 1)) × (Fin n → Fin q)) × (Fin n → Fin (q - 1)) ≃
      (Fin (q - 1) × Ω × (Fin n → Fin (q - 1)) × (Fin n → Fin q)) × (Fin n → Fin (q - 1)) :=
    { toFun := fun x => ((x.1, x.2.1.1, x.2.2, x.2.1.2.2), x.2.1.2.1), invFun := fun z => (z.1.1, (z.1.2.1, z.2, z.1.2.2.2), z.1.2.2.1),
      left_inv := fun _ => rfl, right_inv := fun _ => rfl }
  let e3 : Fin (q - 1) × Fin (q - 1) × Ω × (Fin n → Fin (q - 1)) × (Fin n → Fin (q - 1)) × (Fin n → Fin q) ≃
      Fin (q - 1) × (Fin (q - 1) × Ω × (Fin n → Fin (q - 1)) × (Fin n → Fin q)) × (Fin n → Fin (q - 1)) :=
    { toFun := fun x => (x.1, (x.2.1, x.2.2.1, x.2.2.2.2.1, x.2.2.2.2.2), x.2.2.2.1),
      invFun := fun z => (z.1, z.2.1.1, z.2.1.2.1, z.2.2, z.2.1.2.2.1, z.2.1.2.2.2),
      left_inv := fun _ => rfl, right_inv := fun _ => rfl }
  refine Eq.trans ?_ (prob_equiv e1 f1).symm
  refine Eq.trans ?_ (prob_update k f1)
  refine Eq.trans ?_ (prob_equiv e2 f2).symm
  refine Eq.trans ?_ (prob_update k f2)
  refine Eq.trans ?_ (prob_equiv e3 _)
  rw [ddhReal]
  congr 1
  funext ⟨a, b, ω, al, be, z⟩
  show reductionTriple g q V k _ _ _ _ = h0 _
  simp only [reductionTriple, h0, e3, Equiv.coe_fn_mk]
  congr 1
  funext j
  rcases lt_trichotomy j k with h | h | h
  · have hne : j ≠ k := ne_of_lt h
    rw [if_pos h, if_pos (show j.val < k.val from h), Function.update_of_ne hne, Function.update_of_ne hne]
  · subst h
    rw [if_neg (lt_irrefl _), if_pos rfl, if_neg (lt_irrefl _), Function.update_self, Function.update_self, tripleReal]
  · have hne : j ≠ k := ne_of_gt h
    rw [if_neg (not_lt_of_gt h), if_neg hne, if_neg (not_lt_of_gt (show k.val < j.val from h)), Function.update_of_ne hne, Function.update_of_ne hne]

theorem triple_rand (hq : 1 < q) (V : Ω → (Fin n → G × G × G) → Bool) (k : Fin n) :
    ddhRand g q (reductionTriple g q V k) = hybridTriple g q V (k.val + 1) := by
  have : Nonempty (Fin (q - 1)) := ⟨⟨0, by omega⟩⟩
  have : Nonempty (Fin q) := ⟨⟨0, by omega⟩⟩
  let h0 : Ω × (Fin n → Fin (q - 1)) × (Fin n → Fin (q - 1)) × (Fin n → Fin q) → Bool := fun x =>
    V x.1 (fun j => if j.val < k.val + 1 then tripleRand g (x.2.1 j) (x.2.2.1 j) (x.2.2.2 j) else tripleReal g (x.2.1 j) (x.2.2.1 j))
  let f1 : (Ω × (Fin n → Fin (q - 1)) × (Fin n → Fin q)) × (Fin n → Fin (q - 1)) → Bool := fun x => h0 (x.1.1, x.1.2.1, x.2, x.1.2.2)
  let f2 : (Fin (q - 1) × Ω × (Fin n → Fin (q - 1)) × (Fin n → Fin q)) × (Fin n → Fin (q - 1)) → Bool := fun x =>
    f1 ((x.1.2.1, x.2, x.1.2.2.2), Function.update x.1.2.2.1 k x.1.1)
  let f3 : (Fin (q - 1) × Fin (q - 1) × Ω × (Fin n → Fin (q - 1)) × (Fin n → Fin (q - 1))) × (Fin n → Fin q) → Bool := fun x =>
    f2 ((x.1.2.1, x.1.2.2.1, x.1.2.2.2.1, x.2), Function.update x.1.2.2.2.2 k x.1.1)
  let e1 : Ω × (Fin n → Fin (q - 1)) × (Fin n → Fin (q - 1)) × (Fin n → Fin q) ≃ (Ω × (Fin n → Fin (q - 1)) × (Fin n → Fin q)) × (Fin n → Fin (q - 1)) :=
    { toFun := fun x => ((x.1, x.2.1, x.2.2.2), x.2.2.1), invFun := fun z => (z.1.1, z.1.2.1, z.2, z.1.2.2), left_inv := fun _ => rfl, right_inv := fun _ => rfl }
  let e2 : Fin (q - 1) × (Ω × (Fin n → Fin (q - 1)) × (Fin n → Fin q)) × (Fin n → Fin (q - 1)) ≃
      (Fin (q - 1) × Ω × (Fin n → Fin (q - 1)) × (Fin n → Fin q)) × (Fin n → Fin (q - 1)) :=
    { toFun := fun x => ((x.1, x.2.1.1, x.2.2, x.2.1.2.2), x.2.1.2.1), invFun := fun z => (z.1.1, (z.1.2.1, z.2, z.1.2.2.2), z.1.2.2.1),
      left_inv := fun _ => rfl, right_inv := fun _ => rfl }
  let e3 : Fin (q - 1) × (Fin (q - 1) × Ω × (Fin n → Fin (q - 1)) × (Fin n → Fin q)) × (Fin n → Fin (q - 1)) ≃
      (Fin (q - 1) × Fin (q - 1) × Ω × (Fin n → Fin (q - 1)) × (Fin n → Fin (q - 1))) × (Fin n → Fin q) :=
    { toFun := fun x => ((x.1, x.2.1.1, x.2.1.2.1, x.2.1.2.2.1, x.2.2), x.2.1.2.2.2),
      invFun := fun z => (z.1.1, (z.1.2.1, z.1.2.2.1, z.1.2.2.2.1, z.2), z.1.2.2.2.2), left_inv := fun _ => rfl, right_inv := fun _ => rfl }
  let e4 : Fin (q - 1) × Fin (q - 1) × Fin q × Ω × (Fin n → Fin (q - 1)) × (Fin n → Fin (q - 1)) × (Fin n → Fin q) ≃
      Fin q × (Fin (q - 1) × Fin (q - 1) × Ω × (Fin n → Fin (q - 1)) × (Fin n → Fin (q - 1))) × (Fin n → Fin q) :=
    { toFun := fun x => (x.2.2.1, (x.1, x.2.1, x.2.2.2.1, x.2.2.2.2.2.1, x.2.2.2.2.1), x.2.2.2.2.2.2),
      invFun := fun z => (z.2.1.1, z.2.1.2.1, z.1, z.2.1.2.2.1, z.2.1.2.2.2.2, z.2.1.2.2.2.1, z.2.2),
      left_inv := fun _ => rfl, right_inv := fun _ => rfl }
  refine Eq.trans ?_ (prob_equiv e1 f1).symm
  refine Eq.trans ?_ (prob_update k f1)
  refine Eq.trans ?_ (prob_equiv e2 f2).symm
  refine Eq.trans ?_ (prob_update k f2)
  refine Eq.trans ?_ (prob_equiv e3 f3).symm
  refine Eq.trans ?_ (prob_update k f3)
  refine Eq.trans ?_ (prob_equiv e4 _)
  rw [ddhRand]
  congr 1
  funext ⟨a, b, cc, ω, al, be, z⟩
  show reductionTriple g q V k _ _ _ _ = h0 _
  simp only [reductionTriple, h0, e4, Equiv.coe_fn_mk]
  congr 1
  funext j
  rcases lt_trichotomy j k with h | h | h
  · have hne : j ≠ k := ne_of_lt h
    have hv : j.val < k.val := h
    rw [if_pos h, if_pos (by omega), Function.update_of_ne hne, Function.update_of_ne hne, Function.update_of_ne hne]
  · subst h
    rw [if_neg (lt_irrefl _), if_pos rfl, if_pos (Nat.lt_succ_self _), Function.update_self, Function.update_self, Function.update_self, tripleRand]
  · have hne : j ≠ k := ne_of_gt h
    have hv : k.val < j.val := h
    rw [if_neg (not_lt_of_gt h), if_neg hne, if_neg (by omega), Function.update_of_ne hne, Function.update_of_ne hne]

/-- Replacing all triples by random ones changes an experiment by at most the advantages of the distinguishers. -/
theorem hybridTriple_bound (hq : 1 < q) (V : Ω → (Fin n → G × G × G) → Bool) :
    |hybridTriple g q V 0 - hybridTriple g q V n| ≤ ∑ k, ddhAdv g q (reductionTriple g q V k) :=
  telescope (n := n) (hybridTriple g q V) _ (fun k => by rw [ddhAdv, triple_real hq, triple_rand hq])

theorem hybridTriple_zero (hq : 0 < q) (V : Ω → (Fin n → G × G × G) → Bool) : hybridTriple g q V 0 =
    prob (fun x : Ω × (Fin n → Fin (q - 1)) × (Fin n → Fin (q - 1)) => V x.1 (fun j => tripleReal g (x.2.1 j) (x.2.2 j))) := by
  have : Nonempty (Fin q) := ⟨⟨0, hq⟩⟩
  rw [hybridTriple]
  simp only [Nat.not_lt_zero, if_false]
  let f : Ω × (Fin n → Fin (q - 1)) × (Fin n → Fin (q - 1)) → Bool := fun x => V x.1 (fun j => tripleReal g (x.2.1 j) (x.2.2 j))
  let e : Ω × (Fin n → Fin (q - 1)) × (Fin n → Fin (q - 1)) × (Fin n → Fin q) ≃ (Ω × (Fin n → Fin (q - 1)) × (Fin n → Fin (q - 1))) × (Fin n → Fin q) :=
    { toFun := fun x => ((x.1, x.2.1, x.2.2.1), x.2.2.2), invFun := fun y => (y.1.1, y.1.2.1, y.1.2.2, y.2), left_inv := fun _ => rfl, right_inv := fun _ => rfl }
  exact (prob_equiv e (fun y => f y.1)).trans (prob_snd (B := Fin n → Fin q) f)

theorem hybridTriple_last (V : Ω → (Fin n → G × G × G) → Bool) : hybridTriple g q V n =
    prob (fun x : Ω × (Fin n → Fin (q - 1)) × (Fin n → Fin (q - 1)) × (Fin n → Fin q) =>
      V x.1 (fun j => tripleRand g (x.2.1 j) (x.2.2.1 j) (x.2.2.2 j))) := by
  rw [hybridTriple]
  simp only [Fin.is_lt, if_true]

end Triples

/-- A mask as a residue. -/
def residue {q : Nat} (a : Fin (q - 1)) : Fin q := ⟨a.val + 1, by have := a.2; omega⟩

theorem residue_val {q : Nat} (a : Fin (q - 1)) : ((residue a : Nat) : Int) = maskOf a := by simp [residue, maskOf]

/-- Drawing `n` residues that are not zero instead of any. -/
theorem prob_nonzero {A : Type} [Fintype A] [Nonempty A] {q : Nat} (hq : 1 < q) {n : Nat} (f : A × (Fin n → Fin q) → Bool) :
    |prob (fun x : A × (Fin n → Fin (q - 1)) => f (x.1, fun k => residue (x.2 k))) - prob f| ≤ (n : ℚ) / q := by
  have : Nonempty (Fin (q - 1)) := ⟨⟨0, by omega⟩⟩
  let i : A × (Fin n → Fin (q - 1)) → A × (Fin n → Fin q) := fun x => (x.1, fun k => residue (x.2 k))
  have hi : Function.Injective i := by
    rintro ⟨a, b⟩ ⟨a', b'⟩ h
    simp only [i, Prod.mk.injEq] at h
    obtain ⟨rfl, h2⟩ := h
    have : b = b' := by
      funext k
      have := congrFun h2 k
      simp only [residue, Fin.mk.injEq] at this
      exact Fin.ext (by omega)
    rw [this]
  refine (prob_embed i hi f).trans ?_
  have hqq : (0 : ℚ) < q := by exact_mod_cast (show 0 < q by omega)
  have hA : (Fintype.card A : ℚ) ≠ 0 := by exact_mod_cast Fintype.card_ne_zero
  have hc : ((Fintype.card (A × (Fin n → Fin (q - 1))) : ℕ) : ℚ) / (Fintype.card (A × (Fin n → Fin q)) : ℕ) = (1 + -(1 / q)) ^ n := by
    simp only [Fintype.card_prod, Fintype.card_fun, Fintype.card_fin]
    have h1 : ((q - 1 : Nat) : ℚ) = q - 1 := by rw [Nat.cast_sub (by omega)]; simp
    push_cast
    rw [h1]
    have : (1 : ℚ) + -(1 / q) = (q - 1) / q := by field_simp; ring
    rw [this, div_pow]
    field_simp
  rw [hc]
  have hb := one_add_mul_le_pow (a := -(1 / (q : ℚ))) (by
    have : 1 / (q : ℚ) ≤ 1 := by rw [div_le_one hqq]; exact_mod_cast hq.le
    linarith) n
  have : (n : ℚ) / q = n * (1 / q) := by field_simp
  rw [this]
  linarith

end Upsi.Hide
