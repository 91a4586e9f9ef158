import Mathlib.Data.Fintype.Perm
import Mathlib.Data.Fintype.BigOperators
import Mathlib.Data.Fintype.Pi
/-
Counting lemmas for C64: how many coins lead to a given list of observed values when every item is
observed through fresh coins and the items are shuffled by a random permutation.
-/
namespace Upsi.View
variable {K A A' C W : Type}

/-- The list of values observed: item `σ i` is observed with coins `k i`. -/
def observe {N : Nat} (V : K → A → W) (D : Fin N → A) (x : (Fin N → K) × Equiv.Perm (Fin N)) : Fin N → W :=
  fun i => V (x.1 i) (D (x.2 i))

/-- Pairs of coins and permutations, sorted by permutation. -/
def observeEquiv {N : Nat} (V : K → A → W) (D : Fin N → A) (w : Fin N → W) :
    {x : (Fin N → K) × Equiv.Perm (Fin N) // observe V D x = w} ≃
      Σ σ : Equiv.Perm (Fin N), ∀ i, {k : K // V k (D (σ i)) = w i} where
  toFun x := ⟨x.1.2, fun i => ⟨x.1.1 i, congrFun x.2 i⟩⟩
  invFun y := ⟨(fun i => (y.2 i).1, y.1), funext fun i => (y.2 i).2⟩
  left_inv x := rfl
  right_inv y := rfl

theorem observe_card {N : Nat} [Fintype K] [DecidableEq W] (V : K → A → W) (D : Fin N → A) (w : Fin N → W) :
    Fintype.card {x : (Fin N → K) × Equiv.Perm (Fin N) // observe V D x = w} =
      ∑ σ : Equiv.Perm (Fin N), ∏ i, Fintype.card {k : K // V k (D (σ i)) = w i} := by
  rw [Fintype.card_congr (observeEquiv V D w), Fintype.card_sigma]
  exact Finset.sum_congr rfl fun σ _ => Fintype.card_pi

/-- If the number of coins under which an item is observed as `w` depends only on the class of the item, then the
number of coins leading to a list of observations depends only on how many items of each class there are. -/
theorem observe_card_eq {N : Nat} [Fintype K] [DecidableEq W] {V : K → A → W} {V' : K → A' → W} {D : Fin N → A}
    {D' : Fin N → A'} {cl : A → C} {cl' : A' → C} {f : C → W → Nat}
    (hV : ∀ i w, Fintype.card {k : K // V k (D i) = w} = f (cl (D i)) w)
    (hV' : ∀ i w, Fintype.card {k : K // V' k (D' i) = w} = f (cl' (D' i)) w)
    (τ : Equiv.Perm (Fin N)) (hτ : ∀ i, cl' (D' i) = cl (D (τ i))) (w : Fin N → W) :
    Fintype.card {x : (Fin N → K) × Equiv.Perm (Fin N) // observe V D x = w} =
      Fintype.card {x : (Fin N → K) × Equiv.Perm (Fin N) // observe V' D' x = w} := by
  rw [observe_card, observe_card,
    ← Equiv.sum_comp (Equiv.mulLeft τ) (fun σ : Equiv.Perm (Fin N) => ∏ i, Fintype.card {k : K // V k (D (σ i)) = w i})]
  refine Finset.sum_congr rfl fun σ _ => Finset.prod_congr rfl fun i _ => ?_
  rw [hV, hV', hτ]
  rfl

/-- Two labellings with equally many positions per label differ by a permutation of positions. -/
theorem exists_relabel {N : Nat} [DecidableEq C] {f g : Fin N → C}
    (h : ∀ c, Fintype.card {i // f i = c} = Fintype.card {i // g i = c}) :
    ∃ τ : Equiv.Perm (Fin N), ∀ i, g i = f (τ i) := by
  refine ⟨(Equiv.sigmaFiberEquiv g).symm.trans ((Equiv.sigmaCongrRight fun c =>
    Fintype.equivOfCardEq (h c).symm).trans (Equiv.sigmaFiberEquiv f)), fun i => ?_⟩
  simp only [Equiv.trans_apply, Equiv.sigmaFiberEquiv, Equiv.coe_fn_symm_mk, Equiv.coe_fn_mk, Equiv.sigmaCongrRight_apply]
  exact (Subtype.prop (Fintype.equivOfCardEq (h (g i)).symm ⟨i, rfl⟩)).symm

theorem card_ofFn {N : Nat} [DecidableEq C] (f : Fin N → C) (c : C) :
    Fintype.card {i // f i = c} = (List.ofFn f).count c := by
  rw [Fintype.card_subtype, List.ofFn_eq_map, List.count_eq_length_filter, List.filter_map, List.length_map]
  show (Multiset.filter (fun i => f i = c) (List.finRange N : Multiset (Fin N))).card = _
  rw [Multiset.filter_coe, Multiset.coe_card]
  congr 1

theorem exists_relabel_of_perm {N : Nat} [DecidableEq C] {f g : Fin N → C} (h : (List.ofFn f).Perm (List.ofFn g)) :
    ∃ τ : Equiv.Perm (Fin N), ∀ i, g i = f (τ i) :=
  exists_relabel fun c => by rw [card_ofFn, card_ofFn, h.count_eq]

end Upsi.View
