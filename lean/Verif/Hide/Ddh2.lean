import Verif.Hide.Ddh
import Mathlib.Data.Int.GCD
import Mathlib.Data.Nat.Prime.Int
import Mathlib.Data.Fintype.EquivFin
import Mathlib.Algebra.BigOperators.Field
import Mathlib.Tactic.Ring
import Mathlib.Tactic.Linarith
/-
More on the decisional Diffie-Hellman experiment (C80): experiments with further coins, and the replacement of masked
points by random ones.
-/
namespace Upsi.Hide
open Upsi Upsi.ElGamal Upsi.View

variable {G : Type} [AddCommGroup G]

/-! ### definitions used in the statement of C80 -/

/-- Distinguisher number `k` for an experiment `V` with further coins `Ω` that uses `n` encryptions of zero: it draws
the further coins itself (compare `reduction`). -/
def reductionWith (g : G) (q : Nat) (s : Int) {Ω : Type} {n : Nat} (V : Ω → G → (Fin n → Ct G) → Bool) (k : Fin n)
    (ω : Ω × (Fin n → Fin (q - 1)) × (Fin n → Fin q)) (X U Z : G) : Bool := reduction g q s (V ω.1) k ω.2 X U Z

/-- A point `eps•(w base) + off•g` (one of the points `w`, its inverse, shifted by a known multiple of `g`), and a known
multiple `m•g`.  Both will be masked by the same coin. -/
structure Pos (n : Nat) where
  base : Fin n
  eps : Int
  off : Int
  m : Int

/-- The point and the multiple of `g`, masked by `a`. -/
def Pos.masked {n : Nat} (g : G) (w : Fin n → G) (y : Pos n) (a : Int) : G × G :=
  (a • (y.eps • w y.base + y.off • g), a • y.m • g)

/-- A random point, and a random point or the identity. -/
def Pos.random {n : Nat} (g : G) (q : Nat) (y : Pos n) (a : Int) (t : Nat) : G × G :=
  ((t : Int) • g, if (q : Int) ∣ y.m then 0 else a • g)

/-- What to multiply the mask with, so that it masks `m•g` to itself. -/
def Pos.unit {n : Nat} (q : Nat) (y : Pos n) : Int := if (q : Int) ∣ y.m then 1 else Int.gcdA y.m q

/-- The points drawn with coins `r`. -/
def pointsOf (g : G) {q n : Nat} (r : Fin n → Fin (q - 1)) (b : Fin n) : G := maskOf (r b) • g

/-- Distinguisher number `k` for an experiment `V` that uses `n` masked pairs: it draws everything except the point
number `(pos k).base`, which is the first member of the challenge, and the masked pair number `k`, which it makes from the
other members. -/
def reductionMask (g : G) (q : Nat) {Ω : Type} {n n' : Nat} (pos : Ω → Fin n → Pos n') (V : Ω → (Fin n' → G) → (Fin n → G × G) → Bool)
    (k : Fin n) (ω : Ω × (Fin n' → Fin (q - 1)) × (Fin n → Fin (q - 1)) × (Fin n → Fin q)) (A B C : G) : Bool :=
  let y := pos ω.1 k
  let w := Function.update (pointsOf g ω.2.1) y.base A
  V ω.1 w (fun j =>
    if j < k then (pos ω.1 j).random g q (maskOf (ω.2.2.1 j)) (ω.2.2.2 j)
    else if j = k then (y.unit q • (y.eps • C + y.off • B), if (q : Int) ∣ y.m then 0 else B)
    else (pos ω.1 j).masked g w (maskOf (ω.2.2.1 j)))

/-! ### proofs -/

/-- The average of a number that depends on coins. -/
def avg {Ω : Type} [Fintype Ω] (f : Ω → ℚ) : ℚ := (∑ ω, f ω) / (Fintype.card Ω : ℚ)

theorem prob_prod {A B : Type} [Fintype A] [Fintype B] (f : A × B → Bool) : prob f = avg (fun a => prob (fun b => f (a, b))) := by
  simp only [prob, avg]
  rw [Fintype.sum_prod_type, Fintype.card_prod, Nat.cast_mul, ← Finset.sum_div, div_div, mul_comm (Fintype.card B : ℚ)]

theorem telescope {n : Nat} (H : Nat → ℚ) (adv : Fin n → ℚ) (h : ∀ k : Fin n, adv k = |H k.val - H (k.val + 1)|) :
    |H 0 - H n| ≤ ∑ k, adv k := by
  have key : ∀ m, m ≤ n → |H 0 - H m| ≤ ∑ k ∈ Finset.univ.filter (fun k : Fin n => k.val < m), adv k := by
    intro m
    induction m with
    | zero => intro _; simp
    | succ m ih =>
      intro hm
      have hsplit : (Finset.univ.filter (fun k : Fin n => k.val < m + 1)) =
          insert (⟨m, by omega⟩ : Fin n) (Finset.univ.filter (fun k : Fin n => k.val < m)) := by
        ext k
        simp only [Finset.mem_filter, Finset.mem_univ, true_and, Finset.mem_insert, Fin.ext_iff]
        omega
      rw [hsplit, Finset.sum_insert (by simp), h]
      have h1 := ih (by omega)
      calc |H 0 - H (m + 1)|
          = |(H 0 - H m) + (H m - H (m + 1))| := by ring_nf
        _ ≤ |H 0 - H m| + |H m - H (m + 1)| := abs_add_le _ _
        _ ≤ _ := by rw [add_comm]; exact add_le_add_right h1 _
  simpa using key n le_rfl

section One
variable {g : G} {q : Nat} {s : Int} {Ω : Type} [Fintype Ω] {n : Nat}

theorem hybridWith_bound (hq : 1 < q) (V : Ω → G → (Fin n → Ct G) → Bool) :
    |avg (fun ω => realGame g q s (V ω)) - avg (fun ω => idealGame g q s (V ω))| ≤ ∑ k, ddhAdv g q (reductionWith g q s V k) := by
  have h := telescope (n := n) (fun k => avg (fun ω => hybrid g q s (V ω) k)) (fun k => ddhAdv g q (reductionWith g q s V k)) (fun k => by
    have h1 : ddhReal g q (reductionWith g q s V k) = avg (fun ω => hybrid g q s (V ω) k.val) := by
      simp only [← hybrid_real hq]
      simp only [ddhReal]
      let e : Fin (q - 1) × Fin (q - 1) × Ω × (Fin n → Fin (q - 1)) × (Fin n → Fin q) ≃
          Ω × Fin (q - 1) × Fin (q - 1) × (Fin n → Fin (q - 1)) × (Fin n → Fin q) :=
        { toFun := fun x => (x.2.2.1, x.1, x.2.1, x.2.2.2), invFun := fun y => (y.2.1, y.2.2.1, y.1, y.2.2.2),
          left_inv := fun _ => rfl, right_inv := fun _ => rfl }
      refine Eq.trans ?_ (prob_prod (fun x : Ω × Fin (q - 1) × Fin (q - 1) × (Fin n → Fin (q - 1)) × (Fin n → Fin q) =>
        reduction g q s (V x.1) k x.2.2.2 (maskOf x.2.1 • g) (maskOf x.2.2.1 • g) (maskOf x.2.2.1 • maskOf x.2.1 • g)))
      exact prob_equiv e (fun x : Ω × Fin (q - 1) × Fin (q - 1) × (Fin n → Fin (q - 1)) × (Fin n → Fin q) =>
        reduction g q s (V x.1) k x.2.2.2 (maskOf x.2.1 • g) (maskOf x.2.2.1 • g) (maskOf x.2.2.1 • maskOf x.2.1 • g))
    have h2 : ddhRand g q (reductionWith g q s V k) = avg (fun ω => hybrid g q s (V ω) (k.val + 1)) := by
      simp only [← hybrid_rand hq]
      simp only [ddhRand]
      let e : Fin (q - 1) × Fin (q - 1) × Fin q × Ω × (Fin n → Fin (q - 1)) × (Fin n → Fin q) ≃
          Ω × Fin (q - 1) × Fin (q - 1) × Fin q × (Fin n → Fin (q - 1)) × (Fin n → Fin q) :=
        { toFun := fun x => (x.2.2.2.1, x.1, x.2.1, x.2.2.1, x.2.2.2.2), invFun := fun y => (y.2.1, y.2.2.1, y.2.2.2.1, y.1, y.2.2.2.2),
          left_inv := fun _ => rfl, right_inv := fun _ => rfl }
      refine Eq.trans ?_ (prob_prod (fun x : Ω × Fin (q - 1) × Fin (q - 1) × Fin q × (Fin n → Fin (q - 1)) × (Fin n → Fin q) =>
        reduction g q s (V x.1) k x.2.2.2.2 (maskOf x.2.1 • g) (maskOf x.2.2.1 • g) ((x.2.2.2.1 : Int) • g)))
      exact prob_equiv e (fun x : Ω × Fin (q - 1) × Fin (q - 1) × Fin q × (Fin n → Fin (q - 1)) × (Fin n → Fin q) =>
        reduction g q s (V x.1) k x.2.2.2.2 (maskOf x.2.1 • g) (maskOf x.2.2.1 • g) ((x.2.2.2.1 : Int) • g))
    rw [ddhAdv, h1, h2])
  simp only [hybrid_zero (show 0 < q by omega), hybrid_last] at h
  exact h

end One

/-- Multiplication of the masks by a number that is no multiple of `q`. -/
theorem mask_perm {q : Nat} (hq : q.Prime) {v : Int} (hv : ¬ (q : Int) ∣ v) :
    ∃ π : Equiv.Perm (Fin (q - 1)), ∀ b, (q : Int) ∣ maskOf (π b) - v * maskOf b := by
  have hq' : _root_.Prime (q : Int) := Nat.prime_iff_prime_int.1 hq
  have hpos : (0 : Int) < q := by exact_mod_cast hq.pos
  have hnd : ∀ b : Fin (q - 1), ¬ (q : Int) ∣ maskOf b := by
    intro b ⟨k, hk⟩
    have h1 : (0 : Int) < maskOf b := by simp only [maskOf]; omega
    have h2 : maskOf b < q := by have := b.2; simp only [maskOf]; omega
    have : (q : Int) ≤ maskOf b := Int.le_of_dvd h1 ⟨k, hk⟩
    omega
  have hr : ∀ b : Fin (q - 1), 0 < (v * maskOf b) % q ∧ (v * maskOf b) % q < q := by
    intro b
    refine ⟨?_, Int.emod_lt_of_pos _ hpos⟩
    have h0 := Int.emod_nonneg (v * maskOf b) (show (q : Int) ≠ 0 by omega)
    rcases lt_or_eq_of_le h0 with h | h
    · exact h
    · exact absurd (hq'.dvd_or_dvd (Int.dvd_of_emod_eq_zero h.symm)) (by rintro (h | h); exacts [hv h, hnd b h])
  let f : Fin (q - 1) → Fin (q - 1) := fun b => ⟨((v * maskOf b) % q).toNat - 1, by have := hr b; omega⟩
  have hf : ∀ b, maskOf (f b) = (v * maskOf b) % q := by
    intro b
    have := hr b
    simp only [f, maskOf] at *
    omega
  have hinj : Function.Injective f := by
    intro a b hab
    have h1 : (v * maskOf a) % q = (v * maskOf b) % q := by rw [← hf, ← hf, hab]
    have h2 : (q : Int) ∣ v * (maskOf a - maskOf b) := by
      rw [mul_sub]; exact Int.dvd_of_emod_eq_zero (Int.emod_eq_emod_iff_emod_sub_eq_zero.1 h1)
    rcases hq'.dvd_or_dvd h2 with h | h
    · exact absurd h hv
    · have h3 : maskOf a - maskOf b = 0 := by
        apply Int.eq_zero_of_abs_lt_dvd h
        have := a.2; have := b.2
        rw [abs_lt]; simp only [maskOf]; omega
      simp only [maskOf] at h3
      exact Fin.ext (by omega)
  refine ⟨Equiv.ofBijective f (Finite.injective_iff_bijective.1 hinj), fun b => ?_⟩
  show (q : Int) ∣ maskOf (f b) - v * maskOf b
  rw [hf]
  exact Int.dvd_of_emod_eq_zero (by rw [Int.sub_emod]; simp)

/-- An affine map of the residues. -/
theorem affine_perm {q : Nat} (hq : q.Prime) {v : Int} (hv : ¬ (q : Int) ∣ v) (d : Int) :
    ∃ π : Equiv.Perm (Fin q), ∀ c : Fin q, (q : Int) ∣ ((π c : Nat) : Int) - (v * (c : Nat) + d) := by
  have hq' : _root_.Prime (q : Int) := Nat.prime_iff_prime_int.1 hq
  have hpos : (0 : Int) < q := by exact_mod_cast hq.pos
  have hr : ∀ x : Int, 0 ≤ x % q ∧ x % q < q := fun x => ⟨Int.emod_nonneg _ (by omega), Int.emod_lt_of_pos _ hpos⟩
  let f : Fin q → Fin q := fun c => ⟨((v * (c : Nat) + d) % q).toNat, by have := hr (v * (c : Nat) + d); omega⟩
  have hf : ∀ c, ((f c : Nat) : Int) = (v * (c : Nat) + d) % q := by
    intro c
    have := hr (v * (c : Nat) + d)
    simp only [f]
    omega
  have hinj : Function.Injective f := by
    intro a b hab
    have h1 : (v * (a : Nat) + d) % q = (v * (b : Nat) + d) % q := by rw [← hf, ← hf, hab]
    have h2 : (q : Int) ∣ v * ((a : Nat) - (b : Nat) : Int) := by
      have := Int.dvd_of_emod_eq_zero (Int.emod_eq_emod_iff_emod_sub_eq_zero.1 h1)
      have e : v * (a : Nat) + d - (v * (b : Nat) + d) = v * ((a : Nat) - (b : Nat) : Int) := by ring
      rwa [e] at this
    rcases hq'.dvd_or_dvd h2 with h | h
    · exact absurd h hv
    · have h3 : ((a : Nat) - (b : Nat) : Int) = 0 := by
        apply Int.eq_zero_of_abs_lt_dvd h
        have := a.2; have := b.2
        rw [abs_lt]; omega
      exact Fin.ext (by omega)
  refine ⟨Equiv.ofBijective f (Finite.injective_iff_bijective.1 hinj), fun c => ?_⟩
  show (q : Int) ∣ ((f c : Nat) : Int) - _
  rw [hf]
  exact Int.dvd_of_emod_eq_zero (by rw [Int.sub_emod]; simp)

theorem smul_congr {g : G} {q : Nat} (hg : (q : Int) • g = 0) {a b : Int} (h : (q : Int) ∣ a - b) : a • g = b • g := by
  obtain ⟨k, hk⟩ := h
  have : a = b + k * q := by rw [mul_comm]; omega
  rw [this, add_smul, mul_smul, hg, smul_zero, add_zero]

theorem Pos.unit_ndvd {q n : Nat} (hq : q.Prime) (y : Pos n) : ¬ (q : Int) ∣ y.unit q ∧ (¬ (q : Int) ∣ y.m → (q : Int) ∣ 1 - y.unit q * y.m) := by
  have hq' : _root_.Prime (q : Int) := Nat.prime_iff_prime_int.1 hq
  rw [Pos.unit]
  by_cases h : (q : Int) ∣ y.m
  · rw [if_pos h]
    exact ⟨fun h1 => hq'.not_unit (isUnit_of_dvd_one h1), fun h' => absurd h h'⟩
  · rw [if_neg h]
    have hgcd : Int.gcd y.m q = 1 := by
      have h1 : Int.gcd y.m q ∣ q := by
        have := Int.gcd_dvd_right y.m (q : Int)
        exact_mod_cast this
      rcases (Nat.dvd_prime hq).1 h1 with h2 | h2
      · exact h2
      · exfalso; apply h
        have := Int.gcd_dvd_left y.m (q : Int)
        rwa [h2] at this
    have hb := Int.gcd_eq_gcd_ab y.m q
    rw [hgcd] at hb
    have hd : (q : Int) ∣ 1 - Int.gcdA y.m q * y.m := ⟨Int.gcdB y.m q, by rw [mul_comm (Int.gcdA _ _)]; push_cast at hb; linarith⟩
    refine ⟨fun h1 => ?_, fun _ => hd⟩
    have h2 : (q : Int) ∣ 1 := by
      have := dvd_add hd (Dvd.dvd.mul_right h1 y.m)
      simpa using this
    exact hq'.not_unit (isUnit_of_dvd_one h2)

section Two
variable {g : G} {q : Nat} {n n' : Nat}

/-- The experiment with random pairs up to `k` only. -/
def hybridMask (g : G) (q : Nat) (pos : Fin n → Pos n') (V : (Fin n' → G) → (Fin n → G × G) → Bool) (k : Nat) : ℚ :=
  prob (fun x : (Fin n' → Fin (q - 1)) × (Fin n → Fin (q - 1)) × (Fin n → Fin q) =>
    V (pointsOf g x.1) (fun j =>
      if j.val < k then (pos j).random g q (maskOf (x.2.1 j)) (x.2.2 j) else (pos j).masked g (pointsOf g x.1) (maskOf (x.2.1 j))))

theorem points_update (r : Fin n' → Fin (q - 1)) (b : Fin n') (a : Fin (q - 1)) :
    pointsOf g (Function.update r b a) = Function.update (pointsOf g r) b (maskOf a • g) := by
  funext i
  by_cases h : i = b
  · subst h; simp [pointsOf]
  · simp [pointsOf, Function.update_of_ne h]

theorem mask_real (hq : q.Prime) (hg : (q : Int) • g = 0) (pos : Unit → Fin n → Pos n') (V : Unit → (Fin n' → G) → (Fin n → G × G) → Bool) (k : Fin n) :
    ddhReal g q (reductionMask g q pos V k) = hybridMask g q (pos ()) (V ()) k.val := by
  have : Nonempty (Fin (q - 1)) := ⟨⟨0, by have := hq.two_le; omega⟩⟩
  let y := pos () k
  obtain ⟨u1, u2⟩ := y.unit_ndvd hq
  obtain ⟨π, hπ⟩ := mask_perm hq u1
  let h0 : (Fin n' → Fin (q - 1)) × (Fin n → Fin (q - 1)) × (Fin n → Fin q) → Bool := fun x =>
    V () (pointsOf g x.1) (fun j =>
      if j.val < k.val then (pos () j).random g q (maskOf (x.2.1 j)) (x.2.2 j) else (pos () j).masked g (pointsOf g x.1) (maskOf (x.2.1 j)))
  -- the base is drawn separately
  let f1 : ((Fin n → Fin (q - 1)) × (Fin n → Fin q)) × (Fin n' → Fin (q - 1)) → Bool := fun x => h0 (x.2, x.1)
  -- the mask is drawn separately
  let f2 : (Fin (q - 1) × (Fin n' → Fin (q - 1)) × (Fin n → Fin q)) × (Fin n → Fin (q - 1)) → Bool := fun x =>
    f1 ((x.2, x.1.2.2), Function.update x.1.2.1 y.base x.1.1)
  let e1 : (Fin n' → Fin (q - 1)) × (Fin n → Fin (q - 1)) × (Fin n → Fin q) ≃ ((Fin n → Fin (q - 1)) × (Fin n → Fin q)) × (Fin n' → Fin (q - 1)) :=
    { toFun := fun x => (x.2, x.1), invFun := fun z => (z.2, z.1), left_inv := fun _ => rfl, right_inv := fun _ => rfl }
  let e2 : Fin (q - 1) × ((Fin n → Fin (q - 1)) × (Fin n → Fin q)) × (Fin n' → Fin (q - 1)) ≃
      (Fin (q - 1) × (Fin n' → Fin (q - 1)) × (Fin n → Fin q)) × (Fin n → Fin (q - 1)) :=
    { toFun := fun x => ((x.1, x.2.2, x.2.1.2), x.2.1.1), invFun := fun z => (z.1.1, (z.2, z.1.2.2), z.1.2.1),
      left_inv := fun _ => rfl, right_inv := fun _ => rfl }
  let e3 : Fin (q - 1) × Fin (q - 1) × Unit × (Fin n' → Fin (q - 1)) × (Fin n → Fin (q - 1)) × (Fin n → Fin q) ≃
      Fin (q - 1) × (Fin (q - 1) × (Fin n' → Fin (q - 1)) × (Fin n → Fin q)) × (Fin n → Fin (q - 1)) :=
    { toFun := fun x => (π x.2.1, (x.1, x.2.2.2.1, x.2.2.2.2.2), x.2.2.2.2.1),
      invFun := fun z => (z.2.1.1, π.symm z.1, (), z.2.1.2.1, z.2.2, z.2.1.2.2),
      left_inv := fun x => by simp, right_inv := fun z => by simp }
  refine Eq.trans ?_ (prob_equiv e1 f1).symm
  refine Eq.trans ?_ (prob_update y.base f1)
  refine Eq.trans ?_ (prob_equiv e2 f2).symm
  refine Eq.trans ?_ (prob_update k f2)
  refine Eq.trans ?_ (prob_equiv e3 _)
  rw [ddhReal]
  congr 1
  funext x
  obtain ⟨a, b, ⟨⟩, r, al, ta⟩ := x
  show reductionMask g q pos V k _ _ _ _ = h0 _
  simp only [reductionMask, h0, e3, Equiv.coe_fn_mk, points_update]
  congr 1
  funext j
  rcases lt_trichotomy j k with h | h | h
  · have hne : j ≠ k := ne_of_lt h
    rw [if_pos h, if_pos (show j.val < k.val from h), Function.update_of_ne hne]
  · subst h
    rw [if_neg (lt_irrefl _), if_pos rfl, if_neg (lt_irrefl _), Function.update_self]
    have hbase : Function.update (pointsOf g r) y.base (maskOf a • g) (pos () j).base = maskOf a • g := Function.update_self ..
    simp only [Pos.masked, hbase]
    have hm : ∀ z : G, (q : Int) • z = 0 → maskOf (π b) • z = (y.unit q * maskOf b) • z := fun z hz => smul_congr hz (hπ b)
    have hz : ∀ t : Int, (q : Int) • t • g = 0 := fun t => by rw [smul_comm, hg, smul_zero]
    congr 1
    · show y.unit q • (y.eps • maskOf b • maskOf a • g + y.off • maskOf b • g) = maskOf (π b) • (y.eps • maskOf a • g + y.off • g)
      rw [smul_add (maskOf (π b)), smul_smul y.eps (maskOf a), hm _ (hz _), hm _ (hz _)]
      simp only [smul_add, smul_smul]
      congr 2 <;> ring
    · show (if (q : Int) ∣ y.m then 0 else maskOf b • g) = maskOf (π b) • y.m • g
      rw [hm _ (hz _), smul_smul]
      by_cases hd : (q : Int) ∣ y.m
      · rw [if_pos hd]
        rw [smul_congr hg (b := 0) (by rw [sub_zero]; exact Dvd.dvd.mul_left hd _), zero_smul]
      · rw [if_neg hd]
        refine smul_congr hg ?_
        have := Dvd.dvd.mul_left (u2 hd) (maskOf b)
        have e : maskOf b * (1 - y.unit q * y.m) = maskOf b - y.unit q * maskOf b * y.m := by ring
        rwa [e] at this
  · have hne : j ≠ k := ne_of_gt h
    rw [if_neg (not_lt_of_gt h), if_neg hne, if_neg (not_lt_of_gt (show k.val < j.val from h)), Function.update_of_ne hne]

theorem mask_rand (hq : q.Prime) (hg : (q : Int) • g = 0) (pos : Unit → Fin n → Pos n') (heps : ∀ k, ¬ (q : Int) ∣ (pos () k).eps)
    (V : Unit → (Fin n' → G) → (Fin n → G × G) → Bool) (k : Fin n) :
    ddhRand g q (reductionMask g q pos V k) = hybridMask g q (pos ()) (V ()) (k.val + 1) := by
  have : Nonempty (Fin (q - 1)) := ⟨⟨0, by have := hq.two_le; omega⟩⟩
  have : Nonempty (Fin q) := ⟨⟨0, hq.pos⟩⟩
  have hq' : _root_.Prime (q : Int) := Nat.prime_iff_prime_int.1 hq
  let y := pos () k
  obtain ⟨u1, -⟩ := y.unit_ndvd hq
  have hve : ¬ (q : Int) ∣ y.unit q * y.eps := fun h => (hq'.dvd_or_dvd h).elim u1 (heps k)
  choose π hπ using fun b : Fin (q - 1) => affine_perm hq hve (y.unit q * y.off * maskOf b)
  let h0 : (Fin n' → Fin (q - 1)) × (Fin n → Fin (q - 1)) × (Fin n → Fin q) → Bool := fun x =>
    V () (pointsOf g x.1) (fun j =>
      if j.val < k.val + 1 then (pos () j).random g q (maskOf (x.2.1 j)) (x.2.2 j) else (pos () j).masked g (pointsOf g x.1) (maskOf (x.2.1 j)))
  let f1 : ((Fin n → Fin (q - 1)) × (Fin n → Fin q)) × (Fin n' → Fin (q - 1)) → Bool := fun x => h0 (x.2, x.1)
  let f2 : (Fin (q - 1) × (Fin n' → Fin (q - 1)) × (Fin n → Fin q)) × (Fin n → Fin (q - 1)) → Bool := fun x =>
    f1 ((x.2, x.1.2.2), Function.update x.1.2.1 y.base x.1.1)
  let f3 : (Fin (q - 1) × Fin (q - 1) × (Fin n' → Fin (q - 1)) × (Fin n → Fin (q - 1))) × (Fin n → Fin q) → Bool := fun x =>
    f2 ((x.1.2.1, x.1.2.2.1, x.2), Function.update x.1.2.2.2 k x.1.1)
  let e1 : (Fin n' → Fin (q - 1)) × (Fin n → Fin (q - 1)) × (Fin n → Fin q) ≃ ((Fin n → Fin (q - 1)) × (Fin n → Fin q)) × (Fin n' → Fin (q - 1)) :=
    { toFun := fun x => (x.2, x.1), invFun := fun z => (z.2, z.1), left_inv := fun _ => rfl, right_inv := fun _ => rfl }
  let e2 : Fin (q - 1) × ((Fin n → Fin (q - 1)) × (Fin n → Fin q)) × (Fin n' → Fin (q - 1)) ≃
      (Fin (q - 1) × (Fin n' → Fin (q - 1)) × (Fin n → Fin q)) × (Fin n → Fin (q - 1)) :=
    { toFun := fun x => ((x.1, x.2.2, x.2.1.2), x.2.1.1), invFun := fun z => (z.1.1, (z.2, z.1.2.2), z.1.2.1),
      left_inv := fun _ => rfl, right_inv := fun _ => rfl }
  let e3 : Fin (q - 1) × (Fin (q - 1) × (Fin n' → Fin (q - 1)) × (Fin n → Fin q)) × (Fin n → Fin (q - 1)) ≃
      (Fin (q - 1) × Fin (q - 1) × (Fin n' → Fin (q - 1)) × (Fin n → Fin (q - 1))) × (Fin n → Fin q) :=
    { toFun := fun x => ((x.1, x.2.1.1, x.2.1.2.1, x.2.2), x.2.1.2.2), invFun := fun z => (z.1.1, (z.1.2.1, z.1.2.2.1, z.2), z.1.2.2.2),
      left_inv := fun _ => rfl, right_inv := fun _ => rfl }
  let e4 : Fin (q - 1) × Fin (q - 1) × Fin q × Unit × (Fin n' → Fin (q - 1)) × (Fin n → Fin (q - 1)) × (Fin n → Fin q) ≃
      Fin q × (Fin (q - 1) × Fin (q - 1) × (Fin n' → Fin (q - 1)) × (Fin n → Fin (q - 1))) × (Fin n → Fin q) :=
    { toFun := fun x => (π x.2.1 x.2.2.1, (x.2.1, x.1, x.2.2.2.2.1, x.2.2.2.2.2.1), x.2.2.2.2.2.2),
      invFun := fun z => (z.2.1.2.1, z.2.1.1, (π z.2.1.1).symm z.1, (), z.2.1.2.2.1, z.2.1.2.2.2, z.2.2),
      left_inv := fun x => by simp, right_inv := fun z => by simp }
  refine Eq.trans ?_ (prob_equiv e1 f1).symm
  refine Eq.trans ?_ (prob_update y.base f1)
  refine Eq.trans ?_ (prob_equiv e2 f2).symm
  refine Eq.trans ?_ (prob_update k f2)
  refine Eq.trans ?_ (prob_equiv e3 f3).symm
  refine Eq.trans ?_ (prob_update k f3)
  refine Eq.trans ?_ (prob_equiv e4 _)
  rw [ddhRand]
  congr 1
  funext x
  obtain ⟨a, b, cc, ⟨⟩, r, al, ta⟩ := x
  show reductionMask g q pos V k _ _ _ _ = h0 _
  simp only [reductionMask, h0, e4, Equiv.coe_fn_mk, points_update]
  congr 1
  funext j
  rcases lt_trichotomy j k with h | h | h
  · have hne : j ≠ k := ne_of_lt h
    have hv : j.val < k.val := h
    rw [if_pos h, if_pos (by omega), Function.update_of_ne hne, Function.update_of_ne hne]
  · subst h
    rw [if_neg (lt_irrefl _), if_pos rfl, if_pos (Nat.lt_succ_self _), Function.update_self, Function.update_self]
    simp only [Pos.random]
    congr 1
    show y.unit q • (y.eps • (cc : Int) • g + y.off • maskOf b • g) = ((π b cc : Nat) : Int) • g
    rw [smul_congr hg (hπ b cc)]
    simp only [smul_add, smul_smul, ← add_smul]
    congr 1
    ring
  · have hne : j ≠ k := ne_of_gt h
    have hv : k.val < j.val := h
    rw [if_neg (not_lt_of_gt h), if_neg hne, if_neg (by omega), Function.update_of_ne hne]

/-- Replacing all masked pairs by random ones changes an experiment by at most the advantages of the distinguishers. -/
theorem hybridMask_bound (hq : q.Prime) (hg : (q : Int) • g = 0) {Ω : Type} [Fintype Ω] (pos : Ω → Fin n → Pos n')
    (heps : ∀ ω k, ¬ (q : Int) ∣ (pos ω k).eps) (V : Ω → (Fin n' → G) → (Fin n → G × G) → Bool) :
    |avg (fun ω => hybridMask g q (pos ω) (V ω) 0) - avg (fun ω => hybridMask g q (pos ω) (V ω) n)| ≤
      ∑ k, ddhAdv g q (reductionMask g q pos V k) := by
  refine telescope (n := n) (fun k => avg (fun ω => hybridMask g q (pos ω) (V ω) k)) _ (fun k => ?_)
  have h1 : ddhReal g q (reductionMask g q pos V k) = avg (fun ω => hybridMask g q (pos ω) (V ω) k.val) := by
    have : ∀ ω, hybridMask g q (pos ω) (V ω) k.val = ddhReal g q (reductionMask g q (fun _ : Unit => pos ω) (fun _ => V ω) k) :=
      fun ω => (mask_real hq hg (fun _ => pos ω) (fun _ => V ω) k).symm
    simp only [this, ddhReal]
    let e : Fin (q - 1) × Fin (q - 1) × Ω × (Fin n' → Fin (q - 1)) × (Fin n → Fin (q - 1)) × (Fin n → Fin q) ≃
        Ω × Fin (q - 1) × Fin (q - 1) × Unit × (Fin n' → Fin (q - 1)) × (Fin n → Fin (q - 1)) × (Fin n → Fin q) :=
      { toFun := fun x => (x.2.2.1, x.1, x.2.1, (), x.2.2.2), invFun := fun y => (y.2.1, y.2.2.1, y.1, y.2.2.2.2),
        left_inv := fun _ => rfl, right_inv := fun _ => rfl }
    refine Eq.trans ?_ (prob_prod (fun x : Ω × Fin (q - 1) × Fin (q - 1) × Unit × (Fin n' → Fin (q - 1)) × (Fin n → Fin (q - 1)) × (Fin n → Fin q) =>
      reductionMask g q (fun _ : Unit => pos x.1) (fun _ => V x.1) k x.2.2.2 (maskOf x.2.1 • g) (maskOf x.2.2.1 • g) (maskOf x.2.2.1 • maskOf x.2.1 • g)))
    exact prob_equiv e (fun x : Ω × Fin (q - 1) × Fin (q - 1) × Unit × (Fin n' → Fin (q - 1)) × (Fin n → Fin (q - 1)) × (Fin n → Fin q) =>
      reductionMask g q (fun _ : Unit => pos x.1) (fun _ => V x.1) k x.2.2.2 (maskOf x.2.1 • g) (maskOf x.2.2.1 • g) (maskOf x.2.2.1 • maskOf x.2.1 • g))
  have h2 : ddhRand g q (reductionMask g q pos V k) = avg (fun ω => hybridMask g q (pos ω) (V ω) (k.val + 1)) := by
    have : ∀ ω, hybridMask g q (pos ω) (V ω) (k.val + 1) = ddhRand g q (reductionMask g q (fun _ : Unit => pos ω) (fun _ => V ω) k) :=
      fun ω => (mask_rand hq hg (fun _ => pos ω) (heps ω) (fun _ => V ω) k).symm
    simp only [this, ddhRand]
    let e : Fin (q - 1) × Fin (q - 1) × Fin q × Ω × (Fin n' → Fin (q - 1)) × (Fin n → Fin (q - 1)) × (Fin n → Fin q) ≃
        Ω × Fin (q - 1) × Fin (q - 1) × Fin q × Unit × (Fin n' → Fin (q - 1)) × (Fin n → Fin (q - 1)) × (Fin n → Fin q) :=
      { toFun := fun x => (x.2.2.2.1, x.1, x.2.1, x.2.2.1, (), x.2.2.2.2), invFun := fun y => (y.2.1, y.2.2.1, y.2.2.2.1, y.1, y.2.2.2.2.2),
        left_inv := fun _ => rfl, right_inv := fun _ => rfl }
    refine Eq.trans ?_ (prob_prod (fun x : Ω × Fin (q - 1) × Fin (q - 1) × Fin q × Unit × (Fin n' → Fin (q - 1)) × (Fin n → Fin (q - 1)) × (Fin n → Fin q) =>
      reductionMask g q (fun _ : Unit => pos x.1) (fun _ => V x.1) k x.2.2.2.2 (maskOf x.2.1 • g) (maskOf x.2.2.1 • g) ((x.2.2.2.1 : Int) • g)))
    exact prob_equiv e (fun x : Ω × Fin (q - 1) × Fin (q - 1) × Fin q × Unit × (Fin n' → Fin (q - 1)) × (Fin n → Fin (q - 1)) × (Fin n → Fin q) =>
      reductionMask g q (fun _ : Unit => pos x.1) (fun _ => V x.1) k x.2.2.2.2 (maskOf x.2.1 • g) (maskOf x.2.2.1 • g) ((x.2.2.2.1 : Int) • g))
  rw [ddhAdv, h1, h2]

end Two

end Upsi.Hide
