import Verif.Paillier.Model
import Verif.Num.ModularProps
import Mathlib.Data.Nat.Choose.Sum
import Mathlib.NumberTheory.Basic
import Mathlib.FieldTheory.Finite.Basic
import Mathlib.Tactic.Linarith
/- Number theory and loop lemmas for Paillier. -/
namespace Upsi.Paillier
open Upsi Upsi.Num Finset

/-- Falling factorial `x (x-1) ... (x-k+1)`. -/
def ff (x : Int) : Nat → Int
  | 0 => 1
  | k + 1 => ff x k * (x - k)

theorem ff_choose (a k : Nat) : (a.choose k : Int) * (k.factorial : Int) = ff a k := by
  induction k with
  | zero => simp [ff]
  | succ k ih =>
    have h := Nat.choose_succ_right_eq a k
    rw [ff, ← ih, Nat.factorial_succ]
    push_cast
    by_cases hk : k ≤ a
    · have h' : (a.choose (k + 1) : Int) * (k + 1) = a.choose k * ((a : Int) - k) := by
        have := congrArg (Nat.cast : Nat → Int) h
        push_cast [Nat.cast_sub hk] at this
        exact this
      linear_combination (k.factorial : Int) * h'
    · rw [Nat.choose_eq_zero_of_lt (by omega : a < k), Nat.choose_eq_zero_of_lt (by omega : a < k + 1)]
      simp

theorem ff_modEq {x y m : Int} (h : x ≡ y [ZMOD m]) (k : Nat) : ff x k ≡ ff y k [ZMOD m] := by
  induction k with
  | zero => exact Int.ModEq.refl _
  | succ k ih => exact ih.mul (h.sub_right _)

/-- Partial sums of the binomial expansion of `(1+N)^a`. -/
def bsum (a : Nat) (N : Int) (j : Nat) : Int := ∑ i ∈ range j, (a.choose i : Int) * N ^ i

theorem bsum_full (a : Nat) (N : Int) (j : Nat) (h : a < j) : bsum a N j = (1 + N) ^ a := by
  rw [bsum, add_comm, add_pow]
  have : range j = range (a + 1) ∪ Ico (a + 1) j := by
    ext i; simp; omega
  rw [this, sum_union (by rw [disjoint_left]; intro i; simp; omega)]
  have h0 : ∑ i ∈ Ico (a + 1) j, (a.choose i : Int) * N ^ i = 0 := by
    apply sum_eq_zero
    intro i hi
    rw [mem_Ico] at hi
    rw [Nat.choose_eq_zero_of_lt (by omega)]; simp
  rw [h0, add_zero]
  apply sum_congr rfl
  intro i _
  simp [mul_comm]

/-- Truncating the expansion after the `s`-th power is exact modulo `M^(s+1)`. -/
theorem bsum_modEq (a : Nat) {M N : Int} (hd : M ∣ N) (s : Nat) (j : Nat) (hj : s ≤ j) :
    bsum a N j ≡ bsum a N s [ZMOD M ^ s] := by
  induction j, hj using Nat.le_induction with
  | base => exact Int.ModEq.refl _
  | succ j hj ih =>
    rw [bsum, sum_range_succ, ← bsum]
    have : (a.choose j : Int) * N ^ j ≡ 0 [ZMOD M ^ s] := by
      rw [Int.modEq_zero_iff_dvd]
      exact ((pow_dvd_pow M hj).trans (pow_dvd_pow_of_dvd hd j)).mul_left _
    simpa using ih.add this

theorem one_add_pow_trunc (a : Nat) {M N : Int} (hd : M ∣ N) (s : Nat) :
    (1 + N) ^ a ≡ bsum a N s [ZMOD M ^ s] := by
  rw [← bsum_full a N (a + s + 1) (by omega)]
  exact bsum_modEq a hd s _ (by omega)

theorem one_add_pow_period {M : Nat} {N : Int} (hd : (M : Int) ∣ N) (k : Nat) :
    (1 + N) ^ (M ^ k) ≡ 1 [ZMOD (M : Int) ^ (k + 1)] := by
  have := dvd_sub_pow_of_dvd_sub (R := Int) (p := M) (a := 1 + N) (b := 1) (by simpa using hd) k
  rw [one_pow] at this
  exact ((Int.modEq_iff_dvd).2 this).symm

theorem one_add_pow_mod {M : Nat} {N : Int} (hd : (M : Int) ∣ N) (k a : Nat) :
    (1 + N) ^ (a % M ^ k) ≡ (1 + N) ^ a [ZMOD (M : Int) ^ (k + 1)] := by
  conv => rhs; rw [← Nat.mod_add_div a (M ^ k), pow_add, pow_mul]
  simpa using (((one_add_pow_period hd k).pow (a / M ^ k)).mul_left ((1 + N) ^ (a % M ^ k))).symm

/-! ### tables -/

theorem powersGo_get (num : Int) (k : Nat) : ∀ (last : Int) (i : Nat), i ≤ k →
    (powersGo num k last)[i]? = some (last * num ^ i) := by
  induction k with
  | zero => intro last i hi; obtain rfl : i = 0 := by omega
            simp [powersGo]
  | succ k ih =>
    intro last i hi
    match i with
    | 0 => simp [powersGo]
    | i + 1 =>
      rw [powersGo, List.getElem?_cons_succ, ih _ _ (by omega), pow_succ]
      congr 1; ring

theorem getPowers_get (num : Int) (s i : Nat) (h : i ≤ s + 1) :
    vget (getPowers num s) i = .ok (num ^ i) := by
  rw [vget_eq_ok, getPowers, powersGo_get _ _ _ _ h, one_mul]

/-- The precomputed table: entry `i` is `num^i / i!` modulo `modulus`. -/
def PreOK (num modulus : Int) (s : Nat) (pre : List Int) : Prop :=
  pre.length = s + 1 ∧ ∀ i, i ≤ s → ∃ x, pre[i]? = some x ∧
    x * (i.factorial : Int) ≡ num ^ i [ZMOD modulus]

theorem precompGo_spec {num modulus : Int} (hm : modulus ≠ 0) (k : Nat) : ∀ (i : Nat) (last : Int),
    (∀ j, i < j → j ≤ i + k → Int.gcd (j : Int) modulus = 1) →
    last * (i.factorial : Int) ≡ num ^ i [ZMOD modulus] →
    ∃ l, precompGo num modulus k i last = .ok l ∧ l.length = k + 1 ∧
      ∀ j, j ≤ k → ∃ x, l[j]? = some x ∧
        x * ((i + j).factorial : Int) ≡ num ^ (i + j) [ZMOD modulus] := by
  induction k with
  | zero =>
    intro i last _ hl
    exact ⟨[last], rfl, rfl, fun j hj => ⟨last, by obtain rfl : j = 0 := by omega
                                                   rfl, by
      obtain rfl : j = 0 := by omega
      simpa using hl⟩⟩
  | succ k ih =>
    intro i last hg hl
    obtain ⟨v, hv, he⟩ := modInverse_ok (a := (i : Int) + 1) (m := modulus) (by
      have := hg (i + 1) (by omega) (by omega); push_cast at this; exact this)
    have hnext : (last * (v * num % modulus) % modulus) * (((i + 1).factorial : Nat) : Int) ≡ num ^ (i + 1) [ZMOD modulus] := by
      rw [Nat.factorial_succ]; push_cast
      calc (last * (v * num % modulus) % modulus) * (((i : Int) + 1) * (i.factorial : Int))
          ≡ (last * (v * num)) * (((i : Int) + 1) * (i.factorial : Int)) [ZMOD modulus] :=
            ((Int.mod_modEq _ _).trans ((Int.mod_modEq _ _).mul_left _)).mul_right _
        _ = (last * (i.factorial : Int)) * num * (v * ((i : Int) + 1)) := by ring
        _ ≡ num ^ i * num * 1 [ZMOD modulus] := (hl.mul_right _).mul he
        _ = num ^ (i + 1) := by ring
    obtain ⟨l, h1, h2, h3⟩ := ih (i + 1) _ (fun j hj hj' => hg j (by omega) (by omega)) hnext
    refine ⟨last :: l, by simp [precompGo, hv, modMul, hm, Outcome.bind_ok, Outcome.pure_eq, h1],
      by simp [h2], ?_⟩
    intro j hj
    match j with
    | 0 => exact ⟨last, rfl, hl⟩
    | j + 1 =>
      obtain ⟨x, hx, hx'⟩ := h3 j (by omega)
      exact ⟨x, by simpa using hx, by rw [show i + (j + 1) = i + 1 + j by omega]; exact hx'⟩

theorem getPrecomp_spec {num modulus : Int} (hm : modulus ≠ 0) (s : Nat)
    (hg : ∀ j : Nat, 0 < j → j ≤ s → Int.gcd (j : Int) modulus = 1) :
    ∃ l, getPrecomp num modulus s = .ok l ∧ PreOK num modulus s l := by
  obtain ⟨l, h1, h2, h3⟩ := precompGo_spec (num := num) hm s 0 1
    (fun j h h' => hg j h (by omega)) (by simp)
  exact ⟨l, h1, h2, fun i hi => by simpa using h3 i hi⟩

/-- Numbers up to `s` are coprime to `M`. -/
def Small (s : Nat) (M : Int) : Prop := ∀ j : Nat, 0 < j → j ≤ s → IsCoprime (j : Int) M

theorem Small.factorial {s : Nat} {M : Int} (h : Small s M) : ∀ j, j ≤ s → IsCoprime (j.factorial : Int) M := by
  intro j
  induction j with
  | zero => intro _; simp [isCoprime_one_left]
  | succ j ih =>
    intro hj
    rw [Nat.factorial_succ]; push_cast
    exact IsCoprime.mul_left (by have := h (j + 1) (by omega) hj; push_cast at this; exact this) (ih (by omega))

theorem Small.gcd {s : Nat} {M : Int} (h : Small s M) (k : Nat) (j : Nat) (h0 : 0 < j) (hj : j ≤ s) :
    Int.gcd (j : Int) (M ^ k) = 1 := Int.isCoprime_iff_gcd_eq_one.1 ((h j h0 hj).pow_right)

/-- An entry `x ≡ N^i / f` (f coprime to M) is divisible by `M^i` as long as `i` does not exceed the
exponent of the modulus. -/
theorem dvd_entry {M N x f : Int} {i e : Nat} (hd : M ∣ N) (hf : IsCoprime f M) (hie : i ≤ e)
    {k : Nat} (hik : i ≤ k) (hx : x * f ≡ N ^ k [ZMOD M ^ e]) : M ^ i ∣ x := by
  have h1 : M ^ i ∣ x * f := by
    have h2 : x * f ≡ N ^ k [ZMOD M ^ i] := hx.of_dvd (pow_dvd_pow M hie)
    have h3 : N ^ k ≡ 0 [ZMOD M ^ i] :=
      Int.modEq_zero_iff_dvd.2 ((pow_dvd_pow M hik).trans (pow_dvd_pow_of_dvd hd k))
    exact Int.modEq_zero_iff_dvd.1 (h2.trans h3)
  exact (hf.symm.pow_left).dvd_of_dvd_mul_right h1

theorem modEq_mul_of_dvd {a b M x : Int} {i k e : Nat} (h : a ≡ b [ZMOD M ^ i]) (hx : M ^ k ∣ x)
    (he : e ≤ i + k) : a * x ≡ b * x [ZMOD M ^ e] := by
  rw [Int.modEq_iff_dvd] at h ⊢
  rw [← sub_mul]
  exact (pow_dvd_pow M he).trans (by rw [pow_add]; exact mul_dvd_mul h hx)

/-! ### binomial expansion -/

theorem binGo_spec {M : Nat} (hM : (M : Int) ≠ 0) {N : Int} (hd : (M : Int) ∣ N) {s : Nat} (hs : Small s M)
    {pre : List Int} (hpre : PreOK N ((M : Int) ^ (s + 1)) s pre) (a : Nat) :
    ∀ (k j : Nat) (tmp c : Int), 1 ≤ j → j + k = s + 1 →
    tmp ≡ ff a (j - 1) [ZMOD (M : Int) ^ (s + 2 - j)] →
    c ≡ bsum a N j [ZMOD (M : Int) ^ (s + 1)] →
    ∃ r, binGo pre (getPowers M s) s a k j tmp c = .ok r ∧
      r ≡ (1 + N) ^ a [ZMOD (M : Int) ^ (s + 1)] := by
  intro k
  induction k with
  | zero =>
    intro j tmp c _ hjk _ hc
    obtain rfl : j = s + 1 := by omega
    exact ⟨c, rfl, hc.trans (one_add_pow_trunc a hd (s + 1)).symm⟩
  | succ k ih =>
    intro j tmp c hj hjk ht hc
    by_cases hlt : (a : Int) < j
    · refine ⟨c, by simp [binGo, hlt], ?_⟩
      rw [bsum_full a N j (by omega)] at hc
      exact hc
    · obtain ⟨x, hx, hx'⟩ := hpre.2 j (by omega)
      have hpw : (M : Int) ^ (s - j + 1) ≠ 0 := pow_ne_zero _ hM
      have hpw' : (M : Int) ^ (s + 1) ≠ 0 := pow_ne_zero _ hM
      have ht' : tmp * ((a : Int) - j + 1) % (M : Int) ^ (s - j + 1) ≡ ff a j [ZMOD (M : Int) ^ (s + 1 - j)] := by
        rw [show s + 1 - j = s - j + 1 by omega]
        refine (Int.mod_modEq _ _).trans ?_
        obtain ⟨j', rfl⟩ : ∃ j', j = j' + 1 := ⟨j - 1, by omega⟩
        rw [ff]
        refine Int.ModEq.mul (ht.of_dvd (pow_dvd_pow _ (by omega))) ?_
        push_cast
        rw [show (a : Int) - (j' + 1) + 1 = a - j' by ring]
      have hterm : (tmp * ((a : Int) - j + 1) % (M : Int) ^ (s - j + 1)) * x % (M : Int) ^ (s + 1) ≡
          (a.choose j : Int) * N ^ j [ZMOD (M : Int) ^ (s + 1)] := by
        refine (Int.mod_modEq _ _).trans ?_
        refine (modEq_mul_of_dvd ht' (dvd_entry hd (hs.factorial j (by omega)) (by omega) le_rfl hx')
          (by omega)).trans ?_
        rw [← ff_choose]
        calc (a.choose j : Int) * (j.factorial : Int) * x = a.choose j * (x * j.factorial) := by ring
          _ ≡ _ [ZMOD (M : Int) ^ (s + 1)] := hx'.mul_left _
      have hc' : c + (tmp * ((a : Int) - j + 1) % (M : Int) ^ (s - j + 1)) * x % (M : Int) ^ (s + 1) ≡
          bsum a N (j + 1) [ZMOD (M : Int) ^ (s + 1)] := by
        rw [bsum, sum_range_succ, ← bsum]; exact hc.add hterm
      obtain ⟨r, hr, hr'⟩ := ih (j + 1)
        (tmp * ((a : Int) - j + 1) % (M : Int) ^ (s - j + 1)) _ (by omega) (by omega)
        (by rw [show s + 2 - (j + 1) = s + 1 - j by omega]; exact ht') hc'
      refine ⟨r, ?_, hr'⟩
      rw [binGo, if_neg hlt, getPowers_get _ _ _ (by omega), getPowers_get _ _ _ (by omega)]
      simp only [Outcome.bind_ok, modMul, hpw, hpw', if_false, vget, hx]
      exact hr

theorem binomialExpansion_spec {M : Nat} (hM : (M : Int) ≠ 0) {N : Int} (hd : (M : Int) ∣ N) {s : Nat}
    (hs : Small s M) {pre : List Int} (hpre : PreOK N ((M : Int) ^ (s + 1)) s pre) (m : Nat) :
    ∃ r, binomialExpansion pre (getPowers M s) m = .ok r ∧
      r ≡ (1 + N) ^ m [ZMOD (M : Int) ^ (s + 1)] := by
  have hl : pre.length - 1 = s := by rw [hpre.1]; rfl
  obtain ⟨r, hr, hr'⟩ := binGo_spec hM hd hs hpre (m % M ^ s) s 1 1 1 le_rfl (by omega)
    (by simp [ff]) (by simp [bsum])
  refine ⟨r, ?_, hr'.trans (one_add_pow_mod hd s m)⟩
  have hps : (M : Int) ^ s ≠ 0 := pow_ne_zero _ hM
  rw [binomialExpansion, hl, getPowers_get _ _ _ (by omega)]
  simp only [Outcome.bind_ok, mod, hps, if_false]
  have : (m : Int) % (M : Int) ^ s = ((m % M ^ s : Nat) : Int) := by push_cast; rfl
  rw [this]
  exact hr

end Upsi.Paillier
