import Verif.Paillier.Lemmas
/- Correctness of the decryption loops of `PrimeCrypto`. -/
namespace Upsi.Paillier
open Upsi Upsi.Num Finset

/-! ### the decryption table -/

/-- Entry `(k, j)` of the table is `n^(k-1) / k!` modulo `p^j`. -/
def EntryOK (p n : Int) (k j : Nat) (v : Int) : Prop :=
  v * (k.factorial : Int) ≡ n ^ (k - 1) [ZMOD p ^ j]

/-- All entries of rows `lo ≤ k < hi` are right. -/
def TableOK (p n : Int) (s lo hi : Nat) (t : Table) : Prop :=
  ∀ k j, lo ≤ k → k < hi → k ≤ j → j ≤ s → ∃ v, t.lookup (k, j) = some v ∧ EntryOK p n k j v

theorem lookup_cons_ne {x y : Nat × Nat} (h : x ≠ y) (v : Int) (t : Table) :
    List.lookup x ((y, v) :: t) = List.lookup x t := by
  have : (x == y) = false := by simpa using h
  simp only [List.lookup_cons, this]

theorem tableRow_spec {p n : Int} (hp : p ≠ 0) {s : Nat} (k : Nat) (hk : 2 ≤ k) :
    ∀ (J : Nat) (v : Int) (t : Table), J + 1 ≤ s → EntryOK p n k (J + 1) v →
    ∃ t', tableRow (getPowers p s) k J v t = .ok t' ∧
      (∀ j, k ≤ j → j ≤ J → ∃ w, t'.lookup (k, j) = some w ∧ EntryOK p n k j w) ∧
      (∀ k' j', (k' ≠ k ∨ J < j') → t'.lookup (k', j') = t.lookup (k', j')) := by
  intro J
  induction J with
  | zero =>
    intro v t _ _
    exact ⟨t, rfl, fun j h1 h2 => by omega, fun _ _ _ => rfl⟩
  | succ J ih =>
    intro v t hJ hv
    by_cases hlt : J + 1 < k
    · exact ⟨t, by rw [tableRow, if_pos hlt], fun j h1 h2 => by omega, fun _ _ _ => rfl⟩
    · have hpw : p ^ (J + 1) ≠ 0 := pow_ne_zero _ hp
      have hv' : EntryOK p n k (J + 1) (v % p ^ (J + 1)) := by
        unfold EntryOK at *
        exact ((Int.mod_modEq _ _).mul_right _).trans (hv.of_dvd (pow_dvd_pow p (by omega)))
      obtain ⟨t', h1, h2, h3⟩ := ih (v % p ^ (J + 1)) (((k, J + 1), v % p ^ (J + 1)) :: t) (by omega) hv'
      refine ⟨t', ?_, ?_, ?_⟩
      · rw [tableRow, if_neg hlt, getPowers_get _ _ _ (by omega)]
        simp only [Outcome.bind_ok, mod, hpw, if_false]
        exact h1
      · intro j hj1 hj2
        by_cases hj : j ≤ J
        · exact h2 j hj1 hj
        · obtain rfl : j = J + 1 := by omega
          refine ⟨_, ?_, hv'⟩
          rw [h3 k (J + 1) (Or.inr (by omega))]
          simp [List.lookup_cons]
      · intro k' j' h
        rw [h3 k' j' (by omega), lookup_cons_ne]
        intro e
        simp only [Prod.mk.injEq] at e
        omega

theorem tableGo_spec {p : Nat} (hp : (p : Int) ≠ 0) {n : Int} {s : Nat} (hs : Small s p)
    {pre : List Int} (hpre : PreOK n ((p : Int) ^ (s + 1)) s pre) : ∀ (c k : Nat) (t : Table),
    2 ≤ k → c + k ≤ s + 1 → TableOK p n s 2 k t →
    ∃ t', tableGo pre (getPowers p s) s c k t = .ok t' ∧ TableOK p n s 2 (k + c) t' := by
  intro c
  induction c with
  | zero => intro k t _ _ ht; exact ⟨t, rfl, ht⟩
  | succ c ih =>
    intro k t hk hc ht
    have hps : (p : Int) ^ s ≠ 0 := pow_ne_zero _ hp
    obtain ⟨ki, hki, hke⟩ := modInverse_ok (hs.gcd s k (by omega) (by omega))
    obtain ⟨x, hx, hx'⟩ := hpre.2 (k - 1) (by omega)
    have hv : EntryOK p n k s (ki * x % (p : Int) ^ s) := by
      unfold EntryOK
      obtain ⟨k', rfl⟩ : ∃ k', k = k' + 1 := ⟨k - 1, by omega⟩
      rw [Nat.factorial_succ]; push_cast at hke ⊢
      calc ki * x % (p : Int) ^ s * (((k' : Int) + 1) * k'.factorial)
          ≡ ki * x * (((k' : Int) + 1) * k'.factorial) [ZMOD (p : Int) ^ s] := (Int.mod_modEq _ _).mul_right _
        _ = (ki * ((k' : Int) + 1)) * (x * k'.factorial) := by ring
        _ ≡ 1 * n ^ k' [ZMOD (p : Int) ^ s] :=
          hke.mul (hx'.of_dvd (pow_dvd_pow _ (by omega)))
        _ = n ^ (k' + 1 - 1) := by simp
    obtain ⟨S, hS⟩ : ∃ S, s = S + 1 := ⟨s - 1, by omega⟩
    have hv2 : EntryOK p n k (s - 1 + 1) (ki * x % (p : Int) ^ s) := by
      rw [show s - 1 + 1 = s by omega]; exact hv
    obtain ⟨t', h1, h2, h3⟩ := tableRow_spec (s := s) hp k hk (s - 1) (ki * x % (p : Int) ^ s)
      (((k, s), ki * x % (p : Int) ^ s) :: t) (by omega) hv2
    have ht' : TableOK p n s 2 (k + 1) t' := by
      intro k1 j h4 h5 h6 h7
      by_cases hkk : k1 = k
      · subst hkk
        by_cases hj : j ≤ s - 1
        · exact h2 j h6 hj
        · obtain rfl : j = s := by omega
          refine ⟨_, ?_, hv⟩
          rw [h3 k1 j (Or.inr (by omega))]
          simp [List.lookup_cons]
      · obtain ⟨v, hv1, hv2⟩ := ht k1 j h4 (by omega) h6 h7
        refine ⟨v, ?_, hv2⟩
        rw [h3 k1 j (Or.inl hkk), lookup_cons_ne, hv1]
        intro e; simp only [Prod.mk.injEq] at e; omega
    obtain ⟨t2, h8, h9⟩ := ih (k + 1) t' (by omega) (by omega) ht'
    refine ⟨t2, ?_, by rw [show k + (c + 1) = k + 1 + c by omega]; exact h9⟩
    rw [tableGo, getPowers_get _ _ _ (by omega)]
    simp only [Outcome.bind_ok, hki, value_ok, vget, hx, modMul, hps, if_false, h1]
    exact h8

theorem getDecryptPrecomp_spec {p : Nat} (hp : (p : Int) ≠ 0) {n : Int} {s : Nat} (hs1 : 1 ≤ s)
    (hs : Small s p) {pre : List Int} (hpre : PreOK n ((p : Int) ^ (s + 1)) s pre) :
    ∃ t, getDecryptPrecomp pre (getPowers p s) s = .ok t ∧ TableOK p n s 2 (s + 1) t := by
  obtain ⟨t, h1, h2⟩ := tableGo_spec hp hs hpre (s - 1) 2 [] le_rfl (by omega)
    (fun k j h h' => by omega)
  exact ⟨t, h1, by rw [show s + 1 = 2 + (s - 1) by omega]; exact h2⟩

/-! ### the loops -/

/-- `T = C(M,1) + C(M,2) n + ... + C(M,j) n^(j-1)`: the value of the L function. -/
def lsum (M : Nat) (n : Int) (j : Nat) : Int := ∑ i ∈ range j, (M.choose (i + 1) : Int) * n ^ i

theorem lsum_mul (M : Nat) (n : Int) (j : Nat) : n * lsum M n j + 1 = bsum M n (j + 1) := by
  rw [lsum, bsum, sum_range_succ', mul_sum]
  simp only [Nat.choose_zero_right, pow_zero]
  push_cast
  congr 1
  · apply sum_congr rfl; intro i _; ring

theorem lsum_trunc (M : Nat) {p n : Int} (hd : p ∣ n) (j s : Nat) (h : j ≤ s) :
    lsum M n s ≡ lsum M n j [ZMOD p ^ j] := by
  induction s, h using Nat.le_induction with
  | base => exact Int.ModEq.refl _
  | succ s hs ih =>
    rw [lsum, sum_range_succ, ← lsum]
    have : (M.choose (s + 1) : Int) * n ^ s ≡ 0 [ZMOD p ^ j] := by
      rw [Int.modEq_zero_iff_dvd]
      exact ((pow_dvd_pow p hs).trans (pow_dvd_pow_of_dvd hd s)).mul_left _
    simpa using ih.add this

theorem decInner_spec {p : Nat} (hp : (p : Int) ≠ 0) {n : Int} (hd : (p : Int) ∣ n) {s : Nat}
    (hs : Small s p) {tbl : Table} (htbl : TableOK p n s 2 (s + 1) tbl) (M : Nat) (j : Nat) (hj : 1 ≤ j)
    (hjs : j ≤ s) (ml0 : Int) (hml : ml0 ≡ M [ZMOD (p : Int) ^ (j - 1)]) (lu : Int) :
    ∀ (cnt k : Nat) (t2 t1 : Int), 2 ≤ k → k + cnt = j + 1 →
    t2 ≡ ff ml0 (k - 1) [ZMOD (p : Int) ^ j] →
    t1 + (lsum M n (k - 1) - M) ≡ lu [ZMOD (p : Int) ^ j] →
    ∃ r, decInner tbl ((p : Int) ^ j) j cnt k (ml0 - (k - 2)) t2 t1 = .ok r ∧
      r + (lsum M n j - M) ≡ lu [ZMOD (p : Int) ^ j] := by
  have hpj : (p : Int) ^ j ≠ 0 := pow_ne_zero _ hp
  intro cnt
  induction cnt with
  | zero =>
    intro k t2 t1 hk hc _ h1
    obtain rfl : k = j + 1 := by omega
    exact ⟨t1, rfl, h1⟩
  | succ cnt ih =>
    intro k t2 t1 hk hc h2 h1
    obtain ⟨v, hv, hvo⟩ := htbl k j hk (by omega) (by omega) hjs
    have h2' : t2 * (ml0 - (k - 2) - 1) % (p : Int) ^ j ≡ ff ml0 k [ZMOD (p : Int) ^ j] := by
      refine (Int.mod_modEq _ _).trans ?_
      obtain ⟨k', rfl⟩ : ∃ k', k = k' + 1 := ⟨k - 1, by omega⟩
      rw [ff]
      refine Int.ModEq.mul h2 ?_
      push_cast
      rw [show ml0 - ((k' : Int) + 1 - 2) - 1 = ml0 - k' by ring]
    have hpv : (p : Int) ^ 1 ∣ v :=
      dvd_entry (k := k - 1) hd (hs.factorial k (by omega)) (by omega) (by omega) hvo
    have hterm : t2 * (ml0 - (k - 2) - 1) % (p : Int) ^ j * v ≡ (M.choose k : Int) * n ^ (k - 1) [ZMOD (p : Int) ^ j] := by
      refine (h2'.mul_right v).trans ?_
      refine (modEq_mul_of_dvd (ff_modEq hml k) hpv (by omega)).trans ?_
      rw [← ff_choose]
      calc (M.choose k : Int) * (k.factorial : Int) * v = M.choose k * (v * k.factorial) := by ring
        _ ≡ _ [ZMOD (p : Int) ^ j] := hvo.mul_left _
    obtain ⟨r, hr, hr'⟩ := ih (k + 1) _ (t1 - t2 * (ml0 - (k - 2) - 1) % (p : Int) ^ j * v) (by omega)
      (by omega) h2' (by
        rw [show k + 1 - 1 = k - 1 + 1 by omega, lsum, sum_range_succ, ← lsum, show k - 1 + 1 = k by omega]
        have h3 : t1 - t2 * (ml0 - (k - 2) - 1) % (p : Int) ^ j * v + (lsum M n (k - 1) + (M.choose k : Int) * n ^ (k - 1) - M) ≡
            t1 - (M.choose k : Int) * n ^ (k - 1) + (lsum M n (k - 1) + (M.choose k : Int) * n ^ (k - 1) - M) [ZMOD (p : Int) ^ j] :=
          (Int.ModEq.sub_left _ hterm).add_right _
        refine h3.trans ?_
        rw [show t1 - (M.choose k : Int) * n ^ (k - 1) + (lsum M n (k - 1) + (M.choose k : Int) * n ^ (k - 1) - M) =
          t1 + (lsum M n (k - 1) - M) by ring]
        exact h1)
    refine ⟨r, ?_, hr'⟩
    rw [decInner]
    simp only [modMul, hpj, if_false, Outcome.bind_ok, Table.get, hv]
    push_cast at hr
    rw [show ml0 - ((k : Int) + 1 - 2) = ml0 - (k - 2) - 1 by ring] at hr
    exact hr

theorem decOuter_spec {p : Nat} (hp : (p : Int) ≠ 0) {n : Int} (hd : (p : Int) ∣ n) {s : Nat}
    (hs : Small s p) {tbl : Table} (htbl : TableOK p n s 2 (s + 1) tbl) (M : Nat) (lu : Int)
    (hlu : lu ≡ lsum M n s [ZMOD (p : Int) ^ s]) : ∀ (cnt j : Nat) (ml : Int), 1 ≤ j → j + cnt = s + 1 →
    ml ≡ M [ZMOD (p : Int) ^ (j - 1)] →
    ∃ r, decOuter tbl (getPowers p s) lu cnt j ml = .ok r ∧ r ≡ M [ZMOD (p : Int) ^ s] := by
  intro cnt
  induction cnt with
  | zero =>
    intro j ml hj hc h
    obtain rfl : j = s + 1 := by omega
    exact ⟨ml, rfl, h⟩
  | succ cnt ih =>
    intro j ml hj hc h
    have hpj : (p : Int) ^ j ≠ 0 := pow_ne_zero _ hp
    obtain ⟨r, hr, hr'⟩ := decInner_spec hp hd hs htbl M j hj (by omega) ml h lu (j - 1) 2 ml (lu % (p : Int) ^ j)
      le_rfl (by omega) (by simp [ff]) (by
        simp only [lsum]
        simpa using Int.mod_modEq lu _)
    have hrM : r ≡ M [ZMOD (p : Int) ^ j] := by
      have h5 : lu ≡ lsum M n j [ZMOD (p : Int) ^ j] :=
        (hlu.of_dvd (pow_dvd_pow _ (by omega))).trans (lsum_trunc M hd j s (by omega))
      have h6 := (hr'.trans h5).sub_right (lsum M n j - M)
      simpa using h6
    obtain ⟨r2, h7, h8⟩ := ih (j + 1) r (by omega) (by omega) hrM
    refine ⟨r2, ?_, h8⟩
    rw [decOuter, getPowers_get _ _ _ (by omega)]
    simp only [Outcome.bind_ok, mod, hpj, if_false]
    have hr0 : decInner tbl ((p : Int) ^ j) j (j - 1) 2 ml ml (lu % (p : Int) ^ j) = .ok r := by
      simpa using hr
    rw [hr0]
    exact h7

end Upsi.Paillier
