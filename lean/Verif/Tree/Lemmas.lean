import Verif.Tree.Spec
/- Helper lemmas about indices and paths. -/
namespace Upsi.Tree
open Upsi

/-! ### indices -/

theorem walk_append (x : Nat) (a b : List Bool) : walk x (a ++ b) = walk (walk x a) b := by
  induction a generalizing x with
  | nil => rfl
  | cons c a ih => simp [walk, ih]

theorem walk_eq_foldl (x : Nat) (h : List Bool) :
    h.foldl (fun x b => if b then 2 * x + 1 else 2 * x) x = walk x h := by
  induction h generalizing x with
  | nil => rfl
  | cons b h ih => cases b <;> simp [walk, ih]

theorem computeIndex_ok {d : Nat} {h : List Bool} (hd : d ≤ h.length) :
    computeIndex d h = .ok (leafAddr d h) := by
  unfold computeIndex leafAddr
  rw [if_neg (by omega), walk_eq_foldl]

theorem walk_lower (x : Nat) (h : List Bool) : x * 2 ^ h.length ≤ walk x h := by
  induction h generalizing x with
  | nil => simp [walk]
  | cons b h ih =>
    have := ih (2 * x + b.toNat)
    have h2 : x * 2 ^ (h.length + 1) = 2 * x * 2 ^ h.length := by
      rw [Nat.pow_succ, Nat.mul_comm 2 x, Nat.mul_assoc, Nat.mul_comm 2]
    simp only [walk, List.length_cons, h2]
    refine Nat.le_trans (Nat.mul_le_mul_right _ ?_) this
    omega

theorem walk_upper (x : Nat) (h : List Bool) : walk x h < (x + 1) * 2 ^ h.length := by
  induction h generalizing x with
  | nil => simp [walk]
  | cons b h ih =>
    have := ih (2 * x + b.toNat)
    have h2 : (x + 1) * 2 ^ (h.length + 1) = (2 * x + 2) * 2 ^ h.length := by
      rw [Nat.pow_succ, ← Nat.mul_assoc, Nat.mul_right_comm, Nat.add_mul, Nat.mul_comm x 2]
    simp only [walk, List.length_cons, h2]
    refine Nat.lt_of_lt_of_le this (Nat.mul_le_mul_right _ ?_)
    have : b.toNat ≤ 1 := Bool.toNat_le b
    omega

theorem leafAddr_bounds {d : Nat} {h : List Bool} (hd : d ≤ h.length) :
    2 ^ d ≤ leafAddr d h ∧ leafAddr d h < 2 ^ (d + 1) := by
  have hl : (h.take d).length = d := by simp; omega
  have h1 := walk_lower 1 (h.take d)
  have h2 := walk_upper 1 (h.take d)
  rw [hl] at h1 h2
  unfold leafAddr
  rw [Nat.pow_succ]
  omega

theorem leafAddr_succ {d : Nat} {h : List Bool} (hd : d + 1 ≤ h.length) :
    leafAddr (d + 1) h / 2 = leafAddr d h := by
  unfold leafAddr
  rw [List.take_succ_eq_append_getElem (by omega), walk_append]
  simp only [walk]
  have := Bool.toNat_le (h[d])
  omega

/-! ### ancestors -/

theorem Anc.refl (u : Nat) : Anc u u := ⟨0, by simp⟩
theorem Anc.zero (u : Nat) : Anc 0 u := ⟨u, by
  rw [Nat.div_eq_of_lt Nat.lt_two_pow_self]⟩
theorem Anc.trans {a b c : Nat} (h1 : Anc a b) (h2 : Anc b c) : Anc a c := by
  obtain ⟨k, rfl⟩ := h1; obtain ⟨l, rfl⟩ := h2
  exact ⟨l + k, by rw [Nat.div_div_eq_div_mul, Nat.pow_add]⟩
theorem Anc.half (u : Nat) : Anc (u / 2) u := ⟨1, by simp⟩
theorem Anc.le {a b : Nat} (h : Anc a b) : a ≤ b := by
  obtain ⟨k, rfl⟩ := h; exact Nat.div_le_self _ _
theorem Anc.cases {a b : Nat} (h : Anc a b) : a = b ∨ Anc a (b / 2) := by
  obtain ⟨k, rfl⟩ := h
  cases k with
  | zero => left; simp
  | succ k => right; exact ⟨k, by rw [Nat.div_div_eq_div_mul, Nat.pow_succ, Nat.mul_comm]⟩

theorem Anc.leafAddr_succ {d u : Nat} {h : List Bool} (hd : d + 1 ≤ h.length)
    (ha : Anc u (leafAddr d h)) : Anc u (leafAddr (d + 1) h) := by
  refine ha.trans ?_
  rw [← Tree.leafAddr_succ hd]
  exact Anc.half _

/-! ### paths -/

theorem mem_pathGo {f u v : Nat} (hf : u < f) : v ∈ pathGo f u ↔ Anc v u := by
  induction f generalizing u with
  | zero => omega
  | succ f ih =>
    unfold pathGo
    by_cases hu : u = 0
    · subst hu
      simp only [if_pos, List.mem_singleton]
      constructor
      · rintro rfl; exact Anc.refl _
      · intro h; have := h.le; omega
    · rw [if_neg hu, List.mem_cons, ih (by omega)]
      constructor
      · rintro (rfl | h)
        · exact Anc.refl _
        · exact h.trans (Anc.half _)
      · exact Anc.cases

theorem mem_pathUp {u v : Nat} : v ∈ pathUp u ↔ Anc v u := mem_pathGo (by omega)

theorem pathGo_pairwise (f u : Nat) (hf : u < f) : (pathGo f u).Pairwise (· > ·) := by
  induction f generalizing u with
  | zero => omega
  | succ f ih =>
    unfold pathGo
    by_cases hu : u = 0
    · simp [hu]
    · rw [if_neg hu, List.pairwise_cons]
      refine ⟨?_, ih _ (by omega)⟩
      intro v hv
      have := ((mem_pathGo (by omega)).1 hv).le
      omega

theorem pathUp_pairwise (u : Nat) : (pathUp u).Pairwise (· > ·) := pathGo_pairwise _ _ (by omega)

theorem pathUp_nodup (u : Nat) : (pathUp u).Nodup :=
  (pathUp_pairwise u).imp (fun h => by omega)

theorem pathGo_eq (d : Nat) : ∀ (f u : Nat), u < f → 2 ^ d ≤ u → u < 2 ^ (d + 1) →
    pathGo f u = (List.range (d + 2)).map (fun k => u / 2 ^ k) := by
  induction d with
  | zero =>
    intro f u hf h1 h2
    have : u = 1 := by simp at h1 h2; omega
    subst this
    match f, hf with
    | f + 2, _ => simp [pathGo, List.range_succ]
  | succ d ih =>
    intro f u hf h1 h2
    match f, hf with
    | f + 1, hf =>
      have hu : u ≠ 0 := by
        have : 0 < 2 ^ (d + 1) := Nat.pow_pos (by omega)
        omega
      rw [pathGo, if_neg hu, ih f (u / 2) (by omega)
        (by rw [Nat.pow_succ] at h1; omega) (by rw [Nat.pow_succ] at h2; omega)]
      conv => rhs; rw [List.range_succ_eq_map]
      simp only [List.map_cons, Nat.pow_zero, Nat.div_one, List.map_map, List.cons.injEq, true_and]
      apply List.map_congr_left
      intro k _
      simp only [Function.comp]
      rw [Nat.div_div_eq_div_mul, Nat.pow_succ, Nat.mul_comm]

theorem pathUp_eq {d u : Nat} (h1 : 2 ^ d ≤ u) (h2 : u < 2 ^ (d + 1)) :
    pathUp u = (List.range (d + 2)).map (fun k => u / 2 ^ k) := pathGo_eq d _ _ (by omega) h1 h2

/-! ### bucket distance -/

theorem stepsOf_le_iff {x l s : Nat} : stepsOf x l ≤ s ↔ x / 2 ^ s = l / 2 ^ s := by
  unfold stepsOf
  by_cases h : x = l
  · simp [h]
  · rw [if_neg h]
    have hx : x ^^^ l ≠ 0 := by
      intro h0
      apply h
      apply Nat.eq_of_testBit_eq
      intro i
      have : (x ^^^ l).testBit i = false := by rw [h0]; simp
      rw [Nat.testBit_xor] at this
      simpa using this
    rw [Nat.succ_le_iff, Nat.log2_lt hx]
    rw [← Nat.shiftRight_eq_div_pow, ← Nat.shiftRight_eq_div_pow]
    constructor
    · intro h1
      have h2 : (x ^^^ l) >>> s = 0 := by
        rw [Nat.shiftRight_eq_div_pow]; exact Nat.div_eq_of_lt h1
      rw [Nat.shiftRight_xor_distrib] at h2
      apply Nat.eq_of_testBit_eq
      intro i
      have : (x >>> s ^^^ l >>> s).testBit i = false := by rw [h2]; simp
      rw [Nat.testBit_xor] at this
      simpa using this
    · intro h1
      have h2 : (x ^^^ l) >>> s = 0 := by
        rw [Nat.shiftRight_xor_distrib, h1, Nat.xor_self]
      rw [Nat.shiftRight_eq_div_pow] at h2
      have := (Nat.div_eq_zero_iff).1 h2
      rcases this with h3 | h3
      · have : 0 < 2 ^ s := Nat.pow_pos (by omega)
        omega
      · exact h3

theorem stepsOf_lt {x l d : Nat} (hx : x < 2 ^ (d + 1)) (hl : l < 2 ^ (d + 1)) :
    stepsOf x l < d + 2 := by
  have : stepsOf x l ≤ d + 1 := by
    rw [stepsOf_le_iff, Nat.div_eq_of_lt hx, Nat.div_eq_of_lt hl]
  omega

/-! ### sorting and index extraction -/

theorem mem_insertDesc {x y : Nat} {l : List Nat} : y ∈ insertDesc x l ↔ y = x ∨ y ∈ l := by
  induction l with
  | nil => simp [insertDesc]
  | cons z l ih =>
    unfold insertDesc; split
    · simp
    · simp only [List.mem_cons, ih]
      constructor
      · rintro (h | h | h) <;> simp [h]
      · rintro (h | h | h) <;> simp [h]

theorem mem_sortDesc {y : Nat} {l : List Nat} : y ∈ sortDesc l ↔ y ∈ l := by
  induction l with
  | nil => simp [sortDesc]
  | cons x l ih => simp [sortDesc, mem_insertDesc, ih]

theorem insertDesc_sorted {x : Nat} {l : List Nat} (h : l.Pairwise (· ≥ ·)) :
    (insertDesc x l).Pairwise (· ≥ ·) := by
  induction l with
  | nil => simp [insertDesc]
  | cons z l ih =>
    rw [List.pairwise_cons] at h
    unfold insertDesc; split
    · rename_i hz
      rw [List.pairwise_cons]
      refine ⟨?_, List.pairwise_cons.2 h⟩
      intro a ha
      rcases List.mem_cons.1 ha with rfl | ha
      · exact hz
      · have := h.1 a ha; omega
    · rw [List.pairwise_cons]
      refine ⟨?_, ih h.2⟩
      intro a ha
      rcases mem_insertDesc.1 ha with rfl | ha
      · omega
      · exact h.1 a ha

theorem sortDesc_sorted (l : List Nat) : (sortDesc l).Pairwise (· ≥ ·) := by
  induction l with
  | nil => simp [sortDesc]
  | cons x l ih => exact insertDesc_sorted ih

theorem mem_uniq {y : Nat} {l : List Nat} : y ∈ uniq l ↔ y ∈ l := by
  fun_induction uniq l <;> simp_all

theorem uniq_strict {l : List Nat} (h : l.Pairwise (· ≥ ·)) : (uniq l).Pairwise (· > ·) := by
  fun_induction uniq l with
  | case1 => simp
  | case2 => simp
  | case3 x r ih => exact ih (List.pairwise_cons.1 h).2
  | case4 x y r hne ih =>
    rw [List.pairwise_cons] at h ⊢
    refine ⟨?_, ih h.2⟩
    intro a ha
    rw [mem_uniq] at ha
    have h1 := h.1 y (by simp)
    rcases List.mem_cons.1 ha with rfl | ha
    · omega
    · have := (List.pairwise_cons.1 h.2).1 a ha
      omega

/-- The loop invariant of `extractGo`. -/
theorem extractGo_spec : ∀ (f : Nat) (todo : List Nat) (hne : todo ≠ []),
    todo.Pairwise (· > ·) → todo.headD 0 / 2 ≤ todo.getLast hne → todo.headD 0 < f →
    (extractGo f todo).Pairwise (· > ·) ∧
    (∀ v, v ∈ extractGo f todo ↔ ∃ u ∈ todo, Anc v u) := by
  intro f
  induction f with
  | zero => intro todo hne hp hl hf; omega
  | succ f ih =>
    intro todo hne hp hl hf
    match todo, hne with
    | u :: rest, hne =>
      simp only [List.headD_cons] at hl hf
      have hp' := List.pairwise_cons.1 hp
      unfold extractGo
      by_cases hu : u = 0
      · rw [if_pos hu]
        have hrest : rest = [] := by
          cases rest with
          | nil => rfl
          | cons a r => have := hp'.1 a (by simp); omega
        subst hrest hu
        refine ⟨hp, fun v => ?_⟩
        simp only [List.mem_singleton]
        constructor
        · rintro rfl; exact ⟨0, rfl, Anc.refl _⟩
        · rintro ⟨_, rfl, h⟩; have := h.le; omega
      · rw [if_neg hu]
        dsimp only
        by_cases hgt : (u :: rest).getLast (by simp) > u / 2
        · rw [if_pos hgt]
          have hlast : ∀ a ∈ rest, u / 2 < a := by
            intro a ha
            have h1 : rest ≠ [] := List.ne_nil_of_mem ha
            rw [List.getLast_cons h1] at hgt
            have h2 : rest.getLast h1 ≤ a := by
              rcases List.eq_nil_or_concat rest with h0 | ⟨r, z, hz⟩
              · exact absurd h0 h1
              · rw [List.concat_eq_append] at hz
                subst hz
                simp only [List.getLast_append, List.getLast_singleton]
                rcases List.mem_append.1 ha with ha | ha
                · have := (List.pairwise_append.1 hp'.2).2.2 a ha z (by simp)
                  simp; omega
                · simp at ha; simp [ha]
            omega
          have hp2 : (rest ++ [u / 2]).Pairwise (· > ·) := by
            rw [List.pairwise_append]
            refine ⟨hp'.2, by simp, ?_⟩
            intro a ha b hb
            simp only [List.mem_singleton] at hb
            subst hb
            exact hlast a ha
          have hhead : (rest ++ [u / 2]).headD 0 < u := by
            cases rest with
            | nil => simp; omega
            | cons a r => simp; exact hp'.1 a (by simp)
          obtain ⟨i1, i2⟩ := ih (rest ++ [u / 2]) (by simp) hp2
            (by rw [List.getLast_append_of_ne_nil _ (by simp), List.getLast_singleton]; omega) (by omega)
          refine ⟨?_, ?_⟩
          · rw [List.pairwise_cons]
            refine ⟨?_, i1⟩
            intro v hv
            obtain ⟨w, hw, ha⟩ := (i2 v).1 hv
            have hwu : w < u := by
              rcases List.mem_append.1 hw with h | h
              · exact hp'.1 w h
              · simp at h; omega
            have := ha.le
            omega
          · intro v
            rw [List.mem_cons, i2]
            constructor
            · rintro (rfl | ⟨w, hw, ha⟩)
              · exact ⟨v, by simp, Anc.refl _⟩
              · rcases List.mem_append.1 hw with h | h
                · exact ⟨w, by simp [h], ha⟩
                · simp at h; subst h
                  exact ⟨u, by simp, ha.trans (Anc.half _)⟩
            · rintro ⟨w, hw, ha⟩
              rcases List.mem_cons.1 hw with rfl | hw
              · rcases ha.cases with rfl | h
                · left; rfl
                · right; exact ⟨w / 2, by simp, h⟩
              · right; exact ⟨w, by simp [hw], ha⟩
        · rw [if_neg hgt]
          have hrest : rest ≠ [] := by
            rintro rfl
            simp at hgt
            omega
          rw [List.getLast_cons hrest] at hl hgt
          have heq : rest.getLast hrest = u / 2 := by omega
          have hhead : rest.headD 0 < u := by
            cases rest with
            | nil => exact absurd rfl hrest
            | cons a r => simp; exact hp'.1 a (by simp)
          obtain ⟨i1, i2⟩ := ih rest hrest hp'.2 (by rw [heq]; omega) (by omega)
          refine ⟨?_, ?_⟩
          · rw [List.pairwise_cons]
            refine ⟨?_, i1⟩
            intro v hv
            obtain ⟨w, hw, ha⟩ := (i2 v).1 hv
            have := hp'.1 w hw
            have := ha.le
            omega
          · intro v
            rw [List.mem_cons, i2]
            constructor
            · rintro (rfl | ⟨w, hw, ha⟩)
              · exact ⟨v, by simp, Anc.refl _⟩
              · exact ⟨w, by simp [hw], ha⟩
            · rintro ⟨w, hw, ha⟩
              rcases List.mem_cons.1 hw with rfl | hw
              · rcases ha.cases with rfl | h
                · left; rfl
                · right; exact ⟨w / 2, heq ▸ List.getLast_mem hrest, h⟩
              · right; exact ⟨w, hw, ha⟩

theorem getLast_ge_of_all {l : List Nat} (hne : l ≠ []) {m : Nat} (h : ∀ x ∈ l, m ≤ x) :
    m ≤ l.getLast hne := h _ (List.getLast_mem hne)

theorem extractPathIndices_spec {d : Nat} {leaves : List Nat}
    (hl : ∀ x ∈ leaves, 2 ^ d ≤ x ∧ x < 2 ^ (d + 1)) :
    (extractPathIndices leaves).Pairwise (· > ·) ∧
    (∀ v, v ∈ extractPathIndices leaves ↔ ∃ u ∈ leaves, Anc v u) := by
  unfold extractPathIndices
  by_cases hne : uniq (sortDesc leaves) = []
  · have : leaves = [] := by
      rw [List.eq_nil_iff_forall_not_mem]
      intro a ha
      have : a ∈ uniq (sortDesc leaves) := mem_uniq.2 (mem_sortDesc.2 ha)
      rw [hne] at this; simp at this
    subst this
    simp [sortDesc, uniq, extractGo]
  · have hmem : ∀ x, x ∈ uniq (sortDesc leaves) ↔ x ∈ leaves := fun x => by
      rw [mem_uniq, mem_sortDesc]
    have hs := uniq_strict (sortDesc_sorted leaves)
    have hall : ∀ x ∈ uniq (sortDesc leaves), 2 ^ d ≤ x ∧ x < 2 ^ (d + 1) :=
      fun x hx => hl x ((hmem x).1 hx)
    generalize uniq (sortDesc leaves) = s at *
    have := extractGo_spec (s.headD 0 + 1) s hne hs (by
      refine Nat.le_trans ?_ (getLast_ge_of_all hne (m := 2 ^ d) (fun x hx => (hall x hx).1))
      match s, hne with
      | a :: r, _ =>
        have := (hall a (by simp)).2
        rw [Nat.pow_succ] at this
        simp; omega) (by omega)
    refine ⟨this.1, fun v => ?_⟩
    rw [this.2]
    simp only [hmem]

end Upsi.Tree
