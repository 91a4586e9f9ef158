import Verif.View.OgProps
/- C67: the theorems. -/
namespace Upsi.View
open Upsi Upsi.ElGamal Upsi.Tree Upsi.Num Upsi.Proto

variable {G : Type} [AddCommGroup G] [DecidableEq G]

/-- A completed day after a completed history. -/
theorem og_history {S : Setup G} {c cu : Codec G} {H : Nat → G} {hashOf : Nat → List Bool} (hh : ∀ e, (hashOf e).length = 256)
    {B stash node : Nat} {ds : List (OgDay G)} {d : OgDay G} (hA : OgAdmissible S B H [] [] (ds ++ [d])) {s s' : OgSt G}
    (h : runOg S.og c cu H hashOf stash node ds = .ok s) (h' : dayOg S.og c cu H hashOf s d.xs d.ys d.coins = .ok s') :
    Nonempty (OgSteps S c cu H hashOf s d (fun x => x ∈ ogY (ds ++ [d]) ∧ x ∉ s'.p1.lost)) := by
  have eX : ogX (ds ++ [d]) = ogX ds ++ d.xs := by simp [ogX]
  have eY : ogY (ds ++ [d]) = ogY ds ++ d.ys := by simp [ogY]
  obtain ⟨A1, A2, A3, A4, A5, A6, A7, A8, A9, A10⟩ := hA
  simp only [List.nil_append] at A5 A6 A7 A8 A9 A10
  rw [eX] at A5 A7 A10
  rw [eY] at A6 A8 A9 A10
  obtain ⟨hI, _⟩ := runOg_spec A2 A3 hh A1 (E := []) ds [] [] _ _ (OgInv.init S cu H hashOf B stash node)
    ⟨A1, A2, A3, fun e he => A4 e (by simp [he]), fun x hx => A5 x (by simp at hx ⊢; tauto), fun y hy => A6 y (by simp at hy ⊢; tauto),
      (List.nodup_append.1 A7).1, (List.nodup_append.1 A8).1, by
        rw [List.length_append] at A9; simp only [List.nil_append]; omega,
      fun x hx y hy => A10 x (by simp at hx ⊢; tauto) y (by simp at hy ⊢; tauto)⟩ (by simp) (by simp [OgOut, Og0.init]) h
  simp only [List.nil_append] at hI
  rw [eY]
  exact og_steps hh A1 hI (A4 d (by simp)) A5 A6 A8 A9 h'

/-- **C67** (message III) After any completed admissible history, take a day that completes.  Let `M i` be 1 if party
zero's `i`-th element of the day is in the intersection (party one has added it and it was not dropped by an overflow),
else 0.  If party one draws the masks uniformly from `[1, q - 1]` and the permutations of the candidate sets uniformly,
everything else being fixed, then what party zero decrypts from message III is distributed exactly as follows: for every
element a list of plaintexts with `M i` identities and independent uniformly random non-identity points elsewhere, in
random order.  So it carries no information beyond the sizes of the candidate sets and which elements match. -/
theorem C67_message_iii (S : Setup G) (c cu : Codec G) (H : Nat → G) (hashOf : Nat → List Bool) (hh : ∀ e, (hashOf e).length = 256)
    (B stash node : Nat) (ds : List (OgDay G)) (d : OgDay G) (hA : OgAdmissible S B H [] [] (ds ++ [d])) (s s' : OgSt G)
    (h : runOg S.og c cu H hashOf stash node ds = .ok s) (h' : dayOg S.og c cu H hashOf s d.xs d.ys d.coins = .ok s') :
    ∃ N : Fin d.xs.length → Nat, ∀ ws : List (List G),
      draws (fun x : (∀ i, (Fin (N i) → Fin (S.q - 1)) × Equiv.Perm (Fin (N i))) => plainIII S.og c cu H hashOf s (redrawIII d x)) (.ok ws) =
      draws (fun x : (∀ i, (Fin (N i) → Fin (S.q - 1)) × Equiv.Perm (Fin (N i))) => List.ofFn fun i =>
        idealView S.g S.q (N i) (if d.xs[i] ∈ ogY (ds ++ [d]) ∧ d.xs[i] ∉ s'.p1.lost then 1 else 0) (x i)) ws := by
  obtain ⟨st⟩ := og_history hh hA h h'
  have hρ := hA.coins d (by simp)
  refine ⟨fun i => (st.paths i).length, fun ws => ?_⟩
  rw [draws_ok (fun x => plainIII_redraw st hρ.shuffle hρ.gamma x)]
  refine draws_pi (f := fun i (x : (Fin (st.paths i).length → Fin (S.q - 1)) × Equiv.Perm (Fin (st.paths i).length)) =>
    List.ofFn fun k => maskOf (x.1 (x.2 k)) • d.coins.beta i (x.2 k) • st.diff i (x.2 k)) (fun i w => ?_) ws
  refine draws_masked S (fun j => d.coins.beta i j • st.diff i j) ?_ w
  rw [Fintype.card_congr (Equiv.subtypeEquivRight fun j : Fin (st.paths i).length => S.smul_zero_iff (hρ.beta i j) (st.diff i j)), st.card_diff]
  simp only [decide_eq_true_eq]

/-- **C67** (message IV) On the same day, let party zero draw the masks uniformly from `[1, q - 1]` and the random
numbers uniformly below `q`, `R r` being the point a random number `r` is hashed to.  The points party one receives in
message IV are distributed exactly like: `R r` for a random `r` for every element in the intersection, and an
independent uniformly random non-identity point for every other element.  So the points depend on the elements only
through which of them match. -/
theorem C67_message_iv (S : Setup G) (c cu : Codec G) (H : Nat → G) (hashOf : Nat → List Bool) (hh : ∀ e, (hashOf e).length = 256)
    (B stash node : Nat) (ds : List (OgDay G)) (d : OgDay G) (hA : OgAdmissible S B H [] [] (ds ++ [d])) (s s' : OgSt G)
    (h : runOg S.og c cu H hashOf stash node ds = .ok s) (h' : dayOg S.og c cu H hashOf s d.xs d.ys d.coins = .ok s')
    (R : Fin S.q → G) (hR : ∀ r, R r ≠ 0) (ws : List G) :
    draws (fun x : Fin d.xs.length → Fin (S.q - 1) × Fin S.q => pointsIV S.og c cu H hashOf s (redrawIV R d x)) (.ok ws) =
    draws (fun x : Fin d.xs.length → Fin (S.q - 1) × Fin S.q => List.ofFn fun i =>
      if d.xs[i] ∈ ogY (ds ++ [d]) ∧ d.xs[i] ∉ s'.p1.lost then R (x i).2 else maskOf (x i).1 • S.g) ws := by
  obtain ⟨st⟩ := og_history hh hA h h'
  have hρ := hA.coins d (by simp)
  have hp := fun x => pointsIV_redraw st hρ.shuffle hρ.gamma hρ.beta hρ.mask R hR x
  rw [draws_ok (fun x => (hp x).1)]
  have hq : 0 < S.q - 1 := by have := S.hq.two_le; omega
  refine draws_pi (K := fun _ => Fin (S.q - 1) × Fin S.q) (K' := fun _ => Fin (S.q - 1) × Fin S.q)
    (f := fun i x => if decide (d.xs[i] ∈ ogY (ds ++ [d]) ∧ d.xs[i] ∉ s'.p1.lost) then R x.2 else maskOf x.1 • S.sk0 • H d.xs[i])
    (f' := fun i x => if d.xs[i] ∈ ogY (ds ++ [d]) ∧ d.xs[i] ∉ s'.p1.lost then R x.2 else maskOf x.1 • S.g) (fun i w => ?_) ws
  by_cases hin : d.xs[i] ∈ ogY (ds ++ [d]) ∧ d.xs[i] ∉ s'.p1.lost
  · simp only [decide_eq_true_eq, if_pos hin]
  · have hne : S.sk0 • H d.xs[i] ≠ 0 := (hp (fun _ => (⟨0, hq⟩, ⟨0, by omega⟩))).2 i (by simp only [decide_eq_false_iff_not]; exact hin)
    simp only [decide_eq_true_eq, if_neg hin]
    unfold draws
    have e : ∀ D : G, Fintype.card {x : Fin (S.q - 1) × Fin S.q // maskOf x.1 • D = w} =
        Fintype.card {k : Fin (S.q - 1) // masked k D = w} * S.q := by
      intro D
      have e1 : {x : Fin (S.q - 1) × Fin S.q // maskOf x.1 • D = w} ≃ {k : Fin (S.q - 1) // masked k D = w} × Fin S.q :=
        ⟨fun x => (⟨x.1.1, x.2⟩, x.1.2), fun y => ⟨(y.1.1, y.2), y.1.2⟩, fun _ => rfl, fun _ => rfl⟩
      rw [Fintype.card_congr e1, Fintype.card_prod, Fintype.card_fin]
    rw [e, e, masked_card, masked_card, if_neg hne, if_neg S.hg0]

/-- **C67** (message II) On the same day, let party zero draw the masks of message II uniformly from `[1, q - 1]`,
everything else, also the random point `hr`, being fixed.  Up to draws on which the day does not complete (a ciphertext
component hits the point at infinity), what party one decrypts from message II is distributed like: `hr` for the one
matching candidate of every element in the intersection, and `hr` plus an independent uniformly random non-identity
point for every other candidate.  It depends on the elements only through the position of the match. -/
theorem C67_message_ii (S : Setup G) (c cu : Codec G) (H : Nat → G) (hashOf : Nat → List Bool) (hh : ∀ e, (hashOf e).length = 256)
    (B stash node : Nat) (ds : List (OgDay G)) (d : OgDay G) (hA : OgAdmissible S B H [] [] (ds ++ [d])) (s s' : OgSt G)
    (h : runOg S.og c cu H hashOf stash node ds = .ok s) (h' : dayOg S.og c cu H hashOf s d.xs d.ys d.coins = .ok s') :
    ∃ (N : Fin d.xs.length → Nat) (hit : ∀ i, Fin (N i) → Bool),
      (∀ i, Fintype.card {j // hit i j = true} = if d.xs[i] ∈ ogY (ds ++ [d]) ∧ d.xs[i] ∉ s'.p1.lost then 1 else 0) ∧
      (∀ ws : List (List G),
        draws (fun x : (∀ i, Fin (N i) → Fin (S.q - 1)) => plainII S.og c cu H hashOf s (redrawII d x)) (.ok ws) ≤
        draws (fun x : (∀ i, Fin (N i) → Fin (S.q - 1)) => List.ofFn fun i => List.ofFn fun j =>
          if hit i j then d.coins.hr else d.coins.hr + maskOf (x i j) • S.g) ws) ∧
      ((∀ x : (∀ i, Fin (N i) → Fin (S.q - 1)), ∃ r, plainII S.og c cu H hashOf s (redrawII d x) = .ok r) → ∀ ws : List (List G),
        draws (fun x : (∀ i, Fin (N i) → Fin (S.q - 1)) => plainII S.og c cu H hashOf s (redrawII d x)) (.ok ws) =
        draws (fun x : (∀ i, Fin (N i) → Fin (S.q - 1)) => List.ofFn fun i => List.ofFn fun j =>
          if hit i j then d.coins.hr else d.coins.hr + maskOf (x i j) • S.g) ws) := by
  obtain ⟨st⟩ := og_history hh hA h h'
  have key : ∀ ws : List (List G), draws (fun x : (∀ i, Fin (st.paths i).length → Fin (S.q - 1)) =>
        List.ofFn fun i => List.ofFn fun j => d.coins.hr + maskOf (x i j) • st.diff i j) ws =
      draws (fun x : (∀ i, Fin (st.paths i).length → Fin (S.q - 1)) => List.ofFn fun i => List.ofFn fun j =>
          if decide (st.diff i j = 0) then d.coins.hr else d.coins.hr + maskOf (x i j) • S.g) ws := by
    intro ws
    refine draws_pi (f := fun i (x : Fin (st.paths i).length → Fin (S.q - 1)) => List.ofFn fun j => d.coins.hr + maskOf (x j) • st.diff i j)
      (f' := fun i (x : Fin (st.paths i).length → Fin (S.q - 1)) => List.ofFn fun j =>
        if decide (st.diff i j = 0) then d.coins.hr else d.coins.hr + maskOf (x j) • S.g) (fun i w => ?_) ws
    refine draws_pi (K := fun _ => Fin (S.q - 1)) (K' := fun _ => Fin (S.q - 1))
      (f := fun j (k : Fin (S.q - 1)) => d.coins.hr + maskOf k • st.diff i j)
      (f' := fun j (k : Fin (S.q - 1)) => if decide (st.diff i j = 0) then d.coins.hr else d.coins.hr + maskOf k • S.g) (fun j v => ?_) w
    by_cases hd : st.diff i j = 0
    · simp [hd]
    · simp only [hd, decide_false, Bool.false_eq_true, if_false]
      have e : ∀ D : G, draws (fun k : Fin (S.q - 1) => d.coins.hr + maskOf k • D) v =
          Fintype.card {k : Fin (S.q - 1) // masked k D = v - d.coins.hr} := fun D =>
        Fintype.card_congr (Equiv.subtypeEquivRight fun k => by
          rw [masked, eq_sub_iff_add_eq, add_comm])
      rw [e, e, masked_card, masked_card, if_neg hd, if_neg S.hg0]
  refine ⟨fun i => (st.paths i).length, fun i j => decide (st.diff i j = 0), fun i => ?_, fun ws => ?_, fun hall ws => ?_⟩
  · have := st.card_diff i
    simp only [decide_eq_true_eq] at this ⊢
    exact this
  · rw [← key]
    exact draws_ok_le fun x r hr => plainII_redraw st x hr
  · rw [← key]
    refine draws_ok fun x => ?_
    obtain ⟨r, hr⟩ := hall x
    rw [hr, plainII_redraw st x hr]

/-- **C67** (message II, leak) The point `hr` is drawn once per day, so the matching candidates of all elements of the day
decrypt to the same point: whatever the masks, party one sees that point once per element in the intersection, while any
other candidate shows another point than `hr`.  With two or more matches on a day party one therefore sees a repeated
point, and two candidates that do not match repeat each other for at most one of the `q - 1` masks of the second one:
party one, who should learn nothing, learns which of party zero's elements match whenever there are at least two. -/
theorem C67_message_ii_leak (S : Setup G) (c cu : Codec G) (H : Nat → G) (hashOf : Nat → List Bool) (hh : ∀ e, (hashOf e).length = 256)
    (B stash node : Nat) (ds : List (OgDay G)) (d : OgDay G) (hA : OgAdmissible S B H [] [] (ds ++ [d])) (s s' : OgSt G)
    (h : runOg S.og c cu H hashOf stash node ds = .ok s) (h' : dayOg S.og c cu H hashOf s d.xs d.ys d.coins = .ok s') :
    ∃ (N : Fin d.xs.length → Nat) (v : (∀ i, Fin (N i) → Fin (S.q - 1)) → ∀ i, Fin (N i) → G) (hit : ∀ i, Fin (N i) → Bool),
      (∀ x r, plainII S.og c cu H hashOf s (redrawII d x) = .ok r → r = List.ofFn fun i => List.ofFn fun j => v x i j) ∧
      (∀ i, (∃ j, hit i j = true) ↔ d.xs[i] ∈ ogY (ds ++ [d]) ∧ d.xs[i] ∉ s'.p1.lost) ∧
      (∀ x i j, v x i j = d.coins.hr ↔ hit i j = true) ∧
      (∀ (x : ∀ i, Fin (N i) → Fin (S.q - 1)) (i : Fin d.xs.length) (j : Fin (N i)), hit i j = false → ∀ p : G,
        Fintype.card {k : Fin (S.q - 1) // v (fun i' j' => if i' = i ∧ (j' : Nat) = j then k else x i' j') i j = p} ≤ 1) := by
  obtain ⟨st⟩ := og_history hh hA h h'
  refine ⟨fun i => (st.paths i).length, fun x i j => d.coins.hr + maskOf (x i j) • st.diff i j, fun i j => decide (st.diff i j = 0),
    fun x r hr => plainII_redraw st x hr, fun i => ?_, fun x i j => ?_, fun x i j hd p => ?_⟩
  · have := st.card_diff i
    simp only [decide_eq_true_eq] at this ⊢
    constructor
    · rintro ⟨j, hj⟩
      by_contra hc
      rw [if_neg hc, Fintype.card_eq_zero_iff] at this
      exact this.elim ⟨j, hj⟩
    · intro hc
      rw [if_pos hc] at this
      obtain ⟨⟨j, hj⟩⟩ := Fintype.card_pos_iff.1 (by rw [this]; exact Nat.one_pos)
      exact ⟨j, hj⟩
  · rw [decide_eq_true_iff, add_eq_left, S.smul_zero_iff (mask_pos _)]
  · simp only [and_self, if_true]
    have hd' : st.diff i j ≠ 0 := by simpa using hd
    have e : Fintype.card {k : Fin (S.q - 1) // d.coins.hr + maskOf k • st.diff i j = p} =
        Fintype.card {k : Fin (S.q - 1) // masked k (st.diff i j) = p - d.coins.hr} :=
      Fintype.card_congr (Equiv.subtypeEquivRight fun k => by rw [masked, eq_sub_iff_add_eq, add_comm])
    rw [e, masked_card, if_neg hd']
    split <;> omega

end Upsi.View
