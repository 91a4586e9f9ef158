import Verif.View.Og
import Verif.Curve.HashProps
/- C67: what the parity of the y-coordinate gives away in message IV. -/
namespace Upsi.View
open Upsi Upsi.ElGamal Upsi.Tree Upsi.Num Upsi.Proto Upsi.Curve

variable {C : Params} [Fact C.p.Prime]

/-- The points of the curve `C` (ec_group.h). -/
abbrev Pt (C : Params) : Type := (curve C).Point

/-- Is the y-coordinate odd?  This is the last bit of the first byte of the compressed encoding (`02` or `03`). -/
def oddY : Pt C → Bool
  | .zero => false
  | .some _ y _ => y.val % 2 = 1

theorem oddY_neg (h2 : C.p ≠ 2) {P : Pt C} (hP : P ≠ 0) (hn : -P ≠ P) : oddY (-P) = !oddY P := by
  cases P with
  | zero => exact absurd rfl hP
  | some x y h =>
    have hy : y ≠ 0 := by
      rintro rfl
      refine hn ?_
      have e0 : (curve C).negY x 0 = 0 := by simp [curve, WeierstrassCurve.Affine.negY]
      rw [WeierstrassCurve.Affine.Point.neg_some, WeierstrassCurve.Affine.Point.some.injEq]
      exact ⟨rfl, e0⟩
    rw [WeierstrassCurve.Affine.Point.neg_some]
    have e : (curve C).negY x y = -y := by simp [curve, WeierstrassCurve.Affine.negY]
    simp only [oddY]
    rw [e]
    have : NeZero y := ⟨hy⟩
    have hv : (-y).val = C.p - y.val := ZMod.val_neg_of_ne_zero y
    have hlt := ZMod.val_lt y
    have hodd : C.p % 2 = 1 := (Fact.out : C.p.Prime).eq_two_or_odd.resolve_left h2
    rw [hv]
    by_cases h1 : y.val % 2 = 1
    · simp only [h1, decide_true, Bool.not_true, decide_eq_false_iff_not]; omega
    · simp only [h1, decide_false, Bool.not_false, decide_eq_true_eq]; omega

/-- Half of the masks of a point give an odd y-coordinate. -/
theorem odd_masks (S : Setup (Pt C)) (h2 : C.p ≠ 2) (hq : S.q ≠ 2) {D : Pt C} (hD : D ≠ 0) :
    Fintype.card {k : Fin (S.q - 1) // oddY (maskOf k • D) = true} * 2 = S.q - 1 := by
  have hodd : S.q % 2 = 1 := S.hq.eq_two_or_odd.resolve_left hq
  have hne : ∀ k : Fin (S.q - 1), maskOf k • D ≠ 0 := fun k hz => hD ((S.smul_zero_iff (mask_pos k) D).1 hz)
  have h2z : NonZero S 2 := by
    intro hd
    have := Int.le_of_dvd (by omega) hd
    have := S.hq.two_le
    omega
  have hnn : ∀ k : Fin (S.q - 1), -(maskOf k • D) ≠ maskOf k • D := by
    intro k hk
    refine hne k ((S.smul_zero_iff h2z _).1 ?_)
    rw [two_zsmul]
    nth_rewrite 1 [← hk]
    exact neg_add_cancel _
  let f : Fin (S.q - 1) → Fin (S.q - 1) := fun k => ⟨S.q - 2 - k, by have := S.hq.two_le; omega⟩
  have hf : ∀ k, maskOf (f k) • D = -(maskOf k • D) := by
    intro k
    have e : maskOf (f k) = (S.q : Int) - maskOf k := by
      have := k.isLt
      simp only [maskOf, f]; omega
    have hz : (S.q : Int) • D = 0 := by
      have := card_nsmul_eq_zero' (x := D)
      rw [S.hcard] at this
      rw [natCast_zsmul]; exact this
    rw [e, sub_smul, hz, zero_sub]
  have hinv : ∀ k, f (f k) = k := fun k => by
    apply Fin.ext
    have := k.isLt
    simp only [f]; omega
  have hflip : ∀ k, oddY (maskOf (f k) • D) = !oddY (maskOf k • D) := fun k => by
    rw [hf]; exact oddY_neg h2 (hne k) (hnn k)
  have e1 : Fintype.card {k : Fin (S.q - 1) // oddY (maskOf k • D) = true} = Fintype.card {k : Fin (S.q - 1) // ¬ oddY (maskOf k • D) = true} :=
    Fintype.card_congr ⟨fun k => ⟨f k.1, by rw [hflip, k.2]; simp⟩, fun k => ⟨f k.1, by
      rw [hflip]; have := k.2; simpa using this⟩, fun k => Subtype.ext (hinv _), fun k => Subtype.ext (hinv _)⟩
  have e2 := Fintype.card_subtype_compl (fun k : Fin (S.q - 1) => oddY (maskOf k • D) = true)
  have e3 := Fintype.card_subtype_le (fun k : Fin (S.q - 1) => oddY (maskOf k • D) = true)
  rw [Fintype.card_fin] at e2 e3
  omega

/-- **C67** (message IV, leak) On the curve, with the points for matching elements obtained as the code does, by hashing a
random number (`R r` is the point `GetPointByHashingToCurveSha256` returns for `r`): such a point always has an even
y-coordinate.  Hence a point with an odd y-coordinate in message IV tells party one that the element at this position is
not in the intersection; and for every element not in the intersection this happens for exactly half of the draws. -/
theorem C67_message_iv_leak (S : Setup (Pt C)) (h2 : C.p ≠ 2) (hq2 : S.q ≠ 2) (c cu : Codec (Pt C)) (H : Nat → Pt C)
    (hashOf : Nat → List Bool) (hh : ∀ e, (hashOf e).length = 256)
    (B stash node : Nat) (ds : List (OgDay (Pt C))) (d : OgDay (Pt C)) (hA : OgAdmissible S B H [] [] (ds ++ [d])) (s s' : OgSt (Pt C))
    (h : runOg S.og c cu H hashOf stash node ds = .ok s) (h' : dayOg S.og c cu H hashOf s d.xs d.ys d.coins = .ok s')
    (sha : List UInt8 → List UInt8) (len : Nat) (hlen : 0 < len) (hsha : ∀ b, ofBytes (sha b) < 2 ^ len)
    (hsize : OracleSize len (bitLength C.p)) (sqrt : Nat → Nat) (hsq : SqrtMod C.p sqrt) (fuel : Nat) (R : Fin S.q → Pt C)
    (hR : ∀ r : Fin S.q, ∃ x y hxy, hashToCurve sha len C sqrt fuel (natBytes r) = some (.ok (x, y)) ∧ R r = .some (x : ZMod C.p) (y : ZMod C.p) hxy)
    (i : Nat) (hi : i < d.xs.length) :
    (∀ (x : Fin d.xs.length → Fin (S.q - 1) × Fin S.q) ws p, pointsIV S.og c cu H hashOf s (redrawIV R d x) = .ok ws → ws[i]? = some p →
      oddY p = true → ¬ (d.xs[i] ∈ ogY (ds ++ [d]) ∧ d.xs[i] ∉ s'.p1.lost)) ∧
    (¬ (d.xs[i] ∈ ogY (ds ++ [d]) ∧ d.xs[i] ∉ s'.p1.lost) →
      Nat.card {x : Fin d.xs.length → Fin (S.q - 1) × Fin S.q // ∃ ws p, pointsIV S.og c cu H hashOf s (redrawIV R d x) = .ok ws ∧
        ws[i]? = some p ∧ oddY p = true} * 2 = Nat.card (Fin d.xs.length → Fin (S.q - 1) × Fin S.q)) := by
  obtain ⟨st⟩ := og_history hh hA h h'
  have hρ := hA.coins d (by simp)
  have hRn : ∀ r, R r ≠ 0 ∧ oddY (R r) = false := by
    intro r
    obtain ⟨x, y, hxy, e1, e2⟩ := hR r
    rw [e2]
    refine ⟨WeierstrassCurve.Affine.Point.some_ne_zero _, ?_⟩
    obtain ⟨k, _, _, x', y', e3, _, _, _, hy2, hy3, _⟩ :=
      (C27_exact sha len hlen hsha C Fact.out h2 hsize sqrt hsq fuel _ _).1 e1
    obtain ⟨rfl, rfl⟩ := Prod.mk.inj (Outcome.ok.inj e3)
    simp only [oddY, ZMod.val_natCast_of_lt hy2, hy3]
    decide
  have hp := fun x => pointsIV_redraw st hρ.shuffle hρ.gamma hρ.beta hρ.mask R (fun r => (hRn r).1) x
  have hget : ∀ x ws p, pointsIV S.og c cu H hashOf s (redrawIV R d x) = .ok ws → ws[i]? = some p →
      p = if d.xs[i] ∈ ogY (ds ++ [d]) ∧ d.xs[i] ∉ s'.p1.lost then R (x ⟨i, hi⟩).2 else maskOf (x ⟨i, hi⟩).1 • S.sk0 • H d.xs[i] := by
    intro x ws p hw hx
    rw [(hp x).1] at hw
    obtain rfl := Outcome.ok.inj hw
    rw [List.getElem?_ofFn, dif_pos hi] at hx
    simp only [decide_eq_true_eq, Option.some.injEq] at hx
    exact hx.symm
  refine ⟨fun x ws p hw hx ho hin => ?_, fun hin => ?_⟩
  · rw [hget x ws p hw hx, if_pos hin, (hRn _).2] at ho
    exact absurd ho (by simp)
  · have hq : 0 < S.q - 1 := by have := S.hq.two_le; omega
    have hne : S.sk0 • H d.xs[i] ≠ 0 := (hp (fun _ => (⟨0, hq⟩, ⟨0, by omega⟩))).2 ⟨i, hi⟩ (by
      simp only [decide_eq_false_iff_not]; exact hin)
    have hiff : ∀ x : Fin d.xs.length → Fin (S.q - 1) × Fin S.q, (∃ ws p, pointsIV S.og c cu H hashOf s (redrawIV R d x) = .ok ws ∧
        ws[i]? = some p ∧ oddY p = true) ↔ oddY (maskOf (x ⟨i, hi⟩).1 • S.sk0 • H d.xs[i]) = true := by
      intro x
      constructor
      · rintro ⟨ws, p, hw, hx, ho⟩
        rw [hget x ws p hw hx, if_neg hin] at ho
        exact ho
      · intro ho
        refine ⟨_, maskOf (x ⟨i, hi⟩).1 • S.sk0 • H d.xs[i], (hp x).1, ?_, ho⟩
        rw [List.getElem?_ofFn, dif_pos hi]
        simp only [decide_eq_true_eq, Fin.getElem_fin, if_neg hin]
    rw [Nat.card_congr (Equiv.subtypeEquivRight hiff)]
    have half := odd_masks S h2 hq2 hne
    -- split off the mask of element `i`
    let e : (Fin d.xs.length → Fin (S.q - 1) × Fin S.q) ≃ (Fin (S.q - 1)) × (Fin S.q × ({j : Fin d.xs.length // j ≠ ⟨i, hi⟩} → Fin (S.q - 1) × Fin S.q)) :=
      (Equiv.funSplitAt (⟨i, hi⟩ : Fin d.xs.length) (Fin (S.q - 1) × Fin S.q)).trans (Equiv.prodAssoc _ _ _)
    have he : ∀ x, (e x).1 = (x ⟨i, hi⟩).1 := fun x => rfl
    have e3 : {x : Fin d.xs.length → Fin (S.q - 1) × Fin S.q // oddY (maskOf (x ⟨i, hi⟩).1 • S.sk0 • H d.xs[i]) = true} ≃
        {k : Fin (S.q - 1) // oddY (maskOf k • S.sk0 • H d.xs[i]) = true} ×
          (Fin S.q × ({j : Fin d.xs.length // j ≠ ⟨i, hi⟩} → Fin (S.q - 1) × Fin S.q)) :=
      (e.subtypeEquiv (q := fun y => oddY (maskOf y.1 • S.sk0 • H d.xs[i]) = true) (fun x => by rw [he])).trans
        ⟨fun y => (⟨y.1.1, y.2⟩, y.1.2), fun z => ⟨(z.1.1, z.2), z.1.2⟩, fun _ => rfl, fun _ => rfl⟩
    rw [Nat.card_congr e3, Nat.card_congr e, Nat.card_prod, Nat.card_prod (Fin (S.q - 1)), Nat.card_eq_fintype_card (α := {k // _}),
      Nat.card_eq_fintype_card (α := Fin (S.q - 1)), Fintype.card_fin]
    generalize Nat.card (Fin S.q × _) = m
    rw [Nat.mul_right_comm, half]

end Upsi.View
