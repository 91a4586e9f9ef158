import Verif.Mock.Lemmas
import Verif.Proto.DelPsiProps
import Verif.Paillier.Props
/- Helper lemmas for C78: one round of the protocols with deletions on trees that hold mock elements. -/
namespace Upsi.Mock
open Upsi Upsi.Tree Upsi.Tree.Props Upsi.Num Upsi.Proto Upsi.Paillier

/-- A stored pair of ciphertexts of an entry: an entry whose element does not satisfy `N` may be represented by a
pair of encryptions of zero. -/
def EncN (N : Nat → Prop) (n : Nat) (e : EP) (c : Int × Int) : Prop :=
  EncP n e c ∨ (¬ N e.1 ∧ EncP n (0, 0) c)

theorem encN_list {N : Nat → Prop} {n : Nat} (hn : 0 < n) (h0 : ¬ N 0) {k : Nat} (hk : N k) {l : List EP} {path : List (Int × Int)}
    (h : List.Forall₂ (EncN N n) l path) (hl : ∀ a ∈ l, a.1 < n) :
    ∃ l', List.Forall₂ (EncP n) l' path ∧ (∀ a ∈ l', a.1 < n) ∧ payloadSum k l' = payloadSum k l := by
  induction h with
  | nil => exact ⟨[], .nil, by simp, rfl⟩
  | @cons a c l path h1 _ ih =>
    obtain ⟨l', i1, i2, i3⟩ := ih (fun a ha => hl a (by simp [ha]))
    rcases h1 with h1 | ⟨h1, h2⟩
    · refine ⟨a :: l', .cons h1 i1, fun b hb => ?_, by rw [payloadSum_cons, payloadSum_cons, i3]⟩
      rcases List.mem_cons.1 hb with rfl | hb
      · exact hl _ (by simp)
      · exact i2 b hb
    · refine ⟨(0, 0) :: l', .cons h2 i1, fun b hb => ?_, ?_⟩
      · rcases List.mem_cons.1 hb with rfl | hb
        · exact hn
        · exact i2 b hb
      · rw [payloadSum_cons, payloadSum_cons, i3, if_neg (fun h : a.1 = k => h1 (h.symm ▸ hk)), if_neg (fun h : 0 = k => h0 (h.symm ▸ hk))]

section
variable {p q : Nat} {mont : Int → Option Mont} {pk : Public} {sk : Private}

theorem candidates_groupsN {N : Nat → Prop} (h0 : ¬ N 0) (K : KeyPair p q mont pk sk) {h : Nat → List Bool}
    (hh : ∀ e, (h e).length = 256)
    {B : Nat} (hB : B ≤ p * q) {s : Upsi.Tree.Tree EP} {other : Upsi.Tree.Tree (Int × Int)}
    (hs : TWF (fun e : EP => h e.1) s) (hm : Mirror (EncN N (p * q)) (PadP B (p * q)) s other)
    (hk : ∀ a ∈ s.contents, a.1 < B) {es : List EP} (hes : ∀ e ∈ es, N e.1 ∧ e.1 < B) {path : Nat → PathCoins}
    (hρ : ∀ i, (path i).WF (p * q)) {gs : List (List Item)} {ws : List (List EncElem)}
    (hc : candidatesOf mont h pk other es path = .ok (gs, ws)) {ys : List (List Int)}
    (hy : forIdx (fun _ w => combineResp sk w) 0 ws = .ok ys) :
    GroupsOK (p * q) es s.contents gs ys := by
  simp only [candidatesOf, Outcome.bind_eq_ok, Outcome.pure_eq, Outcome.ok.injEq, Prod.mk.injEq] at hc
  obtain ⟨gs', h1, ws', h2, rfl, rfl⟩ := hc
  have r2 : List.Forall₂ (fun (g : List Item) y => List.Forall₂ (RespRel (p * q)) g y) gs' ys := by
    refine forall₂_comp (forIdx_forall₂ _ _ _ h2) (forIdx_forall₂ _ _ _ hy) ?_
    rintro g w y ⟨_, a⟩ ⟨_, b⟩
    exact combineResp_rel K (forIdx_forall₂ _ _ _ a) b
  refine forall₂_zip_mk (forIdx_forall₂ _ _ _ h1) r2 ?_
  rintro e he g y ⟨i, a⟩ b
  have a' := a
  simp only [combineInit, Outcome.bind_eq_ok] at a'
  obtain ⟨pth, hpth, _⟩ := a'
  obtain ⟨l0, m1, m2, m3⟩ := path_mirror (key := Prod.fst) hh hs hm hB hk (hes e he).2 hpth
  obtain ⟨l, l1, l2, l3⟩ := encN_list (by have := (hes e he).2; omega) h0 (hes e he).1 m1 m2
  have := group_of_rel (by have := (hes e he).2; omega) (combineInit_rel K (hρ i) hpth l1 a) b l2
  have hsum : payloadSum e.1 l = payloadSum e.1 s.contents := l3.trans (m3.map _).sum_eq
  rw [hsum] at this
  exact this
end

/-- Invariant of the two parties' trees after `X` and `Y` have been inserted, where elements that do not satisfy
`N0` (`N1`) may be represented by encryptions of zero. -/
structure DInvN (N0 N1 : Nat → Prop) (h : Nat → List Bool) (B n0 n1 : Nat) (X Y : List EP) (s0 s1 : DSt) : Prop where
  wf0 : TWF (fun e : EP => h e.1) s0.my
  wf1 : TWF (fun e : EP => h e.1) s1.my
  size0 : s0.my.actualSize = X.length
  size1 : s1.my.actualSize = Y.length
  keys0 : ∀ e ∈ s0.my.contents, e.1 < B
  keys1 : ∀ e ∈ s1.my.contents, e.1 < B
  net0 : ∀ k, payloadSum k s0.my.contents + payloadSum k s0.lost = payloadSum k X
  net1 : ∀ k, payloadSum k s1.my.contents + payloadSum k s1.lost = payloadSum k Y
  mir0 : Mirror (EncN N0 n0) (PadP B n0) s0.my s1.other
  mir1 : Mirror (EncN N1 n1) (PadP B n1) s1.my s0.other

variable {mont : Int → Option Mont} {p0 q0 p1 q1 : Nat} {k0 k1 : DKeys}

theorem round_specN {N0 N1 : Nat → Prop} (h00 : ¬ N0 0) (h10 : ¬ N1 0) (K : Keys p0 q0 p1 q1 mont k0 k1)
    {h : Nat → List Bool} (hh : ∀ e, (h e).length = 256) {B : Nat} (hB0 : B ≤ p0 * q0) (hB1 : B ≤ p1 * q1)
    {X Y xs ys : List EP} {s0 s1 s0' s1' : DSt} (hI : DInvN N0 N1 h B (p0 * q0) (p1 * q1) X Y s0 s1)
    {ρ : RoundCoins} (hρ : ρ.WF B (p0 * q0) (p1 * q1) xs ys)
    (hX : ∀ e ∈ xs, N1 e.1 ∧ e.1 < B) (hY : ∀ e ∈ ys, N0 e.1 ∧ e.1 < B)
    (tX : (X ++ xs).length < 2 ^ 30) (tY : (Y ++ ys).length < 2 ^ 30) {o : RoundOut}
    (hr : roundDel mont h k0 k1 s0 s1 xs ys ρ = .ok (s0', s1', o)) :
    DInvN N0 N1 h B (p0 * q0) (p1 * q1) (X ++ xs) (Y ++ ys) s0' s1' ∧ s0.lost <+: s0'.lost ∧ s1.lost <+: s1'.lost ∧
    (s0'.lost = [] → s1'.lost = [] → GroupsOK (p1 * q1) xs Y o.items0 o.resp1 ∧
      GroupsOK (p0 * q0) ys (X ++ xs) o.items1 o.resp0) := by
  simp only [roundDel, delGenI, delGenII, delRecvII, Outcome.bind_eq_ok, Outcome.pure_eq, Outcome.ok.injEq,
    Prod.mk.injEq, Prod.exists] at hr
  obtain ⟨t0, m1, g0, ⟨u0, hu0, gs0, ws0, hc0, rfl, rfl, rfl⟩, t1, m2, r1, g1,
    ⟨other1, ho1, ys1, hy1, u1, hu1, gs1, ws1, hc1, rfl, rfl, rfl, rfl⟩, t0', r0,
    ⟨other0, ho0, ys0, hy0, rfl, rfl⟩, rfl, rfl, rfl⟩ := hr
  simp only [List.length_append] at tX tY
  have hh' : ∀ e : EP, 256 ≤ ((fun e : EP => h e.1) e).length := fun e => by simp only [hh]; omega
  obtain ⟨a1, a2, a3⟩ := mirror_step (mergeBucket_post h) hh' (isPad := PadP B (p0 * q0)) hρ.pads0 hI.wf0 hI.mir0
    hρ.hsh0 (by rw [hI.size0]; omega) (fun i j e _ w c hw hc => Or.inl (encPair_spec K.own0 hw hc)) hu0 ho1
  obtain ⟨b1, b2, b3⟩ := mirror_step (mergeBucket_post h) hh' (isPad := PadP B (p1 * q1)) hρ.pads1 hI.wf1 hI.mir1
    hρ.hsh1 (by rw [hI.size1]; omega) (fun i j e _ w c hw hc => Or.inl (encPair_spec K.own1 hw hc)) hu1 ho0
  obtain ⟨a4, a5⟩ := sendUpdate_net hh hI.wf0 hρ.hsh0 (by rw [hI.size0]; omega) hu0
  obtain ⟨b4, b5⟩ := sendUpdate_net hh hI.wf1 hρ.hsh1 (by rw [hI.size1]; omega) hu1
  have a6 := a5 B (fun e he => (hX e he).2) hI.keys0
  have b6 := b5 B (fun e he => (hY e he).2) hI.keys1
  have a7 : ∀ k, payloadSum k u0.tree.contents + payloadSum k (s0.lost ++ u0.lost) = payloadSum k (X ++ xs) := by
    intro k
    rw [payloadSum_append, payloadSum_append]
    have := a4 k; have := hI.net0 k; omega
  have b7 : ∀ k, payloadSum k u1.tree.contents + payloadSum k (s1.lost ++ u1.lost) = payloadSum k (Y ++ ys) := by
    intro k
    rw [payloadSum_append, payloadSum_append]
    have := b4 k; have := hI.net1 k; omega
  refine ⟨⟨a1, b1, by simp [a2, hI.size0], by simp [b2, hI.size1], a6, b6, a7, b7, a3, b3⟩,
    List.prefix_append _ _, List.prefix_append _ _, ?_⟩
  intro l0 l1
  simp only at l0 l1
  constructor
  · refine (candidates_groupsN h10 K.own1 hh hB1 hI.wf1 hI.mir1 hI.keys1 hX hρ.path0 hc0 hy1).congr ?_
    intro k
    have := hI.net1 k
    rw [(List.append_eq_nil_iff.1 l1).1] at this
    simpa [payloadSum] using this
  · refine (candidates_groupsN h00 K.own0 hh hB0 a1 a3 a6 hY hρ.path1 hc1 hy0).congr ?_
    intro k
    have := a7 k
    rw [l0] at this
    simpa [payloadSum] using this

/-- The payloads of mock elements. -/
def ones (M : List Nat) : List EP := M.map (fun e => (e, (1 : Int)))

theorem payloadSum_ones_absent {M : List Nat} {k : Nat} (h : k ∉ M) : payloadSum k (ones M) = 0 := by
  apply payloadSum_absent
  simpa [ones] using h

/-- The invariant with mock elements set apart: `X`, `Y` are the updates of the data sets. -/
def DInvM (M0 M1 : List Nat) (N0 N1 : Nat → Prop) (h : Nat → List Bool) (B n0 n1 : Nat) (X Y : List EP) (s0 s1 : DSt) : Prop :=
  DInvN N0 N1 h B n0 n1 (ones M0 ++ X) (ones M1 ++ Y) s0 s1

theorem roundStep_DInvM {N0 N1 : Nat → Prop} {M0 M1 : List Nat} (n0 : ∀ m ∈ M0, ¬ N0 m) (n1 : ∀ m ∈ M1, ¬ N1 m)
    (h00 : ¬ N0 0) (h10 : ¬ N1 0) (K : Keys p0 q0 p1 q1 mont k0 k1) {h : Nat → List Bool} (hh : ∀ e, (h e).length = 256)
    {B : Nat} (hB0 : B ≤ p0 * q0) (hB1 : B ≤ p1 * q1) (b0 : M0.length ≤ 2 ^ 30) (b1 : M1.length ≤ 2 ^ 30) :
    RoundStep mont h k0 k1 B (p0 * q0) (p1 * q1) (DInvM M0 M1 N0 N1 h B (p0 * q0) (p1 * q1)) (fun k => N1 k ∧ k < B)
      (fun k => N0 k ∧ k < B) (2 ^ 30 - M0.length) (2 ^ 30 - M1.length) := by
  intro X Y xs ys s0 s1 s0' s1' hI ρ hρ hX hY tX tY o hr
  obtain ⟨k1, k2, k3, k4⟩ := round_specN h00 h10 K hh hB0 hB1 hI hρ hX hY
    (by simp only [List.length_append, ones, List.length_map] at tX ⊢; omega)
    (by simp only [List.length_append, ones, List.length_map] at tY ⊢; omega) hr
  refine ⟨by simpa only [DInvM, List.append_assoc] using k1, k2, k3, fun l0 l1 => ?_⟩
  obtain ⟨g1, g2⟩ := k4 l0 l1
  refine ⟨⟨forall₂_mono g1.1 (fun e he g hg => ?_), g1.2⟩, ⟨forall₂_mono g2.1 (fun e he g hg => ?_), g2.2⟩⟩
  · rw [payloadSum_append, payloadSum_ones_absent (fun hm => n1 _ hm (hX e he).1), zero_add] at hg
    exact hg
  · rw [List.append_assoc, payloadSum_append, payloadSum_ones_absent (fun hm => n0 _ hm (hY e he).1), zero_add] at hg
    exact hg

end Upsi.Mock
