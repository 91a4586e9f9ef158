import Verif.Proto.DelPsiLemmas
import Mathlib.Data.Finset.Card
import Mathlib.Data.List.Nodup
import Mathlib.Tactic.Tauto
/-
Property theorems C47: plain intersection with deletions.
-/
namespace Upsi.Proto
open Upsi Upsi.Tree Upsi.Tree.Props Upsi.Num Upsi.Paillier

/-! ### specification -/

/-- One day of a history of the intersection protocol with deletions. -/
structure DayPsiIn where
  xs : List EP
  ys : List EP
  coins : DelPsiCoins

/-- The elements deleted by a day's updates (negative payload). -/
def delKeys (xs : List EP) : Finset Nat := ((xs.filter (fun e => e.2 < 0)).map Prod.fst).toFinset
/-- The elements added by a day's updates. -/
def addKeys (xs : List EP) : Finset Nat := ((xs.filter (fun e => 0 ≤ e.2)).map Prod.fst).toFinset
/-- The set held after a day: remove what is deleted, then insert what is added. -/
def after (A : Finset Nat) (xs : List EP) : Finset Nat := (A \ delKeys xs) ∪ addKeys xs
/-- The set held after a list of days, starting from `A`. -/
def holdings (A : Finset Nat) (days : List (List EP)) : Finset Nat := days.foldl after A

/-- A day's updates are consistent with holding the set `A`, every element `k` carrying `v k`: each
element lies strictly between `0` and `B` and is updated by plus or minus its value, no element is deleted
twice or added twice, only held elements are deleted and only elements not held (after the deletions)
are added. -/
structure ValidDay (v : Nat → Int) (B : Nat) (A : Finset Nat) (xs : List EP) : Prop where
  range : ∀ e ∈ xs, 0 < e.1 ∧ e.1 < B
  value : ∀ e ∈ xs, e.2 = v e.1 ∨ e.2 = -v e.1
  del_nodup : ((xs.filter (fun e => e.2 < 0)).map Prod.fst).Nodup
  add_nodup : ((xs.filter (fun e => 0 ≤ e.2)).map Prod.fst).Nodup
  del_held : delKeys xs ⊆ A
  add_new : Disjoint (addKeys xs) (A \ delKeys xs)

/-- A list of days is consistent when each day is consistent with what is held before it. -/
def ValidDays (v : Nat → Int) (B : Nat) : Finset Nat → List (List EP) → Prop
  | _, [] => True
  | A, xs :: days => ValidDay v B A xs ∧ ValidDays v B (after A xs) days

/-- Admissible histories of the intersection protocol. -/
structure PsiAdmissible (v w : Nat → Int) (B n0 n1 : Nat) (ds : List DayPsiIn) : Prop where
  bound0 : 2 * B ≤ n0
  bound1 : 2 * B ≤ n1
  bound64 : B ≤ 2 ^ 63
  wide : 2 ^ 65 ≤ n0
  weights : ∀ k, 0 < k → k < B → 0 < v k ∧ 0 < w k ∧ v k * w k = k
  coins1 : ∀ d ∈ ds, d.coins.round1.WF B n0 n1 (deletionsOf d.xs) (deletionsOf d.ys)
  coins2 : ∀ d ∈ ds, d.coins.round2.WF B n0 n1 (additionsOf d.xs) (additionsOf d.ys)
  shuffle : ∀ d ∈ ds, ∀ l, (d.coins.shuffle l).Perm l
  valid0 : ValidDays v B ∅ (ds.map (·.xs))
  valid1 : ValidDays w B ∅ (ds.map (·.ys))
  sizeX : (ds.flatMap (·.xs)).length < 2 ^ 30
  sizeY : (ds.flatMap (·.ys)).length < 2 ^ 30

/-- The whole run of the intersection protocol with deletions on fresh trees. -/
abbrev runDelPsi (ro : List UInt8 → Nat) (mont : Int → Option Mont) (h : Nat → List Bool) (k0 k1 : DKeys)
    (stash node : Nat) (ds : List DayPsiIn) : Outcome StDelPsi :=
  runDays (fun s (d : DayPsiIn) => dayDelPsi ro mont h k0 k1 s d.xs d.ys d.coins) (StDelPsi.init stash node) ds

/-! ### one day -/

/-- The contributions of the elements of `es` against what the other party holds. -/
def terms (es Z : List EP) : List Int := es.map (fun e => e.2 * payloadSum e.1 Z)

theorem terms_groups {n : Nat} {es Z : List EP} {its : List (List Item)} {ys : List (List Int)}
    (h : GroupsOK n es Z its ys) :
    List.Forall₂ (fun w (g : List Item × List Int) => GroupOK n w g.1 g.2) (terms es Z) (its.zip ys) := by
  unfold terms
  rw [List.forall₂_map_left_iff]
  exact h.1

/-- All contributions of a day. -/
def dayTerms (X Y xs ys : List EP) : List Int :=
  (terms (deletionsOf xs) Y ++ terms (additionsOf xs) (Y ++ deletionsOf ys)) ++
  (terms (deletionsOf ys) (X ++ deletionsOf xs) ++ terms (additionsOf ys) (X ++ deletionsOf xs ++ additionsOf xs))

theorem split_perm (xs : List EP) : (deletionsOf xs ++ additionsOf xs).Perm xs := by
  have := List.filter_append_perm (fun e : EP => decide (e.2 < 0)) xs
  have h2 : xs.filter (fun e : EP => !decide (e.2 < 0)) = additionsOf xs := by
    unfold additionsOf
    apply List.filter_congr
    intro e _
    rw [← decide_not]
    simp
  rw [h2] at this
  exact this

section
variable {mont : Int → Option Mont} {p0 q0 p1 q1 : Nat} {k0 k1 : DKeys}

/-- A day up to the numbers party zero is about to process (everything before the output loop of
party_zero.cc:98-106): the new trees, the circuit phases and the signed updates. -/
structure Pending where
  p0 : DSt
  p1 : DSt
  phases : List Phase
  updates : List Int

/-- The part of `dayDelPsi` before the output loop (`dayDelPsi_eq`). -/
def pendingOf (ro : List UInt8 → Nat) (mont : Int → Option Mont) (hashOf : Nat → List Bool) (k0 k1 : DKeys)
    (s0 s1 : DSt) (xs ys : List EP) (ρ : DelPsiCoins) : Outcome Pending := do
  let (a0, a1, o1) ← roundDel mont hashOf k0 k1 s0 s1 (deletionsOf xs) (deletionsOf ys) ρ.round1
  let (b0, b1, o2) ← roundDel mont hashOf k0 k1 a0 a1 (additionsOf xs) (additionsOf ys) ρ.round2
  let f0 ← gcGroups ro mont k0.pk k1.sk false ρ.gc0 0 (o1.items0 ++ o2.items0) (o1.resp1 ++ o2.resp1)
  let f1 ← gcGroups ro mont k1.pk k0.sk true ρ.gc1 0 (o1.items1 ++ o2.items1) (o1.resp0 ++ o2.resp0)
  let us ← secondPhase mont k0.sk k1.pk ρ
    (f0.map (fun f => (f.sender, f.receiver)) ++ f1.map (fun f => (f.receiver, f.sender)))
  pure ⟨b0, b1, f0 ++ f1, us.map signed⟩

theorem dayDelPsi_eq (ro : List UInt8 → Nat) (h : Nat → List Bool) (s : StDelPsi) (xs ys : List EP) (ρ : DelPsiCoins) :
    dayDelPsi ro mont h k0 k1 s xs ys ρ = pendingOf ro mont h k0 k1 s.p0 s.p1 xs ys ρ >>= fun x =>
      applyUpdates (s.result, s.inter) x.updates >>= fun r =>
        pure ⟨x.p0, x.p1, r.1, r.2, s.trace ++ x.phases, s.updates ++ [x.updates]⟩ := by
  unfold dayDelPsi pendingOf
  rcases roundDel mont h k0 k1 s.p0 s.p1 (deletionsOf xs) (deletionsOf ys) ρ.round1 with ⟨a0, a1, o1⟩ | m | _ | _
  · simp only [Outcome.bind_ok]
    rcases roundDel mont h k0 k1 a0 a1 (additionsOf xs) (additionsOf ys) ρ.round2 with ⟨b0, b1, o2⟩ | m | _ | _
    · simp only [Outcome.bind_ok]
      rcases gcGroups ro mont k0.pk k1.sk false ρ.gc0 0 (o1.items0 ++ o2.items0) (o1.resp1 ++ o2.resp1) with f0 | m | _ | _
      · simp only [Outcome.bind_ok]
        rcases gcGroups ro mont k1.pk k0.sk true ρ.gc1 0 (o1.items1 ++ o2.items1) (o1.resp0 ++ o2.resp0) with f1 | m | _ | _
        · simp only [Outcome.bind_ok]
          rcases secondPhase mont k0.sk k1.pk ρ
            (f0.map (fun f => (f.sender, f.receiver)) ++ f1.map (fun f => (f.receiver, f.sender))) with us | m | _ | _
          · simp only [Outcome.bind_ok, Outcome.pure_eq, List.append_assoc]
          all_goals rfl
        all_goals rfl
      all_goals rfl
    all_goals rfl
  all_goals rfl

theorem pendingOf_specJ (K : Keys p0 q0 p1 q1 mont k0 k1) {ro : List UInt8 → Nat} {h : Nat → List Bool}
    {B : Nat} {J : List EP → List EP → DSt → DSt → Prop} {Q0 Q1 : Nat → Prop} {L0 L1 : Nat}
    (hstep : RoundStep mont h k0 k1 B (p0 * q0) (p1 * q1) J Q0 Q1 L0 L1)
    (hB0 : 2 * B ≤ p0 * q0) (hB1 : 2 * B ≤ p1 * q1) (hB : B ≤ 2 ^ 63)
    (hw : 2 ^ 65 ≤ p0 * q0)
    {X Y xs ys : List EP} {s0 s1 : DSt} (hI : J X Y s0 s1)
    {ρ : DelPsiCoins} (hρ1 : ρ.round1.WF B (p0 * q0) (p1 * q1) (deletionsOf xs) (deletionsOf ys))
    (hρ2 : ρ.round2.WF B (p0 * q0) (p1 * q1) (additionsOf xs) (additionsOf ys))
    (hsh : ∀ l, (ρ.shuffle l).Perm l)
    (hX : ∀ e ∈ xs, Q0 e.1) (hY : ∀ e ∈ ys, Q1 e.1)
    (tX : (X ++ xs).length < L0) (tY : (Y ++ ys).length < L1) {x : Pending}
    (hr : pendingOf ro mont h k0 k1 s0 s1 xs ys ρ = .ok x) :
    J (X ++ deletionsOf xs ++ additionsOf xs) (Y ++ deletionsOf ys ++ additionsOf ys)
      x.p0 x.p1 ∧
    s0.lost <+: x.p0.lost ∧ s1.lost <+: x.p1.lost ∧
    (x.p0.lost = [] → x.p1.lost = [] → (∀ f ∈ x.phases, f.Clean ro) →
      (∀ t ∈ dayTerms X Y xs ys, |t| < B) →
      x.updates.Perm ((dayTerms X Y xs ys).filter (fun t => decide (t ≠ 0)))) := by
  simp only [pendingOf, Outcome.bind_eq_ok, Outcome.pure_eq, Outcome.ok.injEq, Prod.exists] at hr
  obtain ⟨a0, a1, o1, hr1, b0, b1, o2, hr2, f0, hf0, f1, hf1, us, hus, rfl⟩ := hr
  have lx := (split_perm xs).length_eq
  have ly := (split_perm ys).length_eq
  simp only [List.length_append] at lx ly tX tY
  have mx : ∀ e, e ∈ deletionsOf xs → e ∈ xs := fun e he => (List.mem_filter.1 he).1
  have mx' : ∀ e, e ∈ additionsOf xs → e ∈ xs := fun e he => (List.mem_filter.1 he).1
  have my : ∀ e, e ∈ deletionsOf ys → e ∈ ys := fun e he => (List.mem_filter.1 he).1
  have my' : ∀ e, e ∈ additionsOf ys → e ∈ ys := fun e he => (List.mem_filter.1 he).1
  obtain ⟨r1, r2, r3, r4⟩ := hstep hI hρ1 (fun e he => hX e (mx e he))
    (fun e he => hY e (my e he)) (by simp only [List.length_append]; omega)
    (by simp only [List.length_append]; omega) hr1
  obtain ⟨z1, z2, z3, z4⟩ := hstep r1 hρ2 (fun e he => hX e (mx' e he))
    (fun e he => hY e (my' e he)) (by simp only [List.length_append]; omega)
    (by simp only [List.length_append]; omega) hr2
  refine ⟨z1, r2.trans z2, r3.trans z3, ?_⟩
  intro l0 l1 hc hb
  simp only at l0 l1 hc
  have l0' : a0.lost = [] := by rw [l0] at z2; exact List.prefix_nil.1 z2
  have l1' : a1.lost = [] := by rw [l1] at z3; exact List.prefix_nil.1 z3
  obtain ⟨g1, g2⟩ := r4 l0' l1'
  obtain ⟨g3, g4⟩ := z4 l0 l1
  have F0 := gcGroups_spec K.own1 _ _ _ (terms (deletionsOf xs) Y ++ terms (additionsOf xs) (Y ++ deletionsOf ys)) _
    (by rw [List.zip_append g1.2]; exact List.rel_append (terms_groups g1) (terms_groups g3)) hf0
    (fun f hf => hc f (by simp [hf]))
    (fun t ht => by have := hb t (List.mem_append_left _ ht); omega)
  have F1 := gcGroups_spec K.own0 _ _ _
    (terms (deletionsOf ys) (X ++ deletionsOf xs) ++ terms (additionsOf ys) (X ++ deletionsOf xs ++ additionsOf xs)) _
    (by rw [List.zip_append g2.2]; exact List.rel_append (terms_groups g2) (terms_groups g4)) hf1
    (fun f hf => hc f (by simp [hf]))
    (fun t ht => by have := hb t (List.mem_append_right _ ht); omega)
  have hu := secondPhase_spec K.own0 hw hsh hus
  have e0 := forall₂_eq_map (f := fun t => UInt64.ofInt t) (l' := f0.map (fun f => f.sender + f.receiver))
    (by rw [List.forall₂_map_right_iff]; exact F0)
  have e1 := forall₂_eq_map (f := fun t => UInt64.ofInt t) (l' := f1.map (fun f => f.receiver + f.sender))
    (by rw [List.forall₂_map_right_iff]; exact forall₂_mono F1 (fun _ _ _ h => by rw [UInt64.add_comm]; exact h))
  have hwords : (f0.map (fun f => (f.sender, f.receiver)) ++ f1.map (fun f => (f.receiver, f.sender))).map
      (fun w => w.1 + w.2) = (dayTerms X Y xs ys).map (fun t => UInt64.ofInt t) := by
    rw [List.map_append, List.map_map, List.map_map]
    unfold dayTerms
    rw [List.map_append (f := fun t => UInt64.ofInt t)]
    exact congrArg₂ _ e0 e1
  rw [hwords, List.filter_map] at hu
  have hu' := hu.map signed
  rw [List.map_map] at hu'
  refine hu'.trans (List.Perm.of_eq ?_)
  have hfil : List.filter ((fun w : UInt64 => decide (0 < w)) ∘ fun t => UInt64.ofInt t) (dayTerms X Y xs ys) =
      List.filter (fun t => decide (t ≠ 0)) (dayTerms X Y xs ys) := by
    apply List.filter_congr
    intro t ht
    have := abs_lt.1 (hb t ht)
    simp only [Function.comp]
    exact decide_eq_decide.2 (ofInt_pos_iff (by omega) (by omega))
  rw [hfil]
  conv_rhs => rw [← List.map_id (List.filter (fun t => decide (t ≠ 0)) (dayTerms X Y xs ys))]
  apply List.map_congr_left
  intro t ht
  have := abs_lt.1 (hb t (List.mem_filter.1 ht).1)
  exact signed_ofInt (by omega) (by omega)

theorem dayDelPsi_specJ (K : Keys p0 q0 p1 q1 mont k0 k1) {ro : List UInt8 → Nat} {h : Nat → List Bool}
    {B : Nat} {J : List EP → List EP → DSt → DSt → Prop} {Q0 Q1 : Nat → Prop} {L0 L1 : Nat}
    (hstep : RoundStep mont h k0 k1 B (p0 * q0) (p1 * q1) J Q0 Q1 L0 L1)
    (hB0 : 2 * B ≤ p0 * q0) (hB1 : 2 * B ≤ p1 * q1) (hB : B ≤ 2 ^ 63)
    (hw : 2 ^ 65 ≤ p0 * q0)
    {X Y xs ys : List EP} {s s' : StDelPsi} (hI : J X Y s.p0 s.p1)
    {ρ : DelPsiCoins} (hρ1 : ρ.round1.WF B (p0 * q0) (p1 * q1) (deletionsOf xs) (deletionsOf ys))
    (hρ2 : ρ.round2.WF B (p0 * q0) (p1 * q1) (additionsOf xs) (additionsOf ys))
    (hsh : ∀ l, (ρ.shuffle l).Perm l)
    (hX : ∀ e ∈ xs, Q0 e.1) (hY : ∀ e ∈ ys, Q1 e.1)
    (tX : (X ++ xs).length < L0) (tY : (Y ++ ys).length < L1)
    (hr : dayDelPsi ro mont h k0 k1 s xs ys ρ = .ok s') :
    J (X ++ deletionsOf xs ++ additionsOf xs) (Y ++ deletionsOf ys ++ additionsOf ys)
      s'.p0 s'.p1 ∧
    s.p0.lost <+: s'.p0.lost ∧ s.p1.lost <+: s'.p1.lost ∧ s.trace <+: s'.trace ∧
    ∃ u, s'.updates = s.updates ++ [u] ∧
      applyUpdates (s.result, s.inter) u = .ok (s'.result, s'.inter) ∧
      (s'.p0.lost = [] → s'.p1.lost = [] → (∀ f ∈ s'.trace, f.Clean ro) →
        (∀ t ∈ dayTerms X Y xs ys, |t| < B) →
        u.Perm ((dayTerms X Y xs ys).filter (fun t => decide (t ≠ 0)))) := by
  simp only [dayDelPsi_eq, Outcome.bind_eq_ok, Outcome.pure_eq, Outcome.ok.injEq, Prod.exists] at hr
  obtain ⟨x, hx, r, inter, happ, rfl⟩ := hr
  obtain ⟨z1, z2, z3, z4⟩ := pendingOf_specJ K hstep hB0 hB1 hB hw hI hρ1 hρ2 hsh hX hY tX tY hx
  exact ⟨z1, z2, z3, List.prefix_append _ _, x.updates, rfl, happ, fun l0 l1 hc hb =>
    z4 l0 l1 (fun f hf => hc f (by simp [hf])) hb⟩

theorem pendingOf_spec (K : Keys p0 q0 p1 q1 mont k0 k1) {ro : List UInt8 → Nat} {h : Nat → List Bool}
    (hh : ∀ e, (h e).length = 256) {B : Nat} (hB0 : 2 * B ≤ p0 * q0) (hB1 : 2 * B ≤ p1 * q1) (hB : B ≤ 2 ^ 63)
    (hw : 2 ^ 65 ≤ p0 * q0)
    {X Y xs ys : List EP} {s0 s1 : DSt} (hI : DInv h B (p0 * q0) (p1 * q1) X Y s0 s1)
    {ρ : DelPsiCoins} (hρ1 : ρ.round1.WF B (p0 * q0) (p1 * q1) (deletionsOf xs) (deletionsOf ys))
    (hρ2 : ρ.round2.WF B (p0 * q0) (p1 * q1) (additionsOf xs) (additionsOf ys))
    (hsh : ∀ l, (ρ.shuffle l).Perm l)
    (hX : ∀ e ∈ xs, e.1 < B) (hY : ∀ e ∈ ys, e.1 < B)
    (tX : (X ++ xs).length < 2 ^ 30) (tY : (Y ++ ys).length < 2 ^ 30) {x : Pending}
    (hr : pendingOf ro mont h k0 k1 s0 s1 xs ys ρ = .ok x) :
    DInv h B (p0 * q0) (p1 * q1) (X ++ deletionsOf xs ++ additionsOf xs) (Y ++ deletionsOf ys ++ additionsOf ys)
      x.p0 x.p1 ∧
    s0.lost <+: x.p0.lost ∧ s1.lost <+: x.p1.lost ∧
    (x.p0.lost = [] → x.p1.lost = [] → (∀ f ∈ x.phases, f.Clean ro) →
      (∀ t ∈ dayTerms X Y xs ys, |t| < B) →
      x.updates.Perm ((dayTerms X Y xs ys).filter (fun t => decide (t ≠ 0)))) := 
  pendingOf_specJ K (roundStep_DInv K hh (by omega) (by omega)) hB0 hB1 hB hw hI hρ1 hρ2 hsh hX hY tX tY hr

theorem dayDelPsi_spec (K : Keys p0 q0 p1 q1 mont k0 k1) {ro : List UInt8 → Nat} {h : Nat → List Bool}
    (hh : ∀ e, (h e).length = 256) {B : Nat} (hB0 : 2 * B ≤ p0 * q0) (hB1 : 2 * B ≤ p1 * q1) (hB : B ≤ 2 ^ 63)
    (hw : 2 ^ 65 ≤ p0 * q0)
    {X Y xs ys : List EP} {s s' : StDelPsi} (hI : DInv h B (p0 * q0) (p1 * q1) X Y s.p0 s.p1)
    {ρ : DelPsiCoins} (hρ1 : ρ.round1.WF B (p0 * q0) (p1 * q1) (deletionsOf xs) (deletionsOf ys))
    (hρ2 : ρ.round2.WF B (p0 * q0) (p1 * q1) (additionsOf xs) (additionsOf ys))
    (hsh : ∀ l, (ρ.shuffle l).Perm l)
    (hX : ∀ e ∈ xs, e.1 < B) (hY : ∀ e ∈ ys, e.1 < B)
    (tX : (X ++ xs).length < 2 ^ 30) (tY : (Y ++ ys).length < 2 ^ 30)
    (hr : dayDelPsi ro mont h k0 k1 s xs ys ρ = .ok s') :
    DInv h B (p0 * q0) (p1 * q1) (X ++ deletionsOf xs ++ additionsOf xs) (Y ++ deletionsOf ys ++ additionsOf ys)
      s'.p0 s'.p1 ∧
    s.p0.lost <+: s'.p0.lost ∧ s.p1.lost <+: s'.p1.lost ∧ s.trace <+: s'.trace ∧
    ∃ u, s'.updates = s.updates ++ [u] ∧
      applyUpdates (s.result, s.inter) u = .ok (s'.result, s'.inter) ∧
      (s'.p0.lost = [] → s'.p1.lost = [] → (∀ f ∈ s'.trace, f.Clean ro) →
        (∀ t ∈ dayTerms X Y xs ys, |t| < B) →
        u.Perm ((dayTerms X Y xs ys).filter (fun t => decide (t ≠ 0)))) := 
  dayDelPsi_specJ K (roundStep_DInv K hh (by omega) (by omega)) hB0 hB1 hB hw hI hρ1 hρ2 hsh hX hY tX tY hr

end

/-! ### combinatorics of a day -/

theorem djl {s t : Finset Nat} (h : Disjoint s t) : ∀ a, a ∈ s → a ∉ t := fun _ ha => Finset.disjoint_left.1 h ha

theorem keys_del (xs : List EP) : ((deletionsOf xs).map Prod.fst).toFinset = delKeys xs := rfl
theorem keys_add (xs : List EP) : ((additionsOf xs).map Prod.fst).toFinset = addKeys xs := rfl

/-- Values of a list of updates with distinct elements, each with payload `σ`. -/
theorem payloadSum_keys {xs : List EP} {σ : Nat → Int} (hv : ∀ e ∈ xs, e.2 = σ e.1) (hn : (xs.map Prod.fst).Nodup)
    (k : Nat) : payloadSum k xs = if k ∈ (xs.map Prod.fst).toFinset then σ k else 0 := by
  induction xs with
  | nil => simp [payloadSum]
  | cons e xs ih =>
    rw [List.map_cons, List.nodup_cons] at hn
    rw [payloadSum_cons, ih (fun a ha => hv a (by simp [ha])) hn.2]
    have he := hv e (by simp)
    by_cases hk : e.1 = k
    · subst hk
      have : e.1 ∉ (xs.map Prod.fst).toFinset := by simpa using hn.1
      rw [if_neg this, if_pos rfl, if_pos (by simp), he, add_zero]
    · have : ¬ k = e.1 := fun h => hk h.symm
      simp only [if_neg hk, zero_add, List.map_cons, List.toFinset_cons, Finset.mem_insert, this, false_or]

theorem ValidDay.delValue {v : Nat → Int} {B : Nat} {A : Finset Nat} {xs : List EP} (h : ValidDay v B A xs)
    (hv : ∀ k, 0 < k → k < B → 0 < v k) : ∀ e ∈ deletionsOf xs, e.2 = -v e.1 := by
  intro e he
  obtain ⟨h1, h2⟩ := List.mem_filter.1 he
  have := hv _ (h.range e h1).1 (h.range e h1).2
  simp only [decide_eq_true_eq] at h2
  rcases h.value e h1 with h' | h' <;> omega

theorem ValidDay.addValue {v : Nat → Int} {B : Nat} {A : Finset Nat} {xs : List EP} (h : ValidDay v B A xs)
    (hv : ∀ k, 0 < k → k < B → 0 < v k) : ∀ e ∈ additionsOf xs, e.2 = v e.1 := by
  intro e he
  obtain ⟨h1, h2⟩ := List.mem_filter.1 he
  have := hv _ (h.range e h1).1 (h.range e h1).2
  simp only [decide_eq_true_eq] at h2
  rcases h.value e h1 with h' | h' <;> omega

theorem carries_del {v : Nat → Int} {B : Nat} {A : Finset Nat} {X xs : List EP} (h : ValidDay v B A xs)
    (hv : ∀ k, 0 < k → k < B → 0 < v k) (hX : Carries v X A) : Carries v (X ++ deletionsOf xs) (A \ delKeys xs) := by
  intro k
  rw [payloadSum_append, hX k, payloadSum_keys (σ := fun k => -v k) (h.delValue hv) h.del_nodup, keys_del]
  have := @h.del_held k
  by_cases h1 : k ∈ delKeys xs
  · simp [h1, this h1]
  · simp [h1]

theorem carries_add {v : Nat → Int} {B : Nat} {A : Finset Nat} {X xs : List EP} (h : ValidDay v B A xs)
    (hv : ∀ k, 0 < k → k < B → 0 < v k) (hX : Carries v X (A \ delKeys xs)) :
    Carries v (X ++ additionsOf xs) (after A xs) := by
  intro k
  rw [payloadSum_append, hX k, payloadSum_keys (σ := v) (h.addValue hv) h.add_nodup, keys_add]
  have := djl h.add_new k
  unfold after
  by_cases h1 : k ∈ addKeys xs
  · simp [h1, this h1]
  · simp [h1]

theorem carries_after {v : Nat → Int} {B : Nat} {A : Finset Nat} {X xs : List EP} (h : ValidDay v B A xs)
    (hv : ∀ k, 0 < k → k < B → 0 < v k) (hX : Carries v X A) :
    Carries v (X ++ deletionsOf xs ++ additionsOf xs) (after A xs) := carries_add h hv (carries_del h hv hX)

/-- Nonzero contributions of distinct elements with payload `σ` against a party carrying `w` on `C`. -/
theorem terms_spec {es Z : List EP} {σ w τ : Nat → Int} {C : Finset Nat} (hv : ∀ e ∈ es, e.2 = σ e.1)
    (hZ : Carries w Z C) (hτ : ∀ e ∈ es, σ e.1 * w e.1 = τ e.1) (h0 : ∀ e ∈ es, τ e.1 ≠ 0) :
    (terms es Z).filter (fun t => decide (t ≠ 0)) = ((es.map Prod.fst).filter (fun k => decide (k ∈ C))).map τ := by
  induction es with
  | nil => rfl
  | cons e es ih =>
    have ih' := ih (fun a ha => hv a (by simp [ha])) (fun a ha => hτ a (by simp [ha])) (fun a ha => h0 a (by simp [ha]))
    have h1 := hv e (by simp)
    have h2 := hτ e (by simp)
    have h3 := h0 e (by simp)
    rw [show terms (e :: es) Z = (e.2 * payloadSum e.1 Z) :: terms es Z from rfl, List.map_cons, hZ e.1, h1]
    by_cases hc : e.1 ∈ C
    · rw [if_pos hc, h2, List.filter_cons_of_pos (by simpa using h3), List.filter_cons_of_pos (by simpa using hc),
        List.map_cons, ih']
    · rw [if_neg hc, mul_zero, List.filter_cons_of_neg (by simp), List.filter_cons_of_neg (by simpa using hc), ih']

/-- What leaves the intersection on a day. -/
def leaving (A C : Finset Nat) (xs ys : List EP) : Finset Nat := (delKeys xs ∪ delKeys ys) ∩ (A ∩ C)
/-- What is in the intersection at the end of a day and was updated by an addition. -/
def entering (A C : Finset Nat) (xs ys : List EP) : Finset Nat :=
  (addKeys xs ∪ addKeys ys) ∩ (after A xs ∩ after C ys)

theorem filter_keys_mem (L : List Nat) (C : Finset Nat) : ((L.filter (fun k => decide (k ∈ C))).toFinset) =
    L.toFinset ∩ C := by
  ext k
  simp

theorem updates_spec {v w : Nat → Int} {B : Nat} {A C : Finset Nat} {X Y xs ys : List EP}
    (hvw : ∀ k, 0 < k → k < B → 0 < v k ∧ 0 < w k ∧ v k * w k = k)
    (h0 : ValidDay v B A xs) (h1 : ValidDay w B C ys) (hX : Carries v X A) (hY : Carries w Y C) :
    (∀ t ∈ dayTerms X Y xs ys, |t| < B) ∧
    ((dayTerms X Y xs ys).filter (fun t => decide (t ≠ 0))).Nodup ∧
    (∀ z, z ∈ (dayTerms X Y xs ys).filter (fun t => decide (t ≠ 0)) ↔
      (∃ k ∈ leaving A C xs ys, z = -(k : Int)) ∨ (∃ k ∈ entering A C xs ys, z = (k : Int))) := by
  have hv : ∀ k, 0 < k → k < B → 0 < v k := fun k a b => (hvw k a b).1
  have hw : ∀ k, 0 < k → k < B → 0 < w k := fun k a b => (hvw k a b).2.1
  have rx : ∀ e ∈ deletionsOf xs, 0 < e.1 ∧ e.1 < B := fun e he => h0.range e (List.mem_filter.1 he).1
  have rx' : ∀ e ∈ additionsOf xs, 0 < e.1 ∧ e.1 < B := fun e he => h0.range e (List.mem_filter.1 he).1
  have ry : ∀ e ∈ deletionsOf ys, 0 < e.1 ∧ e.1 < B := fun e he => h1.range e (List.mem_filter.1 he).1
  have ry' : ∀ e ∈ additionsOf ys, 0 < e.1 ∧ e.1 < B := fun e he => h1.range e (List.mem_filter.1 he).1
  have cX1 := carries_del h0 hv hX
  have cX2 := carries_after h0 hv hX
  have cY1 := carries_del h1 hw hY
  have t1 := terms_spec (σ := fun k => -v k) (τ := fun k => -(k : Int)) (h0.delValue hv) hY
    (fun e he => by rw [neg_mul, (hvw e.1 (rx e he).1 (rx e he).2).2.2]) (fun e he => by have := rx e he; omega)
  have t2 := terms_spec (σ := v) (τ := fun k => (k : Int)) (h0.addValue hv) cY1
    (fun e he => (hvw e.1 (rx' e he).1 (rx' e he).2).2.2) (fun e he => by have := rx' e he; omega)
  have t3 := terms_spec (σ := fun k => -w k) (τ := fun k => -(k : Int)) (h1.delValue hw) cX1
    (fun e he => by rw [neg_mul, mul_comm, (hvw e.1 (ry e he).1 (ry e he).2).2.2]) (fun e he => by have := ry e he; omega)
  have t4 := terms_spec (σ := w) (τ := fun k => (k : Int)) (h1.addValue hw) cX2
    (fun e he => by rw [mul_comm]; exact (hvw e.1 (ry' e he).1 (ry' e he).2).2.2)
    (fun e he => by have := ry' e he; omega)
  have hall : (dayTerms X Y xs ys).filter (fun t => decide (t ≠ 0)) = 
      ((((deletionsOf xs).map Prod.fst).filter (fun k => decide (k ∈ C))).map (fun k : Nat => -(k : Int)) ++
       (((additionsOf xs).map Prod.fst).filter (fun k => decide (k ∈ C \ delKeys ys))).map (fun k : Nat => (k : Int))) ++
      ((((deletionsOf ys).map Prod.fst).filter (fun k => decide (k ∈ A \ delKeys xs))).map (fun k : Nat => -(k : Int)) ++
       (((additionsOf ys).map Prod.fst).filter (fun k => decide (k ∈ after A xs))).map (fun k : Nat => (k : Int))) := by
    unfold dayTerms
    simp only [List.filter_append]
    rw [t1, t2, t3, t4]
  have m1 : ∀ k, k ∈ (deletionsOf xs).map Prod.fst ↔ k ∈ delKeys xs := fun k => by rw [← keys_del]; simp
  have m2 : ∀ k, k ∈ (additionsOf xs).map Prod.fst ↔ k ∈ addKeys xs := fun k => by rw [← keys_add]; simp
  have m3 : ∀ k, k ∈ (deletionsOf ys).map Prod.fst ↔ k ∈ delKeys ys := fun k => by rw [← keys_del]; simp
  have m4 : ∀ k, k ∈ (additionsOf ys).map Prod.fst ↔ k ∈ addKeys ys := fun k => by rw [← keys_add]; simp
  have rg0 : ∀ k, k ∈ delKeys xs ∨ k ∈ addKeys xs → 0 < k ∧ k < B := by
    rintro k (h | h)
    · obtain ⟨e, he, rfl⟩ := List.mem_map.1 ((m1 k).2 h); exact rx e he
    · obtain ⟨e, he, rfl⟩ := List.mem_map.1 ((m2 k).2 h); exact rx' e he
  have rg1 : ∀ k, k ∈ delKeys ys ∨ k ∈ addKeys ys → 0 < k ∧ k < B := by
    rintro k (h | h)
    · obtain ⟨e, he, rfl⟩ := List.mem_map.1 ((m3 k).2 h); exact ry e he
    · obtain ⟨e, he, rfl⟩ := List.mem_map.1 ((m4 k).2 h); exact ry' e he
  have dX := @h0.del_held
  have dY := @h1.del_held
  have nY : ∀ k, k ∈ addKeys ys → k ∉ C \ delKeys ys := fun k => djl h1.add_new k
  have hmem : ∀ z, z ∈ (dayTerms X Y xs ys).filter (fun t => decide (t ≠ 0)) ↔
      (∃ k ∈ leaving A C xs ys, z = -(k : Int)) ∨ (∃ k ∈ entering A C xs ys, z = (k : Int)) := by
    intro z
    rw [hall]
    simp only [List.mem_append, List.mem_map (f := fun k : Nat => -(k : Int)), List.mem_map (f := fun k : Nat => (k : Int)),
      List.mem_filter (p := fun k => decide (k ∈ C)), List.mem_filter (p := fun k => decide (k ∈ C \ delKeys ys)),
      List.mem_filter (p := fun k => decide (k ∈ A \ delKeys xs)), List.mem_filter (p := fun k => decide (k ∈ after A xs)),
      m1, m2, m3, m4, decide_eq_true_eq]
    constructor
    · rintro ((⟨k, ⟨a, b⟩, rfl⟩ | ⟨k, ⟨a, b⟩, rfl⟩) | (⟨k, ⟨a, b⟩, rfl⟩ | ⟨k, ⟨a, b⟩, rfl⟩))
      · refine Or.inl ⟨k, ?_, rfl⟩
        simp [leaving, a, b, dX a]
      · refine Or.inr ⟨k, ?_, rfl⟩
        simp [entering, after, a, Finset.mem_sdiff.1 b]
      · refine Or.inl ⟨k, ?_, rfl⟩
        simp [leaving, a, dY a, (Finset.mem_sdiff.1 b).1]
      · refine Or.inr ⟨k, ?_, rfl⟩
        unfold entering
        rw [Finset.mem_inter, Finset.mem_inter]
        exact ⟨Finset.mem_union_right _ a, b, Finset.mem_union_right _ a⟩
    · rintro (⟨k, hk, rfl⟩ | ⟨k, hk, rfl⟩)
      · simp only [leaving, Finset.mem_inter, Finset.mem_union] at hk
        by_cases hd : k ∈ delKeys xs
        · exact Or.inl (Or.inl ⟨k, ⟨hd, hk.2.2⟩, rfl⟩)
        · exact Or.inr (Or.inl ⟨k, ⟨hk.1.resolve_left hd, Finset.mem_sdiff.2 ⟨hk.2.1, hd⟩⟩, rfl⟩)
      · simp only [entering, Finset.mem_inter, Finset.mem_union] at hk
        obtain ⟨hk1, hk2, hk3⟩ := hk
        by_cases hd : k ∈ addKeys ys
        · exact Or.inr (Or.inr ⟨k, ⟨hd, hk2⟩, rfl⟩)
        · refine Or.inl (Or.inr ⟨k, ⟨hk1.resolve_right hd, ?_⟩, rfl⟩)
          unfold after at hk3
          exact (Finset.mem_union.1 hk3).resolve_right hd
  refine ⟨?_, ?_, hmem⟩
  · intro t ht
    by_cases hz : t = 0
    · subst hz
      -- `B` is positive because the day has an element
      have hpos : 0 < B := by
        unfold dayTerms terms at ht
        simp only [List.mem_append, List.mem_map] at ht
        rcases ht with ((⟨e, he, _⟩ | ⟨e, he, _⟩) | (⟨e, he, _⟩ | ⟨e, he, _⟩))
        · have := rx e he; omega
        · have := rx' e he; omega
        · have := ry e he; omega
        · have := ry' e he; omega
      simpa using hpos
    · have := (hmem t).1 (List.mem_filter.2 ⟨ht, by simpa using hz⟩)
      rcases this with ⟨k, hk, rfl⟩ | ⟨k, hk, rfl⟩
      · simp only [leaving, Finset.mem_inter, Finset.mem_union] at hk
        have : k < B := by
          rcases hk.1 with h | h
          · exact (rg0 k (Or.inl h)).2
          · exact (rg1 k (Or.inl h)).2
        rw [abs_neg, Nat.abs_cast]; exact_mod_cast this
      · simp only [entering, Finset.mem_inter, Finset.mem_union] at hk
        have : k < B := by
          rcases hk.1 with h | h
          · exact (rg0 k (Or.inr h)).2
          · exact (rg1 k (Or.inr h)).2
        rw [Nat.abs_cast]; exact_mod_cast this
  · rw [hall]
    have inj1 : Function.Injective (fun k : Nat => -(k : Int)) := fun a b h => by simp only at h; omega
    have inj2 : Function.Injective (fun k : Nat => (k : Int)) := fun a b h => by simp only at h; omega
    have d1 : ((deletionsOf xs).map Prod.fst).Nodup := h0.del_nodup
    have d2 : ((additionsOf xs).map Prod.fst).Nodup := h0.add_nodup
    have d3 : ((deletionsOf ys).map Prod.fst).Nodup := h1.del_nodup
    have d4 : ((additionsOf ys).map Prod.fst).Nodup := h1.add_nodup
    have D : ∀ {L : List Nat} (f : Nat → Int) (P : Nat → Bool), Function.Injective f → L.Nodup →
        ((L.filter P).map f).Nodup := fun f P hf hL => (hL.filter P).map hf
    rw [List.nodup_append, List.nodup_append, List.nodup_append]
    refine ⟨⟨D _ _ inj1 d1, D _ _ inj2 d2, ?_⟩, ⟨D _ _ inj1 d3, D _ _ inj2 d4, ?_⟩, ?_⟩
    · intro a ha b hb
      obtain ⟨k, hk, rfl⟩ := List.mem_map.1 ha
      obtain ⟨j, hj, rfl⟩ := List.mem_map.1 hb
      have := rg0 k (Or.inl ((m1 k).1 (List.mem_filter.1 hk).1))
      omega
    · intro a ha b hb
      obtain ⟨k, hk, rfl⟩ := List.mem_map.1 ha
      obtain ⟨j, hj, rfl⟩ := List.mem_map.1 hb
      have := rg1 k (Or.inl ((m3 k).1 (List.mem_filter.1 hk).1))
      omega
    · intro a ha b hb
      rcases List.mem_append.1 ha with ha | ha <;> rcases List.mem_append.1 hb with hb | hb <;>
        obtain ⟨k, hk, rfl⟩ := List.mem_map.1 ha <;> obtain ⟨j, hj, rfl⟩ := List.mem_map.1 hb <;>
        rw [List.mem_filter] at hk hj <;> simp only [m1, m2, m3, m4, decide_eq_true_eq] at hk hj
      · intro h
        have : k = j := by omega
        subst this
        exact (Finset.mem_sdiff.1 hj.2).2 hk.1
      · have := rg0 k (Or.inl hk.1); omega
      · have := rg1 j (Or.inl hj.1); omega
      · intro h
        have : k = j := by omega
        subst this
        exact nY k hj.1 hk.2
theorem after_inter {v w : Nat → Int} {B : Nat} {A C : Finset Nat} {xs ys : List EP}
    (h0 : ValidDay v B A xs) (h1 : ValidDay w B C ys) :
    after A xs ∩ after C ys = ((A ∩ C) \ leaving A C xs ys) ∪ entering A C xs ys ∧
    Disjoint ((A ∩ C) \ leaving A C xs ys) (entering A C xs ys) ∧ leaving A C xs ys ⊆ A ∩ C := by
  have nX : ∀ k, k ∈ addKeys xs → k ∉ A \ delKeys xs := fun k =>
    djl h0.add_new k
  have nY : ∀ k, k ∈ addKeys ys → k ∉ C \ delKeys ys := fun k =>
    djl h1.add_new k
  refine ⟨?_, ?_, Finset.inter_subset_right⟩
  · ext k
    simp only [after, leaving, entering, Finset.mem_union, Finset.mem_inter, Finset.mem_sdiff]
    tauto
  · rw [Finset.disjoint_left]
    intro k hk hk'
    have a := nX k
    have b := nY k
    simp only [after, leaving, entering, Finset.mem_union, Finset.mem_inter, Finset.mem_sdiff] at *
    tauto

theorem leaving_pos {v w : Nat → Int} {B : Nat} {A C : Finset Nat} {xs ys : List EP}
    (h0 : ValidDay v B A xs) (h1 : ValidDay w B C ys) : ∀ k ∈ leaving A C xs ys, 0 < k := by
  intro k hk
  simp only [leaving, delKeys, Finset.mem_inter, Finset.mem_union, List.mem_toFinset, List.mem_map] at hk
  rcases hk.1 with ⟨e, he, rfl⟩ | ⟨e, he, rfl⟩
  · exact (h0.range e (List.mem_filter.1 he).1).1
  · exact (h1.range e (List.mem_filter.1 he).1).1

theorem entering_pos {v w : Nat → Int} {B : Nat} {A C : Finset Nat} {xs ys : List EP}
    (h0 : ValidDay v B A xs) (h1 : ValidDay w B C ys) : ∀ k ∈ entering A C xs ys, 0 < k := by
  intro k hk
  simp only [entering, addKeys, Finset.mem_inter, Finset.mem_union, List.mem_toFinset, List.mem_map] at hk
  rcases hk.1 with ⟨e, he, rfl⟩ | ⟨e, he, rfl⟩
  · exact (h0.range e (List.mem_filter.1 he).1).1
  · exact (h1.range e (List.mem_filter.1 he).1).1

theorem count_image {u : List Int} (hu : u.Nodup) {S : Finset Nat} {f : Nat → Int} (hf : Function.Injective f)
    {P : Int → Bool} (h : ∀ z, (z ∈ u ∧ P z) ↔ ∃ k ∈ S, z = f k) : (u.filter P).length = S.card := by
  have : (u.filter P).Perm (S.toList.map f) := by
    rw [List.perm_ext_iff_of_nodup (hu.filter _) ((Finset.nodup_toList S).map hf)]
    intro z
    rw [List.mem_filter, h]
    simp only [List.mem_map, Finset.mem_toList]
    constructor
    · rintro ⟨k, hk, rfl⟩; exact ⟨k, hk, rfl⟩
    · rintro ⟨k, hk, rfl⟩; exact ⟨k, hk, rfl⟩
  rw [this.length_eq]
  simp

theorem day_count {v w : Nat → Int} {B : Nat} {A C : Finset Nat} {xs ys : List EP} {u : List Int}
    (h0 : ValidDay v B A xs) (h1 : ValidDay w B C ys) (hu : u.Nodup)
    (hm : ∀ z, z ∈ u ↔ (∃ k ∈ leaving A C xs ys, z = -(k : Int)) ∨ (∃ k ∈ entering A C xs ys, z = (k : Int))) :
    ((after A xs ∩ after C ys).card : Int) = (A ∩ C).card +
      ((u.filter (fun z => decide (0 ≤ z))).length - (u.filter (fun z => decide (z < 0))).length) := by
  obtain ⟨e1, e2, e3⟩ := after_inter h0 h1
  have c1 : (u.filter (fun z => decide (0 ≤ z))).length = (entering A C xs ys).card := by
    refine count_image hu (f := fun k => (k : Int)) (fun a b h => by simp only at h; omega) ?_
    intro z
    rw [hm]
    simp only [decide_eq_true_eq]
    constructor
    · rintro ⟨⟨k, hk, rfl⟩ | h, hz⟩
      · have := leaving_pos h0 h1 k hk; omega
      · exact h
    · rintro ⟨k, hk, rfl⟩
      exact ⟨Or.inr ⟨k, hk, rfl⟩, by omega⟩
  have c2 : (u.filter (fun z => decide (z < 0))).length = (leaving A C xs ys).card := by
    refine count_image hu (f := fun k => -(k : Int)) (fun a b h => by simp only at h; omega) ?_
    intro z
    rw [hm]
    simp only [decide_eq_true_eq]
    constructor
    · rintro ⟨h | ⟨k, hk, rfl⟩, hz⟩
      · exact h
      · omega
    · rintro ⟨k, hk, rfl⟩
      have := leaving_pos h0 h1 k hk
      exact ⟨Or.inl ⟨k, hk, rfl⟩, by omega⟩
  rw [c1, c2, e1, Finset.card_union_of_disjoint e2]
  have := Finset.card_sdiff_add_card_eq_card e3
  omega

/-- The reported list is exactly the set `S`, without repetition. -/
def Reports (l : List Int) (S : Finset Nat) : Prop := l.Nodup ∧ ∀ z, z ∈ l ↔ ∃ k ∈ S, z = (k : Int)

/-- The reported list relative to a set `E` that was common from the start but never reported: exactly the
elements of `S` outside `E`, and `-k` for every `k` of `E` that is not in `S`; no repetition. -/
def ReportsFrom (E : Finset Nat) (l : List Int) (S : Finset Nat) : Prop :=
  l.Nodup ∧ ∀ z, z ∈ l ↔ (∃ k ∈ S \ E, z = (k : Int)) ∨ (∃ k ∈ E \ S, z = -(k : Int))

theorem reportsFrom_empty {l : List Int} {S : Finset Nat} : ReportsFrom ∅ l S ↔ Reports l S := by
  simp [ReportsFrom, Reports]

theorem ReportsFrom.pos {E : Finset Nat} {l : List Int} {S : Finset Nat} (h : ReportsFrom E l S)
    (hE : ∀ k ∈ E, 0 < k) (hS : ∀ k ∈ S, 0 < k) {k : Nat} (hk : 0 < k) :
    (((k : Int) ∈ l) ↔ k ∈ S ∧ k ∉ E) ∧ ((-(k : Int) ∈ l) ↔ k ∈ E ∧ k ∉ S) := by
  rw [h.2, h.2]
  simp only [Finset.mem_sdiff]
  constructor
  · constructor
    · rintro (⟨j, hj, e⟩ | ⟨j, hj, e⟩)
      · have : k = j := by omega
        subst this; exact hj
      · have := hE j hj.1; omega
    · intro hj; exact Or.inl ⟨k, hj, rfl⟩
  · constructor
    · rintro (⟨j, hj, e⟩ | ⟨j, hj, e⟩)
      · have := hS j hj.1; omega
      · have : k = j := by omega
        subst this; exact hj
    · intro hj; exact Or.inr ⟨k, hj, rfl⟩

theorem reportsFrom_of_pos {E : Finset Nat} {l : List Int} {S : Finset Nat} (hn : l.Nodup)
    (hz : ∀ z ∈ l, z ≠ 0) (hE : ∀ k ∈ E, 0 < k) (hS : ∀ k ∈ S, 0 < k)
    (h : ∀ k : Nat, 0 < k → (((k : Int) ∈ l) ↔ k ∈ S ∧ k ∉ E) ∧ ((-(k : Int) ∈ l) ↔ k ∈ E ∧ k ∉ S)) :
    ReportsFrom E l S := by
  refine ⟨hn, fun z => ?_⟩
  simp only [Finset.mem_sdiff]
  constructor
  · intro hm
    have h0 := hz z hm
    rcases lt_or_gt_of_ne h0 with hlt | hgt
    · refine Or.inr ⟨z.natAbs, (h _ (by omega)).2.1 ?_, by omega⟩
      rw [show -((z.natAbs : Nat) : Int) = z by omega]; exact hm
    · refine Or.inl ⟨z.natAbs, (h _ (by omega)).1.1 ?_, by omega⟩
      rw [show ((z.natAbs : Nat) : Int) = z by omega]; exact hm
  · rintro (⟨k, hk, rfl⟩ | ⟨k, hk, rfl⟩)
    · exact (h k (hS k hk.1)).1.2 hk
    · exact (h k (hE k hk.1)).2.2 hk

theorem day_set {v w : Nat → Int} {B : Nat} {A C E : Finset Nat} {xs ys : List EP} {u l l' : List Int} {r r' : UInt64}
    (h0 : ValidDay v B A xs) (h1 : ValidDay w B C ys) (hu : u.Nodup) (hpos : ∀ k ∈ A ∩ C, 0 < k)
    (hE : ∀ k ∈ E, 0 < k)
    (hm : ∀ z, z ∈ u ↔ (∃ k ∈ leaving A C xs ys, z = -(k : Int)) ∨ (∃ k ∈ entering A C xs ys, z = (k : Int)))
    (ho : OrderOK u) (hl : ReportsFrom E l (A ∩ C)) (ha : applyUpdates (r, l) u = .ok (r', l')) :
    ReportsFrom E l' (after A xs ∩ after C ys) := by
  obtain ⟨e1, e2, e3⟩ := after_inter h0 h1
  have lp := leaving_pos h0 h1
  have ep := entering_pos h0 h1
  have hu0 : ∀ z ∈ u, z ≠ 0 := fun z hz => by
    rcases (hm z).1 hz with ⟨k, hk, rfl⟩ | ⟨k, hk, rfl⟩
    · have := lp k hk; omega
    · have := ep k hk; omega
  have hlsane : ∀ z ∈ l, z ≠ 0 ∧ -z ∉ l := by
    intro z hz
    rcases (hl.2 z).1 hz with ⟨k, hk, rfl⟩ | ⟨k, hk, rfl⟩
    · have hk' := Finset.mem_sdiff.1 hk
      have hp := hpos k hk'.1
      exact ⟨by omega, fun hc => hk'.2 (((hl.pos hE hpos hp).2.1 hc).1)⟩
    · have hk' := Finset.mem_sdiff.1 hk
      have hp := hE k hk'.1
      refine ⟨by omega, fun hc => ?_⟩
      rw [Int.neg_neg] at hc
      exact ((hl.pos hE hpos hp).1.1 hc).2 hk'.1
  obtain ⟨k1, k2, k3⟩ := applyUpdates_set u r l r' l' hlsane hl.1 hu hu0 ho ha
  refine reportsFrom_of_pos k1 (fun z hz => (k2 z hz).1) hE ?_ ?_
  · rw [e1]
    intro k hk
    rcases Finset.mem_union.1 hk with hk | hk
    · exact hpos k (Finset.mem_sdiff.1 hk).1
    · exact ep k hk
  · intro k hk
    obtain ⟨a1, a2⟩ := k3 (k : Int) (by omega)
    obtain ⟨b1, b2⟩ := hl.pos hE hpos hk
    have c1 : (k : Int) ∈ u ↔ k ∈ entering A C xs ys := by
      rw [hm]
      constructor
      · rintro (⟨j, hj, e⟩ | ⟨j, hj, e⟩)
        · have := lp j hj; omega
        · have : k = j := by omega
          subst this; exact hj
      · intro hj; exact Or.inr ⟨k, hj, rfl⟩
    have c2 : -(k : Int) ∈ u ↔ k ∈ leaving A C xs ys := by
      rw [hm]
      constructor
      · rintro (⟨j, hj, e⟩ | ⟨j, hj, e⟩)
        · have : k = j := by omega
          subst this; exact hj
        · have := ep j hj; omega
      · intro hj; exact Or.inl ⟨k, hj, rfl⟩
    have d1 : k ∈ leaving A C xs ys → k ∈ A ∩ C := fun h => e3 h
    have d2 : k ∈ (A ∩ C) \ leaving A C xs ys → k ∉ entering A C xs ys := djl e2 k
    rw [Finset.mem_sdiff] at d2
    rw [a1, a2, b1, b2, c1, c2, e1, Finset.mem_union, Finset.mem_sdiff]
    clear hl k3 b1 b2 c1 c2 a1 a2 k2 hlsane hu0 hm lp ep hpos hE h0 h1 hu ho ha e2 e3 e1
    by_cases p1 : k ∈ A ∩ C <;> by_cases p2 : k ∈ E <;> by_cases p3 : k ∈ leaving A C xs ys <;>
      by_cases p4 : k ∈ entering A C xs ys <;> simp only [p1, p2, p3, p4] at d1 d2 ⊢ <;> simp at d1 d2 ⊢

theorem order_of_disjoint {v w : Nat → Int} {B : Nat} {A C : Finset Nat} {xs ys : List EP} {u : List Int}
    (h0 : ValidDay v B A xs) (h1 : ValidDay w B C ys)
    (n0 : Disjoint (delKeys xs) (addKeys xs)) (n1 : Disjoint (delKeys ys) (addKeys ys))
    (hum : ∀ z, z ∈ u ↔ (∃ k ∈ leaving A C xs ys, z = -(k : Int)) ∨ (∃ k ∈ entering A C xs ys, z = (k : Int))) :
    OrderOK u := by
  -- no element both leaves and enters
  have key : ∀ k, k ∈ leaving A C xs ys → k ∈ entering A C xs ys → False := by
    intro k hk hj
    have b0 := djl n0 k
    have b1 := djl n1 k
    clear hum n0 n1 h0 h1
    simp only [leaving, entering, after, Finset.mem_inter, Finset.mem_union, Finset.mem_sdiff] at hk hj
    obtain ⟨hd, -, -⟩ := hk
    obtain ⟨-, ha, hc⟩ := hj
    rcases hd with hd | hd
    · rcases ha with ha | ha
      · exact ha.2 hd
      · exact b0 hd ha
    · rcases hc with hc | hc
      · exact hc.2 hd
      · exact b1 hd hc
  refine List.Pairwise.imp_of_mem (R := fun _ _ => True) ?_ (List.pairwise_of_forall (fun _ _ => trivial))
  intro a b ha hb _ hab
  rcases (hum a).1 ha with ⟨k, hk, rfl⟩ | ⟨k, hk, rfl⟩
  · have := leaving_pos h0 h1 k hk; omega
  · exfalso
    rcases (hum b).1 hb with ⟨j, hj, rfl⟩ | ⟨j, hj, rfl⟩
    · have : k = j := by omega
      subst this
      exact key k hj hk
    · have := entering_pos h0 h1 k hk
      omega

/-! ### C47 -/

section
variable {mont : Int → Option Mont} {p0 q0 p1 q1 : Nat} {k0 k1 : DKeys}

theorem after_range {v : Nat → Int} {B : Nat} {A : Finset Nat} {xs : List EP} (h : ValidDay v B A xs)
    (hA : ∀ k ∈ A, 0 < k ∧ k < B) : ∀ k ∈ after A xs, 0 < k ∧ k < B := by
  intro k hk
  unfold after at hk
  rcases Finset.mem_union.1 hk with h' | h'
  · exact hA k (Finset.mem_sdiff.1 h').1
  · simp only [addKeys, List.mem_toFinset, List.mem_map] at h'
    obtain ⟨e, he, rfl⟩ := h'
    exact h.range e (List.mem_filter.1 he).1

theorem runDelPsi_specJ (K : Keys p0 q0 p1 q1 mont k0 k1) {ro : List UInt8 → Nat} {h : Nat → List Bool}
    {B : Nat} {J : List EP → List EP → DSt → DSt → Prop} {Q0 Q1 : Nat → Prop} {L0 L1 : Nat}
    (hstep : RoundStep mont h k0 k1 B (p0 * q0) (p1 * q1) J Q0 Q1 L0 L1)
    (hB0 : 2 * B ≤ p0 * q0) (hB1 : 2 * B ≤ p1 * q1) (hB : B ≤ 2 ^ 63)
    (hwide : 2 ^ 65 ≤ p0 * q0) {v w : Nat → Int}
    (hvw : ∀ k, 0 < k → k < B → 0 < v k ∧ 0 < w k ∧ v k * w k = k)
    {E : Finset Nat} (hE : ∀ k ∈ E, 0 < k) (r0 : UInt64)
    (ds : List DayPsiIn) : ∀ (X Y : List EP) (A C : Finset Nat) (s s' : StDelPsi),
    J X Y s.p0 s.p1 → Carries v X A → Carries w Y C →
    (∀ k ∈ A, 0 < k ∧ k < B) → (∀ k ∈ C, 0 < k ∧ k < B) →
    (∀ d ∈ ds, d.coins.round1.WF B (p0 * q0) (p1 * q1) (deletionsOf d.xs) (deletionsOf d.ys)) →
    (∀ d ∈ ds, d.coins.round2.WF B (p0 * q0) (p1 * q1) (additionsOf d.xs) (additionsOf d.ys)) →
    (∀ d ∈ ds, ∀ l, (d.coins.shuffle l).Perm l) →
    ValidDays v B A (ds.map (·.xs)) → ValidDays w B C (ds.map (·.ys)) →
    (∀ d ∈ ds, ∀ e ∈ d.xs, Q0 e.1) → (∀ d ∈ ds, ∀ e ∈ d.ys, Q1 e.1) →
    X.length + (ds.flatMap (·.xs)).length < L0 → Y.length + (ds.flatMap (·.ys)).length < L1 →
    runDays (fun s (d : DayPsiIn) => dayDelPsi ro mont h k0 k1 s d.xs d.ys d.coins) s ds = .ok s' →
    s.p0.lost <+: s'.p0.lost ∧ s.p1.lost <+: s'.p1.lost ∧ s.trace <+: s'.trace ∧ s.updates <+: s'.updates ∧
    (s'.p0.lost = [] → s'.p1.lost = [] → (∀ f ∈ s'.trace, f.Clean ro) →
      (s.result = r0 + UInt64.ofInt ((A ∩ C).card : Int) → s'.result =
        r0 + UInt64.ofInt ((holdings A (ds.map (·.xs)) ∩ holdings C (ds.map (·.ys))).card : Int)) ∧
      (ReportsFrom E s.inter (A ∩ C) →
        ((∀ u ∈ s'.updates, OrderOK u) ∨ (∀ d ∈ ds, Disjoint (delKeys d.xs) (addKeys d.xs) ∧
            Disjoint (delKeys d.ys) (addKeys d.ys))) →
        ReportsFrom E s'.inter (holdings A (ds.map (·.xs)) ∩ holdings C (ds.map (·.ys)))) ∧
      (∀ k ∈ holdings A (ds.map (·.xs)) ∩ holdings C (ds.map (·.ys)), 0 < k ∧ k < B)) := by
  induction ds with
  | nil =>
    intro X Y A C s s' _ _ _ rA _ _ _ _ _ _ _ _ _ _ hr
    simp only [runDays, Outcome.ok.injEq] at hr
    subst hr
    refine ⟨List.prefix_refl _, List.prefix_refl _, List.prefix_refl _, List.prefix_refl _, fun _ _ _ =>
      ⟨id, fun h _ => h, fun k hk => rA k (Finset.mem_inter.1 hk).1⟩⟩
  | cons d ds ih =>
    intro X Y A C s s' hI cX cY rA rC w1 w2 hsh v0 v1 qX qY tX tY hr
    simp only [runDays, Outcome.bind_eq_ok] at hr
    obtain ⟨s1, hs1, hs2⟩ := hr
    obtain ⟨v0, v0'⟩ := v0
    obtain ⟨v1, v1'⟩ := v1
    simp only [List.flatMap_cons, List.length_append] at tX tY
    have lx := (split_perm d.xs).length_eq
    have ly := (split_perm d.ys).length_eq
    simp only [List.length_append] at lx ly
    obtain ⟨i1, i2, i3, i4, u, i5, i6, i7⟩ := dayDelPsi_specJ K hstep hB0 hB1 hB hwide hI (w1 d (by simp)) (w2 d (by simp))
      (hsh d (by simp)) (qX d (by simp)) (qY d (by simp))
      (by simp only [List.length_append]; omega) (by simp only [List.length_append]; omega) hs1
    have hv : ∀ k, 0 < k → k < B → 0 < v k := fun k a b => (hvw k a b).1
    have hw : ∀ k, 0 < k → k < B → 0 < w k := fun k a b => (hvw k a b).2.1
    obtain ⟨j1, j2, j3, j4, j5⟩ := ih _ _ (after A d.xs) (after C d.ys) s1 s' i1 (carries_after v0 hv cX)
      (carries_after v1 hw cY) (after_range v0 rA) (after_range v1 rC) (fun e he => w1 e (by simp [he]))
      (fun e he => w2 e (by simp [he])) (fun e he => hsh e (by simp [he])) v0' v1'
      (fun e he => qX e (by simp [he])) (fun e he => qY e (by simp [he]))
      (by simp only [List.length_append]; omega) (by simp only [List.length_append]; omega) hs2
    refine ⟨i2.trans j1, i3.trans j2, i4.trans j3, (by rw [i5] at j4; exact (List.prefix_append _ _).trans j4), ?_⟩
    intro l0 l1 hc
    obtain ⟨q1, q2, q3⟩ := j5 l0 l1 hc
    obtain ⟨y1, y2, y3⟩ := updates_spec hvw v0 v1 cX cY
    have hp := i7 (by rw [l0] at j1; exact List.prefix_nil.1 j1) (by rw [l1] at j2; exact List.prefix_nil.1 j2)
      (fun f hf => hc f (j3.subset hf)) y1
    have hun : u.Nodup := hp.nodup_iff.2 y2
    have hum : ∀ z, z ∈ u ↔ _ := fun z => (hp.mem_iff).trans (y3 z)
    refine ⟨fun hres => q1 ?_, fun hrep hord => q2 ?_ ?_, q3⟩
    · rw [applyUpdates_result _ _ _ _ _ i6, hres, UInt64.add_assoc, ← UInt64.ofInt_add]
      congr 2
      exact (day_count v0 v1 hun hum).symm
    · refine day_set v0 v1 hun (fun k hk => (rA k (Finset.mem_inter.1 hk).1).1) hE hum ?_ hrep i6
      rcases hord with hord | hord
      · exact hord u (j4.subset (by rw [i5]; simp))
      · obtain ⟨n0, n1⟩ := hord d (by simp)
        exact order_of_disjoint v0 v1 n0 n1 hum
    · rcases hord with hord | hord
      · exact Or.inl hord
      · exact Or.inr (fun e he => hord e (by simp [he]))

theorem validDays_pos {v : Nat → Int} {B : Nat} {f : DayPsiIn → List EP} {ds : List DayPsiIn} : ∀ {A : Finset Nat},
    ValidDays v B A (ds.map f) → ∀ d ∈ ds, ∀ e ∈ f d, 0 < e.1 ∧ e.1 < B := by
  induction ds with
  | nil => simp
  | cons d ds ih =>
    intro A h e he
    obtain ⟨h1, h2⟩ := h
    rcases List.mem_cons.1 he with rfl | he
    · exact h1.range
    · exact ih h2 e he

theorem validDays_range {v : Nat → Int} {B : Nat} {f : DayPsiIn → List EP} {ds : List DayPsiIn} {A : Finset Nat}
    (h : ValidDays v B A (ds.map f)) : ∀ d ∈ ds, ∀ e ∈ f d, e.1 < B :=
  fun d hd e he => (validDays_pos h d hd e he).2

theorem runDelPsi_spec (K : Keys p0 q0 p1 q1 mont k0 k1) {ro : List UInt8 → Nat} {h : Nat → List Bool}
    (hh : ∀ e, (h e).length = 256) {B : Nat} (hB0 : 2 * B ≤ p0 * q0) (hB1 : 2 * B ≤ p1 * q1) (hB : B ≤ 2 ^ 63)
    (hwide : 2 ^ 65 ≤ p0 * q0) {v w : Nat → Int}
    (hvw : ∀ k, 0 < k → k < B → 0 < v k ∧ 0 < w k ∧ v k * w k = k)
    {E : Finset Nat} (hE : ∀ k ∈ E, 0 < k) (r0 : UInt64)
    (ds : List DayPsiIn) : ∀ (X Y : List EP) (A C : Finset Nat) (s s' : StDelPsi),
    DInv h B (p0 * q0) (p1 * q1) X Y s.p0 s.p1 → Carries v X A → Carries w Y C →
    (∀ k ∈ A, 0 < k ∧ k < B) → (∀ k ∈ C, 0 < k ∧ k < B) →
    (∀ d ∈ ds, d.coins.round1.WF B (p0 * q0) (p1 * q1) (deletionsOf d.xs) (deletionsOf d.ys)) →
    (∀ d ∈ ds, d.coins.round2.WF B (p0 * q0) (p1 * q1) (additionsOf d.xs) (additionsOf d.ys)) →
    (∀ d ∈ ds, ∀ l, (d.coins.shuffle l).Perm l) →
    ValidDays v B A (ds.map (·.xs)) → ValidDays w B C (ds.map (·.ys)) →
    X.length + (ds.flatMap (·.xs)).length < 2 ^ 30 → Y.length + (ds.flatMap (·.ys)).length < 2 ^ 30 →
    runDays (fun s (d : DayPsiIn) => dayDelPsi ro mont h k0 k1 s d.xs d.ys d.coins) s ds = .ok s' →
    s.p0.lost <+: s'.p0.lost ∧ s.p1.lost <+: s'.p1.lost ∧ s.trace <+: s'.trace ∧ s.updates <+: s'.updates ∧
    (s'.p0.lost = [] → s'.p1.lost = [] → (∀ f ∈ s'.trace, f.Clean ro) →
      (s.result = r0 + UInt64.ofInt ((A ∩ C).card : Int) → s'.result =
        r0 + UInt64.ofInt ((holdings A (ds.map (·.xs)) ∩ holdings C (ds.map (·.ys))).card : Int)) ∧
      (ReportsFrom E s.inter (A ∩ C) →
        ((∀ u ∈ s'.updates, OrderOK u) ∨ (∀ d ∈ ds, Disjoint (delKeys d.xs) (addKeys d.xs) ∧
            Disjoint (delKeys d.ys) (addKeys d.ys))) →
        ReportsFrom E s'.inter (holdings A (ds.map (·.xs)) ∩ holdings C (ds.map (·.ys)))) ∧
      (∀ k ∈ holdings A (ds.map (·.xs)) ∩ holdings C (ds.map (·.ys)), 0 < k ∧ k < B)) := by
  intro X Y A C s s' hI cX cY rA rC w1 w2 hsh v0 v1 tX tY hr
  exact runDelPsi_specJ K (roundStep_DInv K hh (by omega) (by omega)) hB0 hB1 hB hwide hvw hE r0 ds X Y A C s s' hI cX cY
    rA rC w1 w2 hsh v0 v1 (validDays_range v0) (validDays_range v1) tX tY hr

/-- **C47** (cardinality) For every admissible history of additions and deletions, whatever the shuffles,
if the run completes, no tree overflowed, no 64-bit hashes collided and no share wrapped, party zero's
counter is exactly the size of the intersection of the sets the two parties hold. -/
theorem C47_cardinality (K : Keys p0 q0 p1 q1 mont k0 k1) (ro : List UInt8 → Nat) (h : Nat → List Bool)
    (hh : ∀ e, (h e).length = 256) (v w : Nat → Int) (B stash node : Nat) (ds : List DayPsiIn)
    (hA : PsiAdmissible v w B (p0 * q0) (p1 * q1) ds) (s : StDelPsi)
    (hr : runDelPsi ro mont h k0 k1 stash node ds = .ok s)
    (l0 : s.p0.lost = []) (l1 : s.p1.lost = []) (hc : ∀ f ∈ s.trace, f.Clean ro) :
    s.result.toNat = (holdings ∅ (ds.map (·.xs)) ∩ holdings ∅ (ds.map (·.ys))).card := by
  obtain ⟨_, _, _, _, k⟩ := runDelPsi_spec K hh hA.bound0 hA.bound1 hA.bound64 hA.wide hA.weights (E := ∅) (by simp) 0 ds [] [] ∅ ∅ _ s
    (by simpa [StDelPsi.init] using DInv.init h B (p0 * q0) (p1 * q1) stash node)
    (fun k => by simp [payloadSum]) (fun k => by simp [payloadSum]) (by simp) (by simp)
    hA.coins1 hA.coins2 hA.shuffle hA.valid0 hA.valid1 (by simpa using hA.sizeX) (by simpa using hA.sizeY) hr
  obtain ⟨k1, _, k3⟩ := k l0 l1 hc
  rw [k1 (by simp [StDelPsi.init]; rfl), UInt64.zero_add]
  have hcard : (holdings ∅ (ds.map (·.xs)) ∩ holdings ∅ (ds.map (·.ys))).card ≤ B := by
    have : holdings ∅ (ds.map (·.xs)) ∩ holdings ∅ (ds.map (·.ys)) ⊆ Finset.range B := by
      intro k hk; exact Finset.mem_range.2 (k3 k hk).2
    simpa using Finset.card_le_card this
  have := hA.bound64
  unfold UInt64.ofInt
  rw [UInt64.toNat_ofNat']
  omega

/-- **C47** (set) Under the same conditions, if on no day a party deletes and re-adds the same element,
or if every removal was processed before an insertion of the same element on that day, the reported list
of elements is exactly the intersection of the sets the two parties hold, without repetition. -/
theorem C47_intersection (K : Keys p0 q0 p1 q1 mont k0 k1) (ro : List UInt8 → Nat) (h : Nat → List Bool)
    (hh : ∀ e, (h e).length = 256) (v w : Nat → Int) (B stash node : Nat) (ds : List DayPsiIn)
    (hA : PsiAdmissible v w B (p0 * q0) (p1 * q1) ds) (s : StDelPsi)
    (hr : runDelPsi ro mont h k0 k1 stash node ds = .ok s)
    (l0 : s.p0.lost = []) (l1 : s.p1.lost = []) (hc : ∀ f ∈ s.trace, f.Clean ro)
    (ho : (∀ u ∈ s.updates, OrderOK u) ∨
      (∀ d ∈ ds, Disjoint (delKeys d.xs) (addKeys d.xs) ∧ Disjoint (delKeys d.ys) (addKeys d.ys))) :
    Reports s.inter (holdings ∅ (ds.map (·.xs)) ∩ holdings ∅ (ds.map (·.ys))) := by
  obtain ⟨_, _, _, _, k⟩ := runDelPsi_spec K hh hA.bound0 hA.bound1 hA.bound64 hA.wide hA.weights (E := ∅) (by simp) 0 ds [] [] ∅ ∅ _ s
    (by simpa [StDelPsi.init] using DInv.init h B (p0 * q0) (p1 * q1) stash node)
    (fun k => by simp [payloadSum]) (fun k => by simp [payloadSum]) (by simp) (by simp)
    hA.coins1 hA.coins2 hA.shuffle hA.valid0 hA.valid1 (by simpa using hA.sizeX) (by simpa using hA.sizeY) hr
  exact reportsFrom_empty.1 ((k l0 l1 hc).2.1 (reportsFrom_empty.2 ⟨by simp [StDelPsi.init], by simp [StDelPsi.init]⟩) ho)

end
end Upsi.Proto
