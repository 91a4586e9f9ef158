import Verif.Proto.DelLemmas
import Mathlib.Algebra.BigOperators.Group.Finset.Basic
import Mathlib.Algebra.BigOperators.Ring.Finset
import Mathlib.Algebra.Order.BigOperators.Group.List
/-
Property theorems C46: cardinality and sum with deletions.
-/
namespace Upsi.Proto
open Upsi Upsi.Tree Upsi.Tree.Props Upsi.Num Upsi.Paillier

/-! ### specification -/

/-- One day of a history: the signed updates of each party and the coins drawn by both. -/
structure DayDelIn where
  xs : List EP
  ys : List EP
  coins : DelCoins

/-- All updates party zero has made in a history. -/
def delX (ds : List DayDelIn) : List EP := ds.flatMap (·.xs)
/-- All updates party one has made in a history. -/
def delY (ds : List DayDelIn) : List EP := ds.flatMap (·.ys)

/-- Specification: the inner product of the two parties' net payloads over all elements party zero
has ever mentioned. -/
def innerProduct (X Y : List EP) : Int :=
  ∑ k ∈ (X.map Prod.fst).toFinset, payloadSum k X * payloadSum k Y

/-- The sum of the absolute values of all payloads of a list. -/
def mass (X : List EP) : Int := (X.map (fun e => |e.2|)).sum

/-- A history is admissible: elements are below `B`, which is at most both Paillier moduli, paddings
and random `alpha`s are drawn from the ranges the code draws them from, and each party makes fewer than
`2^30` updates. -/
structure DelAdmissible (B n0 n1 : Nat) (ds : List DayDelIn) : Prop where
  bound0 : B ≤ n0
  bound1 : B ≤ n1
  coins : ∀ d ∈ ds, d.coins.round.WF B n0 n1 d.xs d.ys
  x : ∀ e ∈ delX ds, e.1 < B
  y : ∀ e ∈ delY ds, e.1 < B
  sizeX : (delX ds).length < 2 ^ 30
  sizeY : (delY ds).length < 2 ^ 30

/-- Nothing bad happened in a recorded circuit phase: the 64-bit hashes of two different numbers did
not collide, and the centered shares did not wrap (C49 characterises when they do). -/
def Phase.Clean (ro : List UInt8 → Nat) (f : Phase) : Prop :=
  (∀ pr ∈ f.compared, NoCollision ro pr) ∧ f.NoWrap

/-! ### the inner product as a list sum -/

/-- The inner product, computed update by update. -/
def join (X Y : List EP) : Int := (X.map (fun e => e.2 * payloadSum e.1 Y)).sum

theorem join_nil (Y : List EP) : join [] Y = 0 := rfl
theorem join_cons (e : EP) (X Y : List EP) : join (e :: X) Y = e.2 * payloadSum e.1 Y + join X Y := by simp [join]
theorem join_append_left (X X' Y : List EP) : join (X ++ X') Y = join X Y + join X' Y := by simp [join]
theorem join_append_right (X Y Y' : List EP) : join X (Y ++ Y') = join X Y + join X Y' := by
  induction X with
  | nil => simp [join]
  | cons e X ih => rw [join_cons, join_cons, join_cons, ih, payloadSum_append]; ring
theorem payloadSum_cons (k : Nat) (e : EP) (l : List EP) :
    payloadSum k (e :: l) = (if e.1 = k then e.2 else 0) + payloadSum k l := by
  unfold payloadSum
  by_cases h : e.1 = k <;> simp [h]
theorem join_single (X : List EP) (e : EP) : join X [e] = e.2 * payloadSum e.1 X := by
  induction X with
  | nil => simp [join, payloadSum]
  | cons a X ih =>
    rw [join_cons, ih, payloadSum_cons, payloadSum_cons]
    by_cases h : a.1 = e.1
    · simp [h, payloadSum]; ring
    · have : ¬ e.1 = a.1 := fun h' => h h'.symm
      simp [h, this, payloadSum]
theorem join_comm (X Y : List EP) : join X Y = join Y X := by
  induction Y with
  | nil => induction X with
    | nil => rfl
    | cons e X ih => rw [join_cons, ih]; simp [payloadSum, join]
  | cons e Y ih =>
    rw [show e :: Y = [e] ++ Y from rfl, join_append_right, join_append_left, ih, join_single]
    congr 1
    simp [join]

theorem join_eq_innerProduct (X Y : List EP) : join X Y = innerProduct X Y := by
  classical
  have key : ∀ (S : Finset Nat), (∀ e ∈ X, e.1 ∈ S) → join X Y = ∑ k ∈ S, payloadSum k X * payloadSum k Y := by
    intro S
    induction X with
    | nil => intro _; simp [join, payloadSum]
    | cons e X ih =>
      intro h
      rw [join_cons, ih (fun a ha => h a (by simp [ha]))]
      simp only [payloadSum_cons, add_mul, Finset.sum_add_distrib]
      congr 1
      rw [Finset.sum_congr rfl (g := fun k => if e.1 = k then e.2 * payloadSum k Y else 0)
        (fun k _ => by split <;> simp), Finset.sum_ite_eq, if_pos (h e (by simp))]
  exact key _ (fun e he => by simp only [List.mem_toFinset]; exact List.mem_map_of_mem he)

theorem mass_nonneg (X : List EP) : 0 ≤ mass X := by
  unfold mass
  apply List.sum_nonneg
  intro x hx
  obtain ⟨e, _, rfl⟩ := List.mem_map.1 hx
  exact abs_nonneg _

theorem mass_append (X Y : List EP) : mass (X ++ Y) = mass X + mass Y := by simp [mass]

theorem abs_payloadSum_le (k : Nat) (X : List EP) : |payloadSum k X| ≤ mass X := by
  induction X with
  | nil => simp [payloadSum, mass]
  | cons e X ih =>
    rw [payloadSum_cons, show mass (e :: X) = |e.2| + mass X by simp [mass]]
    refine (abs_add_le _ _).trans (add_le_add ?_ ih)
    split
    · exact le_refl _
    · simp

theorem abs_join_le (X Y : List EP) : |join X Y| ≤ mass X * mass Y := by
  induction X with
  | nil => simp [join, mass]
  | cons e X ih =>
    rw [join_cons, show mass (e :: X) = |e.2| + mass X by simp [mass], add_mul]
    refine (abs_add_le _ _).trans (add_le_add ?_ ih)
    rw [abs_mul]
    exact mul_le_mul_of_nonneg_left (abs_payloadSum_le _ _) (abs_nonneg _)

theorem groups_flatten {n : Nat} {es Z : List EP} {its : List (List Item)} {ys : List (List Int)}
    (h : GroupsOK n es Z its ys) : GroupOK n (join es Z) its.flatten ys.flatten := by
  obtain ⟨h1, h2⟩ := h
  induction its generalizing es ys with
  | nil =>
    cases ys with
    | nil => cases h1; exact GroupOK.nil n
    | cons => simp at h2
  | cons g its ih =>
    cases ys with
    | nil => simp at h2
    | cons y ys =>
      rw [List.zip_cons_cons] at h1
      cases h1 with
      | cons k1 k2 =>
        rw [join_cons]
        simp only [List.flatten_cons]
        exact GroupOK.append k1 (ih k2 (by simpa using h2))

/-! ### C46 -/

section
variable {mont : Int → Option Mont} {p0 q0 p1 q1 : Nat} {k0 k1 : DKeys}

/-- What one message round does, for an invariant `J` of the two parties' trees (`X`, `Y`: what was inserted so far;
`Q0`, `Q1`: the elements the parties may update; `L0`, `L1`: bounds on how much is inserted). -/
def RoundStep (mont : Int → Option Mont) (h : Nat → List Bool) (k0 k1 : DKeys) (B n0 n1 : Nat)
    (J : List EP → List EP → DSt → DSt → Prop) (Q0 Q1 : Nat → Prop) (L0 L1 : Nat) : Prop :=
  ∀ ⦃X Y xs ys : List EP⦄ ⦃s0 s1 s0' s1' : DSt⦄, J X Y s0 s1 → ∀ ⦃ρ : RoundCoins⦄, ρ.WF B n0 n1 xs ys →
    (∀ e ∈ xs, Q0 e.1) → (∀ e ∈ ys, Q1 e.1) → (X ++ xs).length < L0 → (Y ++ ys).length < L1 → ∀ ⦃o : RoundOut⦄,
    roundDel mont h k0 k1 s0 s1 xs ys ρ = .ok (s0', s1', o) →
    J (X ++ xs) (Y ++ ys) s0' s1' ∧ s0.lost <+: s0'.lost ∧ s1.lost <+: s1'.lost ∧
    (s0'.lost = [] → s1'.lost = [] → GroupsOK n1 xs Y o.items0 o.resp1 ∧ GroupsOK n0 ys (X ++ xs) o.items1 o.resp0)

theorem roundStep_DInv (K : Keys p0 q0 p1 q1 mont k0 k1) {h : Nat → List Bool} (hh : ∀ e, (h e).length = 256) {B : Nat}
    (hB0 : B ≤ p0 * q0) (hB1 : B ≤ p1 * q1) :
    RoundStep mont h k0 k1 B (p0 * q0) (p1 * q1) (DInv h B (p0 * q0) (p1 * q1)) (fun k => k < B) (fun k => k < B)
      (2 ^ 30) (2 ^ 30) :=
  fun _ _ _ _ _ _ _ _ hI _ hρ hX hY tX tY _ hr => round_spec K hh hB0 hB1 hI hρ hX hY tX tY hr

theorem dayDel_specJ (K : Keys p0 q0 p1 q1 mont k0 k1) {ro : List UInt8 → Nat} {h : Nat → List Bool}
    {B : Nat} {J : List EP → List EP → DSt → DSt → Prop} {Q0 Q1 : Nat → Prop} {L0 L1 : Nat}
    (hstep : RoundStep mont h k0 k1 B (p0 * q0) (p1 * q1) J Q0 Q1 L0 L1)
    {X Y xs ys : List EP} {s s' : StDel} (hI : J X Y s.p0 s.p1)
    {ρ : DelCoins} (hρ : ρ.round.WF B (p0 * q0) (p1 * q1) xs ys)
    (hX : ∀ e ∈ xs, Q0 e.1) (hY : ∀ e ∈ ys, Q1 e.1)
    (tX : (X ++ xs).length < L0) (tY : (Y ++ ys).length < L1)
    (hr : dayDel ro mont h k0 k1 s xs ys ρ = .ok s') :
    J (X ++ xs) (Y ++ ys) s'.p0 s'.p1 ∧
    s.p0.lost <+: s'.p0.lost ∧ s.p1.lost <+: s'.p1.lost ∧ s.trace <+: s'.trace ∧
    (s'.p0.lost = [] → s'.p1.lost = [] → (∀ f ∈ s'.trace, f.Clean ro) →
      2 * (mass (X ++ xs) * mass (Y ++ ys)) < ((p0 * q0 : Nat) : Int) →
      2 * (mass (X ++ xs) * mass (Y ++ ys)) < ((p1 * q1 : Nat) : Int) →
      ∀ r0, s.result = r0 + UInt64.ofInt (join X Y) → s'.result = r0 + UInt64.ofInt (join (X ++ xs) (Y ++ ys))) := by
  simp only [dayDel, Outcome.bind_eq_ok, Outcome.pure_eq, Outcome.ok.injEq, Prod.exists] at hr
  obtain ⟨t0, t1, o, hround, f1, hf1, f2, hf2, rfl⟩ := hr
  obtain ⟨r1, r2, r3, r4⟩ := hstep hI hρ hX hY tX tY hround
  refine ⟨r1, r2, r3, List.prefix_append _ _, ?_⟩
  intro l0 l1 hcl b0 b1 r0 hres
  obtain ⟨g1, g2⟩ := r4 l0 l1
  have m1 := mass_nonneg X
  have m2 := mass_nonneg xs
  have m3 := mass_nonneg Y
  have m4 := mass_nonneg ys
  rw [mass_append, mass_append] at b0 b1
  have c1 := hcl f1 (by simp)
  have c2 := hcl f2 (by simp)
  have e1 := gcPhase_spec K.own1 (groups_flatten g1) hf1 c1.1 c1.2 (by
    have := abs_join_le xs Y
    nlinarith [mul_nonneg m1 m3, mul_nonneg m1 m4, mul_nonneg m2 m4])
  have e2 := gcPhase_spec K.own0 (groups_flatten g2) hf2 c2.1 c2.2 (by
    have := abs_join_le ys (X ++ xs)
    rw [mass_append] at this
    nlinarith [mul_nonneg m1 m3, mul_nonneg m2 m3])
  have hj : join (X ++ xs) (Y ++ ys) = join X Y + (join xs Y + join ys (X ++ xs)) := by
    rw [join_append_right, join_append_left, join_comm ys]; ring
  simp only
  rw [hj, UInt64.ofInt_add, UInt64.ofInt_add, ← e1, ← e2, hres]
  rw [UInt64.add_assoc r0]
  congr 1
  congr 1
  rw [UInt64.add_assoc, UInt64.add_assoc]
  congr 1
  rw [UInt64.add_comm f2.receiver, UInt64.add_assoc]

theorem runDel_specJ (K : Keys p0 q0 p1 q1 mont k0 k1) {ro : List UInt8 → Nat} {h : Nat → List Bool}
    {B : Nat} {J : List EP → List EP → DSt → DSt → Prop} {Q0 Q1 : Nat → Prop} {L0 L1 : Nat}
    (hstep : RoundStep mont h k0 k1 B (p0 * q0) (p1 * q1) J Q0 Q1 L0 L1)
    (ds : List DayDelIn) : ∀ (X Y : List EP) (s s' : StDel),
    J X Y s.p0 s.p1 →
    (∀ d ∈ ds, d.coins.round.WF B (p0 * q0) (p1 * q1) d.xs d.ys) →
    (∀ e ∈ delX ds, Q0 e.1) → (∀ e ∈ delY ds, Q1 e.1) →
    (X ++ delX ds).length < L0 → (Y ++ delY ds).length < L1 →
    runDays (fun s (d : DayDelIn) => dayDel ro mont h k0 k1 s d.xs d.ys d.coins) s ds = .ok s' →
    J (X ++ delX ds) (Y ++ delY ds) s'.p0 s'.p1 ∧
    s.p0.lost <+: s'.p0.lost ∧ s.p1.lost <+: s'.p1.lost ∧ s.trace <+: s'.trace ∧
    (s'.p0.lost = [] → s'.p1.lost = [] → (∀ f ∈ s'.trace, f.Clean ro) →
      2 * (mass (X ++ delX ds) * mass (Y ++ delY ds)) < ((p0 * q0 : Nat) : Int) →
      2 * (mass (X ++ delX ds) * mass (Y ++ delY ds)) < ((p1 * q1 : Nat) : Int) →
      ∀ r0, s.result = r0 + UInt64.ofInt (join X Y) →
      s'.result = r0 + UInt64.ofInt (join (X ++ delX ds) (Y ++ delY ds))) := by
  induction ds with
  | nil =>
    intro X Y s s' hI _ _ _ _ _ hr
    simp only [runDays, Outcome.ok.injEq] at hr
    subst hr
    refine ⟨by simpa [delX, delY] using hI, List.prefix_refl _, List.prefix_refl _, List.prefix_refl _, ?_⟩
    intros
    simp only [delX, delY, List.flatMap_nil, List.append_nil]
    assumption
  | cons d ds ih =>
    intro X Y s s' hI hw hX hY tX tY hr
    simp only [runDays, Outcome.bind_eq_ok] at hr
    obtain ⟨s1, h1, h2⟩ := hr
    have eX : X ++ delX (d :: ds) = (X ++ d.xs) ++ delX ds := by simp [delX]
    have eY : Y ++ delY (d :: ds) = (Y ++ d.ys) ++ delY ds := by simp [delY]
    rw [eX] at tX ⊢
    rw [eY] at tY ⊢
    have tX1 : (X ++ d.xs).length < L0 := by rw [List.length_append (as := X ++ d.xs)] at tX; omega
    have tY1 : (Y ++ d.ys).length < L1 := by rw [List.length_append (as := Y ++ d.ys)] at tY; omega
    obtain ⟨k1, k2, k3, k4, k5⟩ := dayDel_specJ K hstep hI (hw d (by simp))
      (fun e he => hX e (by simp [delX, he])) (fun e he => hY e (by simp [delY, he])) tX1 tY1 h1
    obtain ⟨j1, j2, j3, j4, j5⟩ := ih _ _ _ _ k1 (fun e he => hw e (by simp [he]))
      (fun e he => hX e (by simp only [delX, List.flatMap_cons, List.mem_append] at he ⊢; exact Or.inr he))
      (fun e he => hY e (by simp only [delY, List.flatMap_cons, List.mem_append] at he ⊢; exact Or.inr he)) tX tY h2
    refine ⟨j1, k2.trans j2, k3.trans j3, k4.trans j4, fun l0 l1 hc b0 b1 r0 hres => j5 l0 l1 hc b0 b1 r0 ?_⟩
    have m1 := mass_nonneg (X ++ d.xs)
    have m2 := mass_nonneg (Y ++ d.ys)
    have m3 := mass_nonneg (delX ds)
    have m4 := mass_nonneg (delY ds)
    rw [mass_append (X ++ d.xs), mass_append (Y ++ d.ys)] at b0 b1
    refine k5 ?_ ?_ (fun f hf => hc f (j4.subset hf)) ?_ ?_ r0 hres
    · rw [l0] at j2; exact List.prefix_nil.1 j2
    · rw [l1] at j3; exact List.prefix_nil.1 j3
    · nlinarith [mul_nonneg m1 m4, mul_nonneg m3 m2, mul_nonneg m3 m4]
    · nlinarith [mul_nonneg m1 m4, mul_nonneg m3 m2, mul_nonneg m3 m4]

theorem runDel_spec (K : Keys p0 q0 p1 q1 mont k0 k1) {ro : List UInt8 → Nat} {h : Nat → List Bool}
    (hh : ∀ e, (h e).length = 256) {B : Nat} (hB0 : B ≤ p0 * q0) (hB1 : B ≤ p1 * q1)
    (ds : List DayDelIn) : ∀ (X Y : List EP) (s s' : StDel),
    DInv h B (p0 * q0) (p1 * q1) X Y s.p0 s.p1 →
    (∀ d ∈ ds, d.coins.round.WF B (p0 * q0) (p1 * q1) d.xs d.ys) →
    (∀ e ∈ delX ds, e.1 < B) → (∀ e ∈ delY ds, e.1 < B) →
    (X ++ delX ds).length < 2 ^ 30 → (Y ++ delY ds).length < 2 ^ 30 →
    runDays (fun s (d : DayDelIn) => dayDel ro mont h k0 k1 s d.xs d.ys d.coins) s ds = .ok s' →
    DInv h B (p0 * q0) (p1 * q1) (X ++ delX ds) (Y ++ delY ds) s'.p0 s'.p1 ∧
    s.p0.lost <+: s'.p0.lost ∧ s.p1.lost <+: s'.p1.lost ∧ s.trace <+: s'.trace ∧
    (s'.p0.lost = [] → s'.p1.lost = [] → (∀ f ∈ s'.trace, f.Clean ro) →
      2 * (mass (X ++ delX ds) * mass (Y ++ delY ds)) < ((p0 * q0 : Nat) : Int) →
      2 * (mass (X ++ delX ds) * mass (Y ++ delY ds)) < ((p1 * q1 : Nat) : Int) →
      ∀ r0, s.result = r0 + UInt64.ofInt (join X Y) →
      s'.result = r0 + UInt64.ofInt (join (X ++ delX ds) (Y ++ delY ds))) := 
  runDel_specJ K (roundStep_DInv K hh hB0 hB1) ds

/-- The whole run of the cardinality/sum protocol with deletions on fresh trees. -/
abbrev runDelDays (ro : List UInt8 → Nat) (mont : Int → Option Mont) (h : Nat → List Bool) (k0 k1 : DKeys)
    (stash node : Nat) (ds : List DayDelIn) : Outcome StDel :=
  runDays (fun s (d : DayDelIn) => dayDel ro mont h k0 k1 s d.xs d.ys d.coins) (StDel.init stash node) ds

/-- **C46** For every admissible history of signed updates, if the run completes, no tree overflowed,
no 64-bit hashes collided and no share wrapped, then party zero's accumulated 64-bit result is the inner
product of the two parties' net payloads. -/
theorem C46_inner_product (K : Keys p0 q0 p1 q1 mont k0 k1) (ro : List UInt8 → Nat) (h : Nat → List Bool)
    (hh : ∀ e, (h e).length = 256) (B stash node : Nat) (ds : List DayDelIn)
    (hA : DelAdmissible B (p0 * q0) (p1 * q1) ds) (s : StDel)
    (hr : runDelDays ro mont h k0 k1 stash node ds = .ok s)
    (l0 : s.p0.lost = []) (l1 : s.p1.lost = []) (hc : ∀ f ∈ s.trace, f.Clean ro)
    (b0 : 2 * (mass (delX ds) * mass (delY ds)) < ((p0 * q0 : Nat) : Int))
    (b1 : 2 * (mass (delX ds) * mass (delY ds)) < ((p1 * q1 : Nat) : Int)) :
    s.result = UInt64.ofInt (innerProduct (delX ds) (delY ds)) := by
  obtain ⟨_, _, _, _, k5⟩ := runDel_spec K hh hA.bound0 hA.bound1 ds [] [] _ s
    (by simpa [StDel.init] using DInv.init h B (p0 * q0) (p1 * q1) stash node) hA.coins hA.x hA.y
    (by simpa using hA.sizeX) (by simpa using hA.sizeY) hr
  simp only [List.nil_append] at k5
  rw [← join_eq_innerProduct]
  simpa using k5 l0 l1 hc b0 b1 0 (by simp [StDel.init, join_nil]; rfl)

/-- The updates of a party that currently holds exactly the set `A`, each element with weight `v`. -/
def Carries (v : Nat → Int) (X : List EP) (A : Finset Nat) : Prop :=
  ∀ k, payloadSum k X = if k ∈ A then v k else 0

theorem payloadSum_absent {k : Nat} {X : List EP} (h : k ∉ (X.map Prod.fst).toFinset) : payloadSum k X = 0 := by
  have hf : X.filter (fun e => decide (e.1 = k)) = [] := by
    rw [List.filter_eq_nil_iff]
    intro e he
    simp only [decide_eq_true_eq]
    rintro rfl
    exact h (by simp only [List.mem_toFinset]; exact List.mem_map_of_mem he)
  simp [payloadSum, hf]

theorem innerProduct_carries {v w : Nat → Int} {X Y : List EP} {A C : Finset Nat} (hX : Carries v X A) (hY : Carries w Y C)
    : innerProduct X Y = ∑ k ∈ A ∩ C, v k * w k := by
  classical
  unfold innerProduct
  have h1 : ∀ k, payloadSum k X * payloadSum k Y = if k ∈ A ∩ C then v k * w k else 0 := by
    intro k
    rw [hX k, hY k]
    by_cases a : k ∈ A <;> by_cases c : k ∈ C <;> simp [a, c]
  rw [Finset.sum_congr rfl (fun k _ => h1 k), ← Finset.sum_filter, Finset.filter_mem_eq_inter]
  apply Finset.sum_subset Finset.inter_subset_right
  intro k hk hk'
  have : k ∉ (X.map Prod.fst).toFinset := fun h => hk' (Finset.mem_inter.2 ⟨h, hk⟩)
  have h0 := payloadSum_absent this
  have hA : k ∈ A := (Finset.mem_inter.1 hk).1
  have := hX k
  rw [if_pos hA, h0] at this
  rw [← this, zero_mul]

/-- **C46** (sum) If party zero's updates net out to the set `A` with values `v` and party one's to the
set `C` (every element with payload one), the result is the sum of the values of `A ∩ C`. -/
theorem C46_sum (K : Keys p0 q0 p1 q1 mont k0 k1) (ro : List UInt8 → Nat) (h : Nat → List Bool)
    (hh : ∀ e, (h e).length = 256) (B stash node : Nat) (ds : List DayDelIn)
    (hA : DelAdmissible B (p0 * q0) (p1 * q1) ds) (s : StDel)
    (hr : runDelDays ro mont h k0 k1 stash node ds = .ok s)
    (l0 : s.p0.lost = []) (l1 : s.p1.lost = []) (hc : ∀ f ∈ s.trace, f.Clean ro)
    (b0 : 2 * (mass (delX ds) * mass (delY ds)) < ((p0 * q0 : Nat) : Int))
    (b1 : 2 * (mass (delX ds) * mass (delY ds)) < ((p1 * q1 : Nat) : Int))
    (v : Nat → Int) (A C : Finset Nat) (hX : Carries v (delX ds) A) (hY : Carries (fun _ => 1) (delY ds) C) :
    s.result = UInt64.ofInt (∑ k ∈ A ∩ C, v k) := by
  rw [C46_inner_product K ro h hh B stash node ds hA s hr l0 l1 hc b0 b1, innerProduct_carries hX hY]
  simp

/-- **C46** (cardinality) If both parties' updates net out to sets `A` and `C`, the result is exactly
`|A ∩ C|`. -/
theorem C46_cardinality (K : Keys p0 q0 p1 q1 mont k0 k1) (ro : List UInt8 → Nat) (h : Nat → List Bool)
    (hh : ∀ e, (h e).length = 256) (B stash node : Nat) (ds : List DayDelIn)
    (hA : DelAdmissible B (p0 * q0) (p1 * q1) ds) (s : StDel)
    (hr : runDelDays ro mont h k0 k1 stash node ds = .ok s)
    (l0 : s.p0.lost = []) (l1 : s.p1.lost = []) (hc : ∀ f ∈ s.trace, f.Clean ro)
    (b0 : 2 * (mass (delX ds) * mass (delY ds)) < ((p0 * q0 : Nat) : Int))
    (b1 : 2 * (mass (delX ds) * mass (delY ds)) < ((p1 * q1 : Nat) : Int))
    (A C : Finset Nat) (hX : Carries (fun _ => 1) (delX ds) A) (hY : Carries (fun _ => 1) (delY ds) C) :
    s.result.toNat = (A ∩ C).card := by
  have h1 := C46_sum K ro h hh B stash node ds hA s hr l0 l1 hc b0 b1 _ A C hX hY
  have hsub : A ⊆ ((delX ds).map Prod.fst).toFinset := by
    intro k hk
    by_contra hcon
    have := hX k
    rw [if_pos hk, payloadSum_absent hcon] at this
    exact absurd this (by norm_num)
  have hcard : (A ∩ C).card < 2 ^ 64 := by
    calc (A ∩ C).card ≤ A.card := Finset.card_le_card Finset.inter_subset_left
      _ ≤ ((delX ds).map Prod.fst).toFinset.card := Finset.card_le_card hsub
      _ ≤ ((delX ds).map Prod.fst).length := List.toFinset_card_le _
      _ = (delX ds).length := by simp
      _ < 2 ^ 30 := hA.sizeX
      _ < 2 ^ 64 := by norm_num
  rw [h1, show (∑ k ∈ A ∩ C, (1 : Int)) = ((A ∩ C).card : Int) by simp]
  unfold UInt64.ofInt
  rw [UInt64.toNat_ofNat']
  omega

end
end Upsi.Proto
