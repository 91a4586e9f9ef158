import Verif.View.Del
import Mathlib.Data.List.GetD
/-
C70: counting.  Two worlds with the same (public) message sizes give party zero, and party one, the same views except
for as many as there are draws on which the other world's run does not complete.
-/
namespace Upsi.View
open Upsi Upsi.Tree Upsi.Num Upsi.Paillier Upsi.Proto

/-! ### specification -/

/-- A next day `d` of a protocol run, after the history `ds` that ended in the state `s`. -/
structure World where
  ds : List DayDelIn
  d : DayDelIn
  s : StDel

/-- The world's history is admissible and completed in its state. -/
structure World.Reached (p0 q0 p1 q1 : Nat) (ro : List UInt8 → Nat) (mont : Int → Option Mont) (h : Nat → List Bool) (k0 k1 : DKeys)
    (stash node B : Nat) (w : World) : Prop where
  adm : DelAdmissible B (p0 * q0) (p1 * q1) (w.ds ++ [w.d])
  run : runDelDays ro mont h k0 k1 stash node w.ds = .ok w.s

/-- The message sizes of the world's next day. -/
def World.sizes (stash node : Nat) (h : Nat → List Bool) (w : World) : DelSizes := dayDelSizes stash node h w.ds w.d

/-- Party zero sees `v` on the next day if party one draws `X`. -/
def World.SeesZero (ro : List UInt8 → Nat) (mont : Int → Option Mont) (h : Nat → List Bool) (k0 k1 : DKeys) {lens : List Nat}
    {m n : Nat} (w : World) (X : DrawsOne lens m n) (v : List (List Int) × List Bool × List Bool × List Int) : Prop :=
  ∃ V, viewDel ro mont h k0 k1 w.s w.d.xs w.d.ys (redrawOne w.d.coins X) = .ok V ∧ seenZero V = v

/-- Party one sees `v` on the next day if party zero draws `X`. -/
def World.SeesOne (ro : List UInt8 → Nat) (mont : Int → Option Mont) (h : Nat → List Bool) (k0 k1 : DKeys) {lens : List Nat}
    {n : Nat} (w : World) (X : DrawsZero lens n) (v : List (List Int) × List Int) : Prop :=
  ∃ V, viewDel ro mont h k0 k1 w.s w.d.xs w.d.ys (redrawZero w.d.coins X) = .ok V ∧ seenOne V = v

/-! ### counting -/

theorem count_views {D S : Type} [Finite D] {R R' : D → S → Prop} {good : S → Prop} {enc : S → D}
    (hf : ∀ x v v', R' x v → R' x v' → v = v') (hg : ∀ x v, R x v → good v) (hg' : ∀ x v, R' x v → good v)
    (hinj : ∀ x x' v, R' x v → R' x' v → x = x') (henc : ∀ v v', good v → good v' → enc v = enc v' → v = v') :
    {v | (∃ x, R x v) ∧ ¬ ∃ x, R' x v}.ncard ≤ {x | ¬ ∃ v, R' x v}.ncard := by
  set A : Set S := {v | ∃ x, R' x v} with hA
  set C : Set S := {v | (∃ x, R x v) ∧ ¬ ∃ x, R' x v} with hC
  have hdisj : Disjoint A C := by
    rw [Set.disjoint_left]
    exact fun v h1 h2 => h2.2 h1
  have hgood : ∀ v ∈ A ∪ C, good v := by
    rintro v (⟨x, hx⟩ | ⟨⟨x, hx⟩, _⟩)
    · exact hg' x v hx
    · exact hg x v hx
  have hio : Set.InjOn enc (A ∪ C) := fun v hv v' hv' e => henc v v' (hgood v hv) (hgood v' hv') e
  have hfin : (A ∪ C).Finite := Set.Finite.of_finite_image (Set.toFinite _) hio
  have h1 : (A ∪ C).ncard ≤ Nat.card D := by
    rw [← hio.ncard_image]
    exact Set.ncard_le_card _
  rw [Set.ncard_union_eq hdisj (hfin.subset Set.subset_union_left) (hfin.subset Set.subset_union_right)] at h1
  have h2 : {x | ∃ v, R' x v}.ncard = A.ncard := by
    refine Set.ncard_congr (fun x hx => Exists.choose hx) ?_ ?_ ?_
    · exact fun x hx => ⟨x, Exists.choose_spec hx⟩
    · intro x y hx hy e
      refine hinj x y _ (Exists.choose_spec hx) ?_
      have := Exists.choose_spec hy
      rwa [← e] at this
    · rintro v ⟨x, hx⟩
      exact ⟨x, ⟨v, hx⟩, hf x _ _ (Exists.choose_spec (⟨v, hx⟩ : ∃ v, R' x v)) hx⟩
  have h3 := Set.ncard_add_ncard_compl {x | ∃ v, R' x v} (Set.toFinite _) (Set.toFinite _)
  have h4 : {x | ∃ v, R' x v}ᶜ = {x | ¬ ∃ v, R' x v} := rfl
  rw [h4] at h3
  omega

/-! ### numbering views -/

theorem getD_inj {α : Type} {l l' : List α} {a : α} {N : Nat} (h1 : l.length = N) (h2 : l'.length = N)
    (h : ∀ i : Fin N, l.getD i a = l'.getD i a) : l = l' := by
  refine List.ext_getElem (h1.trans h2.symm) fun i h3 h4 => ?_
  have := h ⟨i, h1 ▸ h3⟩
  simpa [List.getD_eq_getElem?_getD, List.getElem?_eq_getElem h3, List.getElem?_eq_getElem h4] using this

/-- A number as one below `n`. -/
def below {n : Nat} (hn : 0 < n) (x : Int) : Fin n := ⟨x.toNat % n, Nat.mod_lt _ hn⟩

theorem below_inj {n : Nat} {hn : 0 < n} {x y : Int} (h1 : 0 ≤ x ∧ x < n) (h2 : 0 ≤ y ∧ y < n) (h : below hn x = below hn y) : x = y := by
  simp only [below, Fin.mk.injEq] at h
  rw [Nat.mod_eq_of_lt (by omega), Nat.mod_eq_of_lt (by omega)] at h
  omega

theorem below_list_inj {n N : Nat} {hn : 0 < n} {l l' : List Int} (h1 : l.length = N) (h2 : l'.length = N)
    (r1 : ∀ v ∈ l, 0 ≤ v ∧ v < (n : Int)) (r2 : ∀ v ∈ l', 0 ≤ v ∧ v < (n : Int))
    (h : ∀ i : Fin N, below hn (l.getD i 0) = below hn (l'.getD i 0)) : l = l' := by
  have hr : ∀ (l : List Int) (i : Nat), (∀ v ∈ l, 0 ≤ v ∧ v < (n : Int)) → 0 ≤ l.getD i 0 ∧ l.getD i 0 < (n : Int) := by
    intro l i r
    by_cases hi : i < l.length
    · rw [List.getD_eq_getElem _ _ hi]; exact r _ (List.getElem_mem _)
    · rw [List.getD_eq_default _ _ (by omega)]; omega
  exact getD_inj (a := (0 : Int)) h1 h2 fun i => below_inj (hr l i r1) (hr l' i r2) (h i)

theorem below_lists_inj {n : Nat} {lens : List Nat} {hn : 0 < n} {l l' : List (List Int)} (h1 : l.map List.length = lens) (h2 : l'.map List.length = lens)
    (r1 : ∀ y ∈ l, ∀ v ∈ y, 0 ≤ v ∧ v < (n : Int)) (r2 : ∀ y ∈ l', ∀ v ∈ y, 0 ≤ v ∧ v < (n : Int))
    (h : ∀ (i : Fin lens.length) (j : Fin (lens.get i)), below hn ((l.getD i []).getD j 0) = below hn ((l'.getD i []).getD j 0)) : l = l' := by
  have e1 : l.length = lens.length := by rw [← h1, List.length_map]
  have e2 : l'.length = lens.length := by rw [← h2, List.length_map]
  refine getD_inj (a := []) e1 e2 fun i => ?_
  have g1 : i.1 < l.length := by rw [e1]; exact i.isLt
  have g2 : i.1 < l'.length := by rw [e2]; exact i.isLt
  have l1 : (l.getD i []).length = lens.get i := by
    subst h1
    rw [List.getD_eq_getElem _ _ g1]; simp
  have l2 : (l'.getD i []).length = lens.get i := by
    subst h2
    rw [List.getD_eq_getElem _ _ g2]; simp
  refine below_list_inj l1 l2 ?_ ?_ (h i)
  · rw [List.getD_eq_getElem _ _ g1]; exact r1 _ (List.getElem_mem _)
  · rw [List.getD_eq_getElem _ _ g2]; exact r2 _ (List.getElem_mem _)

/-- Party zero's views have the shape of party one's draws. -/
def goodZero (lens : List Nat) (m n : Nat) (v : List (List Int) × List Bool × List Bool × List Int) : Prop :=
  v.1.map List.length = lens ∧ (∀ y ∈ v.1, ∀ x ∈ y, 0 ≤ x ∧ x < (n : Int)) ∧ v.2.1.length = m ∧ v.2.2.1.length = lens.sum ∧
    v.2.2.2.length = lens.sum ∧ ∀ x ∈ v.2.2.2, 0 ≤ x ∧ x < (n : Int)

/-- Party one's views have the shape of party zero's draws. -/
def goodOne (lens : List Nat) (n : Nat) (v : List (List Int) × List Int) : Prop :=
  v.1.map List.length = lens ∧ (∀ y ∈ v.1, ∀ x ∈ y, 0 ≤ x ∧ x < (n : Int)) ∧ v.2.length = lens.sum ∧ ∀ x ∈ v.2, 0 ≤ x ∧ x < (n : Int)

def encZero (lens : List Nat) (m : Nat) {n : Nat} (hn : 0 < n) (v : List (List Int) × List Bool × List Bool × List Int) : DrawsOne lens m n :=
  (fun i j => below hn ((v.1.getD i []).getD j 0), fun i => v.2.1.getD i false, fun i => v.2.2.1.getD i false, fun i => below hn (v.2.2.2.getD i 0))

def encOne (lens : List Nat) {n : Nat} (hn : 0 < n) (v : List (List Int) × List Int) : DrawsZero lens n :=
  (fun i j => below hn ((v.1.getD i []).getD j 0), fun i => below hn (v.2.getD i 0))

theorem encZero_inj {lens : List Nat} {m n : Nat} {hn : 0 < n} {v v' : List (List Int) × List Bool × List Bool × List Int}
    (h1 : goodZero lens m n v) (h2 : goodZero lens m n v') (h : encZero lens m hn v = encZero lens m hn v') : v = v' := by
  obtain ⟨a1, a2, a3, a4, a5, a6⟩ := h1
  obtain ⟨b1, b2, b3, b4, b5, b6⟩ := h2
  simp only [encZero, Prod.mk.injEq] at h
  obtain ⟨c1, c2, c3, c4⟩ := h
  refine Prod.ext (below_lists_inj a1 b1 a2 b2 fun i j => congrFun (congrFun c1 i) j) (Prod.ext (getD_inj a3 b3 fun i => congrFun c2 i)
    (Prod.ext (getD_inj a4 b4 fun i => congrFun c3 i) (below_list_inj a5 b5 a6 b6 fun i => congrFun c4 i)))

theorem encOne_inj {lens : List Nat} {n : Nat} {hn : 0 < n} {v v' : List (List Int) × List Int}
    (h1 : goodOne lens n v) (h2 : goodOne lens n v') (h : encOne lens hn v = encOne lens hn v') : v = v' := by
  obtain ⟨a1, a2, a5, a6⟩ := h1
  obtain ⟨b1, b2, b5, b6⟩ := h2
  simp only [encOne, Prod.mk.injEq] at h
  obtain ⟨c1, c4⟩ := h
  exact Prod.ext (below_lists_inj a1 b1 a2 b2 fun i j => congrFun (congrFun c1 i) j) (below_list_inj a5 b5 a6 b6 fun i => congrFun c4 i)

/-! ### the theorems -/

variable {mont : Int → Option Mont} {p0 q0 p1 q1 : Nat} {k0 k1 : DKeys}

theorem admissible_redraw {B n0 n1 : Nat} {ds : List DayDelIn} {d : DayDelIn} (hA : DelAdmissible B n0 n1 (ds ++ [d])) {ρ : DelCoins}
    (hw : ρ.round.WF B n0 n1 d.xs d.ys) : DelAdmissible B n0 n1 (ds ++ [(⟨d.xs, d.ys, ρ⟩ : DayDelIn)]) := by
  have eX : delX (ds ++ [(⟨d.xs, d.ys, ρ⟩ : DayDelIn)]) = delX (ds ++ [d]) := by simp [delX]
  have eY : delY (ds ++ [(⟨d.xs, d.ys, ρ⟩ : DayDelIn)]) = delY (ds ++ [d]) := by simp [delY]
  refine ⟨hA.bound0, hA.bound1, ?_, by rw [eX]; exact hA.x, by rw [eY]; exact hA.y, by rw [eX]; exact hA.sizeX, by rw [eY]; exact hA.sizeY⟩
  intro e he
  rcases List.mem_append.1 he with he | he
  · exact hA.coins e (List.mem_append_left _ he)
  · rw [List.mem_singleton] at he; subst he; exact hw

theorem seesZero_good (K : Keys p0 q0 p1 q1 mont k0 k1) {ro : List UInt8 → Nat} {h : Nat → List Bool} (hh : ∀ e, (h e).length = 256)
    {B stash node : Nat} {w : World} (hw : w.Reached p0 q0 p1 q1 ro mont h k0 k1 stash node B)
    {X : DrawsOne (w.sizes stash node h).cands1 (w.sizes stash node h).cands0.sum (p0 * q0)} {v : List (List Int) × List Bool × List Bool × List Int}
    (hv : w.SeesZero ro mont h k0 k1 X v) : goodZero (w.sizes stash node h).cands1 (w.sizes stash node h).cands0.sum (p0 * q0) v := by
  obtain ⟨V, hV, rfl⟩ := hv
  have hc := hw.adm.coins w.d (by simp)
  have hwf : (redrawOne w.d.coins X).round.WF B (p0 * q0) (p1 * q1) w.d.xs w.d.ys :=
    ⟨hc.hsh0, hc.hsh1, hc.pads0, hc.pads1, hc.path0, fun i j => maskTape_range hc.path1 X.1 i j⟩
  obtain ⟨a1, a2, a3, a4, a5, a6⟩ := C70_zero_range K ro h hh B stash node w.ds ⟨w.d.xs, w.d.ys, redrawOne w.d.coins X⟩
    (admissible_redraw hw.adm hwf) w.s hw.run V hV
  exact ⟨a1, a2, a3, a4, a5, a6⟩

theorem seesOne_good (K : Keys p0 q0 p1 q1 mont k0 k1) {ro : List UInt8 → Nat} {h : Nat → List Bool} (hh : ∀ e, (h e).length = 256)
    {B stash node : Nat} {w : World} (hw : w.Reached p0 q0 p1 q1 ro mont h k0 k1 stash node B)
    {X : DrawsZero (w.sizes stash node h).cands0 (p1 * q1)} {v : List (List Int) × List Int}
    (hv : w.SeesOne ro mont h k0 k1 X v) : goodOne (w.sizes stash node h).cands0 (p1 * q1) v := by
  obtain ⟨V, hV, rfl⟩ := hv
  have hc := hw.adm.coins w.d (by simp)
  have hwf : (redrawZero w.d.coins X).round.WF B (p0 * q0) (p1 * q1) w.d.xs w.d.ys :=
    ⟨hc.hsh0, hc.hsh1, hc.pads0, hc.pads1, fun i j => maskTape_range hc.path0 X.1 i j, hc.path1⟩
  obtain ⟨a1, a2, a5, a6⟩ := C70_one_range K ro h hh B stash node w.ds ⟨w.d.xs, w.d.ys, redrawZero w.d.coins X⟩
    (admissible_redraw hw.adm hwf) w.s hw.run V hV
  exact ⟨a1, a2, a5, a6⟩

/-- **C70** Take any two worlds (histories, elements and payloads of both parties, all other coins) whose next days have the same
message sizes.  The number of views party zero can get in the one and not in the other is at most the number of draws of
party one for which the other's run does not complete: with each draw equally likely (and each view coming from one draw only,
`C70_zero_determines`), no test tells the worlds apart with an advantage larger than the larger chance of not completing. -/
theorem C70_zero_hides (K : Keys p0 q0 p1 q1 mont k0 k1) (ro : List UInt8 → Nat) (h : Nat → List Bool) (hh : ∀ e, (h e).length = 256)
    (B stash node : Nat) (w w' : World) (hw : w.Reached p0 q0 p1 q1 ro mont h k0 k1 stash node B)
    (hw' : w'.Reached p0 q0 p1 q1 ro mont h k0 k1 stash node B) (lens : List Nat) (m : Nat)
    (h1 : (w.sizes stash node h).cands1 = lens) (h2 : (w.sizes stash node h).cands0.sum = m)
    (h1' : (w'.sizes stash node h).cands1 = lens) (h2' : (w'.sizes stash node h).cands0.sum = m) :
    {v | (∃ X : DrawsOne lens m (p0 * q0), w.SeesZero ro mont h k0 k1 X v) ∧
        ¬ ∃ X : DrawsOne lens m (p0 * q0), w'.SeesZero ro mont h k0 k1 X v}.ncard ≤
      {X : DrawsOne lens m (p0 * q0) | ¬ ∃ v, w'.SeesZero ro mont h k0 k1 X v}.ncard := by
  have hn := Primes.n_pos K.own0.primes
  refine count_views (good := goodZero lens m (p0 * q0)) (enc := encZero lens m hn) ?_ ?_ ?_ ?_ (fun v v' g g' e => encZero_inj g g' e)
  · rintro X v v' ⟨V, e, rfl⟩ ⟨V', e', rfl⟩
    rw [e, Outcome.ok.injEq] at e'
    rw [e']
  · subst h1; subst h2
    exact fun X v hv => seesZero_good K hh hw hv
  · subst h1'; subst h2'
    exact fun X v hv => seesZero_good K hh hw' hv
  · subst h1'; subst h2'
    rintro X X' v ⟨V, e, hV⟩ ⟨V', e', hV'⟩
    exact C70_zero_determines K ro h hh B stash node w'.ds w'.d hw'.adm w'.s hw'.run X X' V V' e e' (hV.trans hV'.symm)

/-- **C70** The same for party one's views and party zero's draws. -/
theorem C70_one_hides (K : Keys p0 q0 p1 q1 mont k0 k1) (ro : List UInt8 → Nat) (h : Nat → List Bool) (hh : ∀ e, (h e).length = 256)
    (B stash node : Nat) (w w' : World) (hw : w.Reached p0 q0 p1 q1 ro mont h k0 k1 stash node B)
    (hw' : w'.Reached p0 q0 p1 q1 ro mont h k0 k1 stash node B) (lens : List Nat)
    (h1 : (w.sizes stash node h).cands0 = lens) (h1' : (w'.sizes stash node h).cands0 = lens) :
    {v | (∃ X : DrawsZero lens (p1 * q1), w.SeesOne ro mont h k0 k1 X v) ∧
        ¬ ∃ X : DrawsZero lens (p1 * q1), w'.SeesOne ro mont h k0 k1 X v}.ncard ≤
      {X : DrawsZero lens (p1 * q1) | ¬ ∃ v, w'.SeesOne ro mont h k0 k1 X v}.ncard := by
  have hn := Primes.n_pos K.own1.primes
  refine count_views (good := goodOne lens (p1 * q1)) (enc := encOne lens hn) ?_ ?_ ?_ ?_ (fun v v' g g' e => encOne_inj g g' e)
  · rintro X v v' ⟨V, e, rfl⟩ ⟨V', e', rfl⟩
    rw [e, Outcome.ok.injEq] at e'
    rw [e']
  · subst h1
    exact fun X v hv => seesOne_good K hh hw hv
  · subst h1'
    exact fun X v hv => seesOne_good K hh hw' hv
  · subst h1'
    rintro X X' v ⟨V, e, hV⟩ ⟨V', e', hV'⟩
    exact C70_one_determines K ro h hh B stash node w'.ds w'.d hw'.adm w'.s hw'.run X X' V V' e e' (hV.trans hV'.symm)

/-- The next day's coins are usable, as in C63, and the payloads sum up to less than the moduli. -/
structure World.Usable (p0 q0 p1 q1 B : Nat) (w : World) : Prop where
  usable : ∀ d ∈ w.ds ++ [w.d], d.coins.Usable B (p0 * q0) (p1 * q1)
  massX : mass (delX (w.ds ++ [w.d])) < min ((p0 * q0 : Nat) : Int) ((p1 * q1 : Nat) : Int)
  massY : mass (delY (w.ds ++ [w.d])) < min ((p0 * q0 : Nat) : Int) ((p1 * q1 : Nat) : Int)

theorem completes (K : Keys p0 q0 p1 q1 mont k0 k1) {ro : List UInt8 → Nat} {h : Nat → List Bool} (hh : ∀ e, (h e).length = 256)
    {B stash node : Nat} {w : World} (hw : w.Reached p0 q0 p1 q1 ro mont h k0 k1 stash node B) (hu : w.Usable p0 q0 p1 q1 B)
    {ρ : DelCoins} (hρ : ρ.round.WF B (p0 * q0) (p1 * q1) w.d.xs w.d.ys) (hρu : ρ.Usable B (p0 * q0) (p1 * q1)) :
    (∃ V, viewDel ro mont h k0 k1 w.s w.d.xs w.d.ys ρ = .ok V) ∨
    ∃ x : Nat, x < max (p0 * q0) (p1 * q1) ∧ ro (natBytes x) < 2 ^ 64 := by
  have hA := hw.adm
  obtain ⟨hI, sX⟩ := day_inv K hh hA hw.run
  have eX : delX (w.ds ++ [w.d]) = delX w.ds ++ w.d.xs := by simp [delX]
  have eY : delY (w.ds ++ [w.d]) = delY w.ds ++ w.d.ys := by simp [delY]
  have mX := hu.massX
  have mY := hu.massY
  rw [← absMass_eq_mass] at mX mY
  rw [eX] at mX
  rw [eY] at mY
  have tX := hA.sizeX
  have tY := hA.sizeY
  have bX := hA.x
  have bY := hA.y
  rw [eX] at tX bX
  rw [eY] at tY bY
  have aX := absMass_append (delX w.ds) w.d.xs
  have aY := absMass_append (delY w.ds) w.d.ys
  have hends := runDel_ends K (ro := ro) hh hA.bound0 hA.bound1 (stash := stash) w.ds [] [] (StDel.init stash node)
    (DInv.init h B (p0 * q0) (p1 * q1) stash node) (DFit.init _ _) (DFit.init _ _) (fun d hd => hA.coins d (List.mem_append_left _ hd))
    (fun d hd => hu.usable d (List.mem_append_left _ hd)) (fun e he => bX e (List.mem_append_left _ he)) (fun e he => bY e (List.mem_append_left _ he))
    (by rw [List.length_append] at tX; rw [List.nil_append]; omega) (by rw [List.length_append] at tY; rw [List.nil_append]; omega)
    (by rw [List.nil_append]; omega) (by rw [List.nil_append]; omega)
    (by rw [List.nil_append]; omega) (by rw [List.nil_append]; omega)
  have hrun : runDays (fun s (d : DayDelIn) => dayDel ro mont h k0 k1 s d.xs d.ys d.coins) (StDel.init stash node) w.ds = .ok w.s := hw.run
  rw [hrun] at hends
  obtain ⟨f0, f1⟩ := hends
  rw [List.nil_append] at f0 f1
  have := dayDel_ends K (ro := ro) hh hA.bound0 hA.bound1 hI f0 f1 hρ hρu (fun e he => bX e (List.mem_append_right _ he))
    (fun e he => bY e (List.mem_append_right _ he)) tX tY (by omega) (by omega) (by omega) (by omega)
  rcases this.cases with ⟨s', hs', _⟩ | ⟨_, hS⟩
  · obtain ⟨V, hV, _⟩ := viewDel_of hs'
    exact Or.inl ⟨V, hV⟩
  · exact Or.inr hS

/-- **C70** When party one's masks are at least the element bound and its shares are not zero, the run completes, unless some
number hashes to fewer than nine bytes (C34): these are the only draws on which the run may fail. -/
theorem C70_zero_completes (K : Keys p0 q0 p1 q1 mont k0 k1) (ro : List UInt8 → Nat) (h : Nat → List Bool) (hh : ∀ e, (h e).length = 256)
    (B stash node : Nat) (w : World) (hw : w.Reached p0 q0 p1 q1 ro mont h k0 k1 stash node B) (hu : w.Usable p0 q0 p1 q1 B)
    (lens : List Nat) (m : Nat) (X : DrawsOne lens m (p0 * q0)) (hm : ∀ i j, B ≤ (X.1 i j : Nat)) (hs : ∀ i, 1 ≤ (X.2.2.2 i : Nat)) :
    (∃ v, w.SeesZero ro mont h k0 k1 X v) ∨ ∃ x : Nat, x < max (p0 * q0) (p1 * q1) ∧ ro (natBytes x) < 2 ^ 64 := by
  have hn := K.own0.primes.n_gt_one
  have hc := hw.adm.coins w.d (by simp)
  have hcu := hu.usable w.d (by simp)
  have hwf : (redrawOne w.d.coins X).round.WF B (p0 * q0) (p1 * q1) w.d.xs w.d.ys :=
    ⟨hc.hsh0, hc.hsh1, hc.pads0, hc.pads1, hc.path0, fun i j => maskTape_range hc.path1 X.1 i j⟩
  have hus : (redrawOne w.d.coins X).Usable B (p0 * q0) (p1 * q1) := by
    refine ⟨⟨hcu.round.enc0, hcu.round.enc1, hcu.round.pads0, hcu.round.pads1, hcu.round.path0, fun i j => ?_⟩, fun i => ?_, fun i => ?_⟩
    · refine ⟨?_, (maskTape_range hc.path1 X.1 i j).2, (hcu.round.path1 i j).2.2⟩
      exact maskTape_all (Q := fun v => (B : Int) ≤ v) (fun i j => (hcu.round.path1 i j).1) (fun i j => by exact_mod_cast hm i j) i j
    · exact hcu.gc0 i
    · have := tape_all (f := X.2.2.2) (Q := fun v => 0 < v ∧ v ≤ ((p0 * q0 : Nat) : Int)) (by omega)
        (fun i => ⟨by have := hs i; omega, by have := (X.2.2.2 i).isLt; omega⟩) i
      exact ⟨this.1, this.2, (hcu.gc1 i).2.2⟩
  rcases completes K hh hw hu hwf hus with ⟨V, hV⟩ | hS
  · exact Or.inl ⟨_, V, hV, rfl⟩
  · exact Or.inr hS

/-- **C70** The same for party zero's draws. -/
theorem C70_one_completes (K : Keys p0 q0 p1 q1 mont k0 k1) (ro : List UInt8 → Nat) (h : Nat → List Bool) (hh : ∀ e, (h e).length = 256)
    (B stash node : Nat) (w : World) (hw : w.Reached p0 q0 p1 q1 ro mont h k0 k1 stash node B) (hu : w.Usable p0 q0 p1 q1 B)
    (lens : List Nat) (X : DrawsZero lens (p1 * q1)) (hm : ∀ i j, B ≤ (X.1 i j : Nat)) (hs : ∀ i, 1 ≤ (X.2 i : Nat)) :
    (∃ v, w.SeesOne ro mont h k0 k1 X v) ∨ ∃ x : Nat, x < max (p0 * q0) (p1 * q1) ∧ ro (natBytes x) < 2 ^ 64 := by
  have hn := K.own1.primes.n_gt_one
  have hc := hw.adm.coins w.d (by simp)
  have hcu := hu.usable w.d (by simp)
  have hwf : (redrawZero w.d.coins X).round.WF B (p0 * q0) (p1 * q1) w.d.xs w.d.ys :=
    ⟨hc.hsh0, hc.hsh1, hc.pads0, hc.pads1, fun i j => maskTape_range hc.path0 X.1 i j, hc.path1⟩
  have hus : (redrawZero w.d.coins X).Usable B (p0 * q0) (p1 * q1) := by
    refine ⟨⟨hcu.round.enc0, hcu.round.enc1, hcu.round.pads0, hcu.round.pads1, fun i j => ?_, hcu.round.path1⟩, fun i => ?_, fun i => ?_⟩
    · refine ⟨?_, (maskTape_range hc.path0 X.1 i j).2, (hcu.round.path0 i j).2.2⟩
      exact maskTape_all (Q := fun v => (B : Int) ≤ v) (fun i j => (hcu.round.path0 i j).1) (fun i j => by exact_mod_cast hm i j) i j
    · have := tape_all (f := X.2) (Q := fun v => 0 < v ∧ v ≤ ((p1 * q1 : Nat) : Int)) (by omega)
        (fun i => ⟨by have := hs i; omega, by have := (X.2 i).isLt; omega⟩) i
      exact ⟨this.1, this.2, (hcu.gc0 i).2.2⟩
    · exact hcu.gc1 i
  rcases completes K hh hw hu hwf hus with ⟨V, hV⟩ | hS
  · exact Or.inl ⟨_, V, hV, rfl⟩
  · exact Or.inr hS

end Upsi.View
