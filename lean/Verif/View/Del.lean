import Verif.View.DelProps
import Verif.View.SizeDel
import Mathlib.Data.Set.Card
import Mathlib.Data.Fintype.Pi
import Mathlib.Data.Fintype.Prod
/-
C70: the protocol with deletions hides the peer's elements behind the peer's masks.  Statements over whole histories.
-/
namespace Upsi.View
open Upsi Upsi.Tree Upsi.Num Upsi.Paillier Upsi.Proto

/-! ### specification -/

/-- One mask below `n` for every position of every path; `lens` are the lengths of the paths. -/
abbrev Masks (lens : List Nat) (n : Nat) := (i : Fin lens.length) → Fin (lens.get i) → Fin n

/-- What party one draws to hide its elements on a day: a mask per position of its elements' paths, the bits that
share the outcomes of the `m` comparisons of party zero's elements and of its own, and a share per comparison of its own. -/
abbrev DrawsOne (lens : List Nat) (m n : Nat) := Masks lens n × (Fin m → Bool) × (Fin lens.sum → Bool) × (Fin lens.sum → Fin n)

/-- What party zero draws to hide its elements on a day: masks and shares. -/
abbrev DrawsZero (lens : List Nat) (n : Nat) := Masks lens n × (Fin lens.sum → Fin n)

/-- A finite tape, continued by a default value. -/
def tapeOr {N : Nat} {α : Type} (a : α) (f : Fin N → α) (m : Nat) : α := if h : m < N then f ⟨m, h⟩ else a

/-- The masks on the tape, as numbers; where there is no path position the old tape (which is not read there) stays. -/
def maskTape {lens : List Nat} {n : Nat} (r : Nat → PathCoins) (a : Masks lens n) (i j : Nat) : Int :=
  if h : i < lens.length then tapeOr ((r i).alpha j) (fun j => (a ⟨i, h⟩ j : Int)) j else (r i).alpha j

/-- The coins of a day with party one's draws replaced; everything else is kept. -/
def redrawOne {lens : List Nat} {m n : Nat} (ρ : DelCoins) (X : DrawsOne lens m n) : DelCoins where
  round := { ρ.round with path1 := fun i => ⟨maskTape ρ.round.path1 X.1 i, (ρ.round.path1 i).coin⟩ }
  gc0 := { ρ.gc0 with bit := tapeOr false X.2.1 }
  gc1 := ⟨tapeOr false X.2.2.1, tapeOr 1 (fun j => (X.2.2.2 j : Int)), ρ.gc1.coin⟩

/-- The coins of a day with party zero's draws replaced; everything else is kept. -/
def redrawZero {lens : List Nat} {n : Nat} (ρ : DelCoins) (X : DrawsZero lens n) : DelCoins where
  round := { ρ.round with path0 := fun i => ⟨maskTape ρ.round.path0 X.1 i, (ρ.round.path0 i).coin⟩ }
  gc0 := { ρ.gc0 with beta := tapeOr 1 (fun j => (X.2 j : Int)) }
  gc1 := ρ.gc1

/-- The (public) sizes of the messages of day `d` after the history `ds`: C65. -/
def dayDelSizes (stash node : Nat) (hashOf : Nat → List Bool) (ds : List DayDelIn) (d : DayDelIn) : DelSizes :=
  delSizesSpec stash node (rids0 (ds.map delRound)) (rids1 (ds.map delRound)) d.coins.round.hsh0 d.coins.round.hsh1
    (d.xs.map (fun x => hashOf x.1)) (d.ys.map (fun y => hashOf y.1))

/-! ### proofs -/

theorem _root_.Upsi.Paillier.Primes.n_gt_one {p q : Nat} (h : Primes p q 1) : 1 < p * q := by
  have := h.hp.one_lt
  have := h.hq.one_lt
  nlinarith

theorem tapeOr_inj {N : Nat} {α : Type} {a : α} {f g : Fin N → α} (h : ∀ m < N, tapeOr a f m = tapeOr a g m) : f = g := by
  funext i
  have := h i i.isLt
  simpa [tapeOr] using this

theorem maskTape_inj {lens : List Nat} {n : Nat} {r : Nat → PathCoins} {a b : Masks lens n}
    (h : ∀ i k, lens[i]? = some k → ∀ j < k, maskTape r a i j = maskTape r b i j) : a = b := by
  funext i j
  have := h i (lens.get i) (by simp) j j.isLt
  simpa [maskTape, tapeOr, Fin.ext_iff] using this

/-- A property of all numbers below `n` that satisfy `P` and of the old tape holds of the new one. -/
theorem maskTape_all {lens : List Nat} {n : Nat} {r : Nat → PathCoins} {a : Masks lens n} {Q : Int → Prop}
    (hr : ∀ i j, Q ((r i).alpha j)) (ha : ∀ i j, Q (a i j : Int)) (i j : Nat) : Q (maskTape r a i j) := by
  unfold maskTape tapeOr
  split
  · split
    · exact ha _ _
    · exact hr i j
  · exact hr i j

theorem maskTape_range {lens : List Nat} {n : Nat} {r : Nat → PathCoins} (hr : ∀ i, (r i).WF n) (a : Masks lens n) (i j : Nat) :
    0 ≤ maskTape r a i j ∧ maskTape r a i j < n :=
  maskTape_all (Q := fun v => 0 ≤ v ∧ v < n) (fun i j => hr i j) (fun i j => ⟨Int.natCast_nonneg _, Int.ofNat_lt.2 (a i j).isLt⟩) i j

theorem tape_all {N n : Nat} {f : Fin N → Fin n} {Q : Int → Prop} (h1 : Q 1) (hf : ∀ i, Q (f i : Int)) (m : Nat) :
    Q (tapeOr (1 : Int) (fun j => (f j : Int)) m) := by
  unfold tapeOr
  split
  · exact hf _
  · exact h1

theorem tape_range {N n : Nat} (hn : 1 < n) (f : Fin N → Fin n) (m : Nat) :
    0 ≤ tapeOr (1 : Int) (fun j => (f j : Int)) m ∧ tapeOr (1 : Int) (fun j => (f j : Int)) m < n :=
  tape_all (Q := fun v => 0 ≤ v ∧ v < n) (by omega) (fun i => ⟨Int.natCast_nonneg _, Int.ofNat_lt.2 (f i).isLt⟩) m

theorem candidatesOf_lengths {mont : Int → Option Mont} {hashOf : Nat → List Bool} {pk : Public} {other : Upsi.Tree.Tree (Int × Int)}
    {es : List EP} {path : Nat → PathCoins} {gs : List (List Item)} {ws : List (List EncElem)}
    (h : candidatesOf mont hashOf pk other es path = .ok (gs, ws)) : ws.map List.length = gs.map List.length := by
  simp only [candidatesOf, Outcome.bind_eq_ok, Outcome.pure_eq, Outcome.ok.injEq, Prod.mk.injEq] at h
  obtain ⟨gs', _, ws', h2, rfl, rfl⟩ := h
  exact forIdx_lengths (g := List.length) gs' (fun i a _ b hb => forIdx_length hb) 0 ws' h2

variable {mont : Int → Option Mont} {p0 q0 p1 q1 : Nat} {k0 k1 : DKeys}

theorem roundsOK_of {B n0 n1 : Nat} {ds : List DayDelIn} (hA : DelAdmissible B n0 n1 ds) : RoundsOK (ds.map delRound) where
  id0 := by
    intro r hr
    obtain ⟨d, hd, rfl⟩ := List.mem_map.1 hr
    exact (hA.coins d hd).hsh0
  id1 := by
    intro r hr
    obtain ⟨d, hd, rfl⟩ := List.mem_map.1 hr
    exact (hA.coins d hd).hsh1
  size0 := by
    have h1 : idCount (rids0 (ds.map delRound)) = (delX ds).length := by
      have : ∀ ds : List DayDelIn, (∀ d ∈ ds, d.coins.round.hsh0.length = d.xs.length) → idCount (rids0 (ds.map delRound)) = (delX ds).length := by
        intro ds
        induction ds with
        | nil => intro _; rfl
        | cons d ds ih =>
          intro h
          have := ih (fun d hd => h d (List.mem_cons_of_mem _ hd))
          simp only [rids0, idCount, delX, List.map_cons, List.sum_cons, List.flatMap_cons, List.length_append, delRound] at this ⊢
          rw [h d (List.mem_cons_self ..)]
          omega
      exact this ds (fun d hd => (hA.coins d hd).hsh0.1)
    rw [h1]; exact hA.sizeX
  size1 := by
    have h1 : idCount (rids1 (ds.map delRound)) = (delY ds).length := by
      have : ∀ ds : List DayDelIn, (∀ d ∈ ds, d.coins.round.hsh1.length = d.ys.length) → idCount (rids1 (ds.map delRound)) = (delY ds).length := by
        intro ds
        induction ds with
        | nil => intro _; rfl
        | cons d ds ih =>
          intro h
          have := ih (fun d hd => h d (List.mem_cons_of_mem _ hd))
          simp only [rids1, idCount, delY, List.map_cons, List.sum_cons, List.flatMap_cons, List.length_append, delRound] at this ⊢
          rw [h d (List.mem_cons_self ..)]
          omega
      exact this ds (fun d hd => (hA.coins d hd).hsh1.1)
    rw [h1]; exact hA.sizeY

theorem view_sizes (_K : Keys p0 q0 p1 q1 mont k0 k1) {ro : List UInt8 → Nat} {h : Nat → List Bool} (hh : ∀ e, (h e).length = 256)
    {B stash node : Nat} {ds : List DayDelIn} {d : DayDelIn} (hA : DelAdmissible B (p0 * q0) (p1 * q1) (ds ++ [d])) {s : StDel}
    (hr : runDelDays ro mont h k0 k1 stash node ds = .ok s) {ρ : DelCoins} (h0 : ρ.round.hsh0 = d.coins.round.hsh0)
    (h1 : ρ.round.hsh1 = d.coins.round.hsh1) {V : DelView} (hV : viewDel ro mont h k0 k1 s d.xs d.ys ρ = .ok V) :
    V.out.items0.map List.length = (dayDelSizes stash node h ds d).cands0 ∧
    V.out.items1.map List.length = (dayDelSizes stash node h ds d).cands1 := by
  simp only [viewDel, Outcome.bind_eq_ok, Outcome.pure_eq, Outcome.ok.injEq] at hV
  obtain ⟨⟨a, m1, g0⟩, e1, ⟨b, m2, r1, g1⟩, e2, ⟨c, r0⟩, e3, f1, e4, f2, e5, rfl⟩ := hV
  have hok := roundsOK_of hA
  rw [List.map_append, List.map_cons, List.map_nil] at hok
  have hok' : RoundsOK ((ds ++ [(⟨d.xs, d.ys, ρ⟩ : DayDelIn)]).map delRound) := by
    rw [List.map_append, List.map_cons, List.map_nil]
    refine ⟨?_, ?_, ?_, ?_⟩
    · intro r hr
      rcases List.mem_append.1 hr with hr | hr
      · exact hok.id0 r (List.mem_append_left _ hr)
      · rw [List.mem_singleton] at hr; subst hr
        have := hok.id0 (delRound d) (by simp)
        simpa only [delRound, h0] using this
    · intro r hr
      rcases List.mem_append.1 hr with hr | hr
      · exact hok.id1 r (List.mem_append_left _ hr)
      · rw [List.mem_singleton] at hr; subst hr
        have := hok.id1 (delRound d) (by simp)
        simpa only [delRound, h1] using this
    · have := hok.size0
      simpa only [rids0, List.map_append, List.map_cons, List.map_nil, delRound, h0] using this
    · have := hok.size1
      simpa only [rids1, List.map_append, List.map_cons, List.map_nil, delRound, h1] using this
  have hz := C65_sizes_deletion ro mont h hh k0 k1 stash node ds ⟨d.xs, d.ys, ρ⟩ hok' s hr
    ⟨m1.updates.hashes, m1.updates.nodes.map List.length, m1.candidates.map List.length,
      m2.updates.hashes, m2.updates.nodes.map List.length, m2.candidates.map List.length⟩ (by
    simp only [roundSizes, delRound, e1, e2, Outcome.bind_ok, Outcome.pure_eq])
  have z0 := congrArg DelSizes.cands0 hz
  have z1 := congrArg DelSizes.cands1 hz
  simp only [delGenI, Outcome.bind_eq_ok, Outcome.pure_eq, Outcome.ok.injEq, Prod.mk.injEq, Prod.exists] at e1
  obtain ⟨u0, _, gs0, ws0, hc0, rfl, rfl, rfl⟩ := e1
  simp only [delGenII, Outcome.bind_eq_ok, Outcome.pure_eq, Outcome.ok.injEq, Prod.mk.injEq, Prod.exists] at e2
  obtain ⟨o1, _, ys1, _, u1, _, gs1, ws1, hc1, rfl, rfl, rfl, rfl⟩ := e2
  simp only at z0 z1
  rw [candidatesOf_lengths hc0] at z0
  rw [candidatesOf_lengths hc1] at z1
  constructor
  · rw [z0]; simp only [dayDelSizes, delSizesSpec]
  · rw [z1]; simp only [dayDelSizes, delSizesSpec, h0]

theorem flatten_length {α : Type} {l : List (List α)} {lens : List Nat} (h : l.map List.length = lens) : l.flatten.length = lens.sum := by
  rw [List.length_flatten, h]

theorem day_inv (K : Keys p0 q0 p1 q1 mont k0 k1) {ro : List UInt8 → Nat} {h : Nat → List Bool} (hh : ∀ e, (h e).length = 256)
    {B stash node : Nat} {ds : List DayDelIn} {d : DayDelIn} (hA : DelAdmissible B (p0 * q0) (p1 * q1) (ds ++ [d])) {s : StDel}
    (hr : runDelDays ro mont h k0 k1 stash node ds = .ok s) :
    DInv h B (p0 * q0) (p1 * q1) (delX ds) (delY ds) s.p0 s.p1 ∧ (delX ds ++ d.xs).length < 2 ^ 30 := by
  have eX : delX (ds ++ [d]) = delX ds ++ d.xs := by simp [delX]
  have eY : delY (ds ++ [d]) = delY ds ++ d.ys := by simp [delY]
  have sX := hA.sizeX
  have sY := hA.sizeY
  have bX := hA.x
  have bY := hA.y
  rw [eX] at sX bX
  rw [eY] at sY bY
  refine ⟨?_, sX⟩
  obtain ⟨hI, _⟩ := runDel_spec K hh hA.bound0 hA.bound1 ds [] [] _ s
    (by simpa [StDel.init] using DInv.init h B (p0 * q0) (p1 * q1) stash node) (fun d hd => hA.coins d (List.mem_append_left _ hd))
    (fun e he => bX e (List.mem_append_left _ he)) (fun e he => bY e (List.mem_append_left _ he))
    (by rw [List.length_append] at sX; simp only [List.nil_append]; omega)
    (by rw [List.length_append] at sY; simp only [List.nil_append]; omega) hr
  simpa only [List.nil_append] using hI

theorem resp_range {p q : Nat} {pk : Public} {sk : Private} (K : KeyPair p q mont pk sk) {h : Nat → List Bool} (hh : ∀ e, (h e).length = 256) {B : Nat} (hB : B ≤ p * q)
    {t : Upsi.Tree.Tree EP} {other : Upsi.Tree.Tree (Int × Int)} (hs : TWF (fun e : EP => h e.1) t)
    (hm : Mirror (EncP (p * q)) (PadP B (p * q)) t other) (hk : ∀ a ∈ t.contents, a.1 < B) {es : List EP} (hes : ∀ e ∈ es, e.1 < B)
    {path : Nat → PathCoins} (hρ : ∀ i, (path i).WF (p * q)) {gs : List (List Item)} {ws : List (List EncElem)}
    (hc : candidatesOf mont h pk other es path = .ok (gs, ws)) {ys : List (List Int)}
    (hy : forIdx (fun _ w => combineResp sk w) 0 ws = .ok ys) :
    (∀ y ∈ ys, ∀ v ∈ y, 0 ≤ v ∧ v < ((p * q : Nat) : Int)) ∧ ys.map List.length = gs.map List.length ∧
      ∀ it ∈ gs.flatten, ∃ v, PEnc (p * q) it.z v := by
  have hn : (0 : Int) < ((p * q : Nat) : Int) := by exact_mod_cast Primes.n_pos K.primes
  have hlen : ys.map List.length = gs.map List.length := by
    rw [← candidatesOf_lengths hc]
    refine forIdx_lengths (g := List.length) ws (fun i a _ b hb => ?_) 0 ys hy
    simp only [combineResp, Outcome.bind_eq_ok] at hb
    obtain ⟨cs, h1, h2⟩ := hb
    rw [forIdx_length h2, forIdx_length h1]
  simp only [candidatesOf, Outcome.bind_eq_ok, Outcome.pure_eq, Outcome.ok.injEq, Prod.mk.injEq] at hc
  obtain ⟨gs', h1, ws', h2, rfl, rfl⟩ := hc
  have r2 : List.Forall₂ (fun (g : List Item) y => List.Forall₂ (RespRel (p * q)) g y) gs' ys := by
    refine forall₂_comp (forIdx_forall₂ _ _ _ h2) (forIdx_forall₂ _ _ _ hy) ?_
    rintro g w y ⟨_, a⟩ ⟨_, b⟩
    exact combineResp_rel K (forIdx_forall₂ _ _ _ a) b
  have r1 : ∀ g ∈ gs', ∃ e l, List.Forall₂ (CombRel (p * q) e) l g := by
    intro g hg
    obtain ⟨k, hk', hgk⟩ := List.mem_iff_getElem.1 hg
    obtain ⟨hl, hget⟩ := View.forIdx_get _ _ _ h1
    have hk2 : k < es.length := by rw [← hl]; exact hk'
    have := hget k hk2 hk'
    rw [hgk] at this
    have a' := this
    simp only [combineInit, Outcome.bind_eq_ok] at a'
    obtain ⟨pth, hpth, _⟩ := a'
    obtain ⟨l, l1, _, _⟩ := path_mirror (key := Prod.fst) hh hs hm hB hk (hes _ (List.getElem_mem hk2)) hpth
    exact ⟨_, l, combineInit_rel K (hρ _) hpth l1 this⟩
  refine ⟨?_, hlen, ?_⟩
  · intro y hy v hv
    obtain ⟨k, hk', rfl⟩ := List.mem_iff_getElem.1 hy
    have hk2 : k < gs'.length := by rw [r2.length_eq]; exact hk'
    have hR := r2.get hk2 hk'
    obtain ⟨e, l, hC⟩ := r1 _ (List.getElem_mem hk2)
    obtain ⟨j, hj, rfl⟩ := List.mem_iff_getElem.1 hv
    have hj2 : j < (gs'[k]).length := lt_of_lt_of_eq hj hR.length_eq.symm
    have hj3 : j < l.length := lt_of_lt_of_eq hj2 hC.length_eq.symm
    have c := hC.get hj3 hj2
    have r := hR.get hj2 hj
    rw [show (ys[k])[j] = _ from r _ c.2.2.1]
    exact ⟨Int.emod_nonneg _ hn.ne', Int.emod_lt_of_pos _ hn⟩
  · intro it hit
    obtain ⟨g, hg, hit⟩ := List.mem_flatten.1 hit
    obtain ⟨e, l, hC⟩ := r1 g hg
    obtain ⟨j, hj, rfl⟩ := List.mem_iff_getElem.1 hit
    have hj3 : j < l.length := lt_of_lt_of_eq hj hC.length_eq.symm
    exact ⟨_, (hC.get hj3 hj).2.2.2⟩

theorem opened_range {p q : Nat} {pk : Public} {sk : Private} (K : KeyPair p q mont pk sk) {ro : List UInt8 → Nat} {aliceSends : Bool}
    {ρ : GcCoins} {its : List Item} (hz : ∀ it ∈ its, ∃ v, PEnc (p * q) it.z v) {ys : List Int} {vs : List GcView}
    (h : gcPhaseV ro mont pk sk aliceSends ρ its ys = .ok vs) :
    vs.length = its.length ∧ ∀ v ∈ vs, 0 ≤ v.opened ∧ v.opened < ((p * q : Nat) : Int) := by
  have hn : (0 : Int) < ((p * q : Nat) : Int) := by exact_mod_cast Primes.n_pos K.primes
  simp only [gcPhaseV, Outcome.bind_eq_ok, K.pub.hn] at h
  obtain ⟨bs, h1, br, _, h3⟩ := h
  split at h3
  · simp at h3
  · clear * - h1 h3 hz hn K
    suffices ∀ i (ys : List Int) vs, gcLoopV ro mont pk sk aliceSends bs ρ i its ys = .ok vs →
        vs.length = its.length ∧ ∀ v ∈ vs, 0 ≤ v.opened ∧ v.opened < ((p * q : Nat) : Int) from this 0 ys vs h3
    clear h3 vs ys
    induction its with
    | nil =>
      intro i ys vs h
      cases ys with
      | nil => simp only [gcLoopV, Outcome.ok.injEq] at h; subst h; exact ⟨rfl, by simp⟩
      | cons y ys => simp [gcLoopV] at h
    | cons it its ih =>
      intro i ys vs h
      cases ys with
      | nil => simp [gcLoopV] at h
      | cons y ys =>
        simp only [gcLoopV, Outcome.bind_eq_ok, Outcome.pure_eq, Outcome.ok.injEq] at h
        obtain ⟨v, hv, vs', hvs, rfl⟩ := h
        obtain ⟨u, hu⟩ := hz it (List.mem_cons_self ..)
        obtain ⟨_, f2⟩ := gcItemV_formula K h1 hu hv
        obtain ⟨i1, i2⟩ := ih (fun it hit => hz it (List.mem_cons_of_mem _ hit)) _ _ _ hvs
        refine ⟨by rw [List.length_cons, List.length_cons, i1], fun w hw => ?_⟩
        rcases List.mem_cons.1 hw with rfl | hw
        · rw [f2]; exact ⟨Int.emod_nonneg _ hn.ne', Int.emod_lt_of_pos _ hn⟩
        · exact i2 w hw

/-- **C70** Views lie in the same space as draws: the responses have the shape of the masks and are below the modulus, there is
one bit per comparison and one opened number below the modulus per comparison of party one's elements. -/
theorem C70_zero_range (K : Keys p0 q0 p1 q1 mont k0 k1) (ro : List UInt8 → Nat) (h : Nat → List Bool) (hh : ∀ e, (h e).length = 256)
    (B stash node : Nat) (ds : List DayDelIn) (d : DayDelIn) (hA : DelAdmissible B (p0 * q0) (p1 * q1) (ds ++ [d])) (s : StDel)
    (hr : runDelDays ro mont h k0 k1 stash node ds = .ok s) (V : DelView)
    (hV : viewDel ro mont h k0 k1 s d.xs d.ys d.coins = .ok V) :
    V.out.resp0.map List.length = (dayDelSizes stash node h ds d).cands1 ∧
    (∀ y ∈ V.out.resp0, ∀ v ∈ y, 0 ≤ v ∧ v < ((p0 * q0 : Nat) : Int)) ∧
    (V.f1.map GcView.bob).length = (dayDelSizes stash node h ds d).cands0.sum ∧
    (V.f2.map GcView.bob).length = (dayDelSizes stash node h ds d).cands1.sum ∧
    (V.f2.map GcView.opened).length = (dayDelSizes stash node h ds d).cands1.sum ∧
    (∀ v ∈ V.f2.map GcView.opened, 0 ≤ v ∧ v < ((p0 * q0 : Nat) : Int)) := by
  obtain ⟨hI, sX⟩ := day_inv K hh hA hr
  have hw := hA.coins d (by simp)
  have eX : delX (ds ++ [d]) = delX ds ++ d.xs := by simp [delX]
  have eY : delY (ds ++ [d]) = delY ds ++ d.ys := by simp [delY]
  obtain ⟨l0, l1⟩ := view_sizes K hh hA hr (ρ := d.coins) rfl rfl hV
  simp only [viewDel, Outcome.bind_eq_ok, Outcome.pure_eq, Outcome.ok.injEq] at hV
  obtain ⟨⟨a, m1, g0⟩, e1, ⟨b, m2, r1, g1⟩, e2, ⟨c, r0⟩, e3, f1, e4, f2, e5, rfl⟩ := hV
  simp only [delGenI, Outcome.bind_eq_ok, Outcome.pure_eq, Outcome.ok.injEq, Prod.mk.injEq, Prod.exists] at e1
  obtain ⟨u0, hu0, gs0, ws0, hc0, rfl, rfl, rfl⟩ := e1
  simp only [delGenII, Outcome.bind_eq_ok, Outcome.pure_eq, Outcome.ok.injEq, Prod.mk.injEq, Prod.exists] at e2
  obtain ⟨o1, ho1, ys1, hy1, u1, hu1, gs1, ws1, hc1, rfl, rfl, rfl, rfl⟩ := e2
  simp only [delRecvII, Outcome.bind_eq_ok, Outcome.pure_eq, Outcome.ok.injEq, Prod.mk.injEq] at e3
  obtain ⟨o0, _, z0, hz0, _, rfl⟩ := e3
  have hh' : ∀ e : EP, 256 ≤ ((fun e : EP => h e.1) e).length := fun e => by simp only [hh]; omega
  simp only [List.length_append] at sX
  obtain ⟨a1, a2, a3⟩ := mirror_step (mergeBucket_post h) hh' (isPad := PadP B (p0 * q0)) hw.pads0 hI.wf0 hI.mir0
    hw.hsh0 (by rw [hI.size0]; omega) (fun i j e _ w c hw hc => encPair_spec K.own0 hw hc) hu0 ho1
  obtain ⟨_, a5⟩ := sendUpdate_net hh hI.wf0 hw.hsh0 (by rw [hI.size0]; omega) hu0
  have bX : ∀ e ∈ d.xs, e.1 < B := fun e he => hA.x e (by rw [eX]; exact List.mem_append_right _ he)
  have bY : ∀ e ∈ d.ys, e.1 < B := fun e he => hA.y e (by rw [eY]; exact List.mem_append_right _ he)
  obtain ⟨c1, c2, c3⟩ := resp_range K.own0 hh hA.bound0 a1 a3 (a5 B bX hI.keys0) bY hw.path1 hc1 hz0
  obtain ⟨_, _, c3'⟩ := resp_range K.own1 hh hA.bound1 hI.wf1 hI.mir1 hI.keys1 bX hw.path0 hc0 hy1
  obtain ⟨d1, d2⟩ := opened_range K.own0 c3 e5
  obtain ⟨d1', _⟩ := opened_range K.own1 c3' e4
  refine ⟨c2.trans l1, c1, ?_, ?_, ?_, ?_⟩
  · rw [List.length_map, d1', flatten_length l0]
  · rw [List.length_map, d1, flatten_length l1]
  · rw [List.length_map, d1, flatten_length l1]
  · intro v hv
    obtain ⟨w, hw, rfl⟩ := List.mem_map.1 hv
    exact d2 w hw

/-- **C70** Party one's views likewise lie in the space of party zero's draws. -/
theorem C70_one_range (K : Keys p0 q0 p1 q1 mont k0 k1) (ro : List UInt8 → Nat) (h : Nat → List Bool) (hh : ∀ e, (h e).length = 256)
    (B stash node : Nat) (ds : List DayDelIn) (d : DayDelIn) (hA : DelAdmissible B (p0 * q0) (p1 * q1) (ds ++ [d])) (s : StDel)
    (hr : runDelDays ro mont h k0 k1 stash node ds = .ok s) (V : DelView)
    (hV : viewDel ro mont h k0 k1 s d.xs d.ys d.coins = .ok V) :
    V.out.resp1.map List.length = (dayDelSizes stash node h ds d).cands0 ∧
    (∀ y ∈ V.out.resp1, ∀ v ∈ y, 0 ≤ v ∧ v < ((p1 * q1 : Nat) : Int)) ∧
    (V.f1.map GcView.opened).length = (dayDelSizes stash node h ds d).cands0.sum ∧
    (∀ v ∈ V.f1.map GcView.opened, 0 ≤ v ∧ v < ((p1 * q1 : Nat) : Int)) := by
  obtain ⟨hI, sX⟩ := day_inv K hh hA hr
  have hw := hA.coins d (by simp)
  have eX : delX (ds ++ [d]) = delX ds ++ d.xs := by simp [delX]
  have eY : delY (ds ++ [d]) = delY ds ++ d.ys := by simp [delY]
  obtain ⟨l0, l1⟩ := view_sizes K hh hA hr (ρ := d.coins) rfl rfl hV
  simp only [viewDel, Outcome.bind_eq_ok, Outcome.pure_eq, Outcome.ok.injEq] at hV
  obtain ⟨⟨a, m1, g0⟩, e1, ⟨b, m2, r1, g1⟩, e2, ⟨c, r0⟩, e3, f1, e4, f2, e5, rfl⟩ := hV
  simp only [delGenI, Outcome.bind_eq_ok, Outcome.pure_eq, Outcome.ok.injEq, Prod.mk.injEq, Prod.exists] at e1
  obtain ⟨u0, hu0, gs0, ws0, hc0, rfl, rfl, rfl⟩ := e1
  simp only [delGenII, Outcome.bind_eq_ok, Outcome.pure_eq, Outcome.ok.injEq, Prod.mk.injEq, Prod.exists] at e2
  obtain ⟨o1, ho1, ys1, hy1, u1, hu1, gs1, ws1, hc1, rfl, rfl, rfl, rfl⟩ := e2
  simp only [delRecvII, Outcome.bind_eq_ok, Outcome.pure_eq, Outcome.ok.injEq, Prod.mk.injEq] at e3
  obtain ⟨o0, _, z0, hz0, _, rfl⟩ := e3
  have bX : ∀ e ∈ d.xs, e.1 < B := fun e he => hA.x e (by rw [eX]; exact List.mem_append_right _ he)
  obtain ⟨c1, c2, c3⟩ := resp_range K.own1 hh hA.bound1 hI.wf1 hI.mir1 hI.keys1 bX hw.path0 hc0 hy1
  obtain ⟨d1, d2⟩ := opened_range K.own1 c3 e4
  refine ⟨c2.trans l0, c1, ?_, ?_⟩
  · rw [List.length_map, d1, flatten_length l0]
  · intro v hv
    obtain ⟨w, hw, rfl⟩ := List.mem_map.1 hv
    exact d2 w hw

/-- **C70** (party zero's view) After every admissible completed history, for every next day and all of its other coins:
what party zero sees in the clear determines everything party one drew to hide its elements.  Since a view consists of as many
numbers below the modulus and as many bits as the draws (`C70_zero_range`), each completed view is as likely as any other. -/
theorem C70_zero_determines (K : Keys p0 q0 p1 q1 mont k0 k1) (ro : List UInt8 → Nat) (h : Nat → List Bool) (hh : ∀ e, (h e).length = 256)
    (B stash node : Nat) (ds : List DayDelIn) (d : DayDelIn) (hA : DelAdmissible B (p0 * q0) (p1 * q1) (ds ++ [d])) (s : StDel)
    (hr : runDelDays ro mont h k0 k1 stash node ds = .ok s)
    (X X' : DrawsOne (dayDelSizes stash node h ds d).cands1 (dayDelSizes stash node h ds d).cands0.sum (p0 * q0)) (V V' : DelView)
    (hV : viewDel ro mont h k0 k1 s d.xs d.ys (redrawOne d.coins X) = .ok V)
    (hV' : viewDel ro mont h k0 k1 s d.xs d.ys (redrawOne d.coins X') = .ok V') (he : seenZero V = seenZero V') : X = X' := by
  have hn := K.own0.primes.n_gt_one
  obtain ⟨hI, sX⟩ := day_inv K hh hA hr
  have hw := hA.coins d (by simp)
  have hw1 : ∀ X : DrawsOne (dayDelSizes stash node h ds d).cands1 (dayDelSizes stash node h ds d).cands0.sum (p0 * q0),
      (redrawOne d.coins X).round.WF B (p0 * q0) (p1 * q1) d.xs d.ys := fun X =>
    ⟨hw.hsh0, hw.hsh1, hw.pads0, hw.pads1, hw.path0, fun i j => maskTape_range hw.path1 X.1 i j⟩
  obtain ⟨l0, l1⟩ := view_sizes K hh hA hr (ρ := redrawOne d.coins X) rfl rfl hV
  obtain ⟨a1, a2, a3, a4⟩ := viewZero_same K hh hI (hw1 X) (hw1 X') sX ⟨rfl, rfl, rfl, rfl⟩ (tape_range hn X.2.2.2) (tape_range hn X'.2.2.2) hV hV' he
  rw [flatten_length l0] at a2
  rw [flatten_length l1] at a3 a4
  rw [l1] at a1
  obtain ⟨x1, x2, x3, x4⟩ := X
  obtain ⟨y1, y2, y3, y4⟩ := X'
  have b1 : x1 = y1 := maskTape_inj (fun i k hk j hj => a1 i k hk j hj)
  have b2 : x2 = y2 := tapeOr_inj a2
  have b3 : x3 = y3 := tapeOr_inj a3
  have b4 : (fun j => (x4 j : Int)) = (fun j => (y4 j : Int)) := tapeOr_inj a4
  have b5 : x4 = y4 := by
    funext j
    have := congrFun b4 j
    simpa [Fin.ext_iff] using this
  rw [b1, b2, b3, b5]

/-- **C70** (party one's view) Likewise what party one sees determines everything party zero drew to hide its elements. -/
theorem C70_one_determines (K : Keys p0 q0 p1 q1 mont k0 k1) (ro : List UInt8 → Nat) (h : Nat → List Bool) (hh : ∀ e, (h e).length = 256)
    (B stash node : Nat) (ds : List DayDelIn) (d : DayDelIn) (hA : DelAdmissible B (p0 * q0) (p1 * q1) (ds ++ [d])) (s : StDel)
    (hr : runDelDays ro mont h k0 k1 stash node ds = .ok s)
    (X X' : DrawsZero (dayDelSizes stash node h ds d).cands0 (p1 * q1)) (V V' : DelView)
    (hV : viewDel ro mont h k0 k1 s d.xs d.ys (redrawZero d.coins X) = .ok V)
    (hV' : viewDel ro mont h k0 k1 s d.xs d.ys (redrawZero d.coins X') = .ok V') (he : seenOne V = seenOne V') : X = X' := by
  have hn := K.own1.primes.n_gt_one
  obtain ⟨hI, sX⟩ := day_inv K hh hA hr
  have hw := hA.coins d (by simp)
  have hw1 : ∀ X : DrawsZero (dayDelSizes stash node h ds d).cands0 (p1 * q1),
      (redrawZero d.coins X).round.WF B (p0 * q0) (p1 * q1) d.xs d.ys := fun X =>
    ⟨hw.hsh0, hw.hsh1, hw.pads0, hw.pads1, fun i j => maskTape_range hw.path0 X.1 i j, hw.path1⟩
  obtain ⟨l0, l1⟩ := view_sizes K hh hA hr (ρ := redrawZero d.coins X) rfl rfl hV
  obtain ⟨a1, a2⟩ := viewOne_same K hh hI (hw1 X) (hw1 X') (tape_range hn X.2) (tape_range hn X'.2) hV hV' he
  rw [flatten_length l0] at a2
  rw [l0] at a1
  obtain ⟨x1, x4⟩ := X
  obtain ⟨y1, y4⟩ := X'
  have b1 : x1 = y1 := maskTape_inj (fun i k hk j hj => a1 i k hk j hj)
  have b4 : (fun j => (x4 j : Int)) = (fun j => (y4 j : Int)) := tapeOr_inj a2
  have b5 : x4 = y4 := by
    funext j
    have := congrFun b4 j
    simpa [Fin.ext_iff] using this
  rw [b1, b5]

end Upsi.View
