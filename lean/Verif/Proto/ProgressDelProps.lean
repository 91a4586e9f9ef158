import Verif.Proto.ProgressDel
import Verif.Proto.DelPsiProps
/-
Property theorems C63 for the protocols with deletions: a run between honest parties never returns an error and never
aborts; the only undefined behaviour reachable is the one of hashes shorter than nine bytes (C34) and, for
intersections, of negating the most negative number.
-/
namespace Upsi.Proto
open Upsi Upsi.Tree Upsi.Tree.Props Upsi.Num Upsi.Paillier

variable {mont : Int → Option Mont} {p0 q0 p1 q1 : Nat} {k0 k1 : DKeys}

theorem ShortHash.mono {ro : List UInt8 → Nat} {n m : Nat} (h : ShortHash ro n) (hn : n ≤ m) : ShortHash ro m := by
  obtain ⟨x, h1, h2⟩ := h
  exact ⟨x, by omega, h2⟩

theorem forall₂_flatten {α β : Type} {R : α → β → Prop} {l : List (List α)} {m : List (List β)}
    (h : List.Forall₂ (List.Forall₂ R) l m) : List.Forall₂ R l.flatten m.flatten := by
  induction h with
  | nil => exact .nil
  | cons h1 _ ih => simp only [List.flatten_cons]; exact List.rel_append h1 ih

/-- The coins of a day lie in ranges in which no encryption is refused: the `alpha`s are at least the element bound,
the `beta`s are not zero, everything else is as the code draws it. -/
structure DelCoins.Usable (B n0 n1 : Nat) (ρ : DelCoins) : Prop where
  round : ρ.round.Usable B n0 n1
  gc0 : ρ.gc0.Usable n1
  gc1 : ρ.gc1.Usable n0

theorem dayDel_ends (K : Keys p0 q0 p1 q1 mont k0 k1) {ro : List UInt8 → Nat} {h : Nat → List Bool}
    (hh : ∀ e, (h e).length = 256) {B : Nat} (hB0 : B ≤ p0 * q0) (hB1 : B ≤ p1 * q1)
    {X Y xs ys : List EP} {s : StDel} (hI : DInv h B (p0 * q0) (p1 * q1) X Y s.p0 s.p1) {stash : Nat}
    (hf0 : DFit stash X s.p0) (hf1 : DFit stash Y s.p1)
    {ρ : DelCoins} (hρ : ρ.round.WF B (p0 * q0) (p1 * q1) xs ys) (hu : ρ.Usable B (p0 * q0) (p1 * q1))
    (hX : ∀ e ∈ xs, e.1 < B) (hY : ∀ e ∈ ys, e.1 < B)
    (tX : (X ++ xs).length < 2 ^ 30) (tY : (Y ++ ys).length < 2 ^ 30)
    (mX0 : absMass (X ++ xs) < p0 * q0) (mX1 : absMass (X ++ xs) < p1 * q1)
    (mY0 : absMass (Y ++ ys) < p0 * q0) (mY1 : absMass (Y ++ ys) < p1 * q1) :
    (dayDel ro mont h k0 k1 s xs ys ρ).Ends (ShortHash ro (max (p0 * q0) (p1 * q1))) (fun s' =>
      DInv h B (p0 * q0) (p1 * q1) (X ++ xs) (Y ++ ys) s'.p0 s'.p1 ∧ DFit stash (X ++ xs) s'.p0 ∧ DFit stash (Y ++ ys) s'.p1) := by
  obtain ⟨t0, t1, o, e1, e2, e3, e4, e5⟩ := round_total K hh hB0 hB1 hI hf0 hf1 hρ hu.round hX hY tX tY mX0 (by omega) (by omega) mY1
  obtain ⟨i1, _⟩ := round_spec K hh hB0 hB1 hI hρ hX hY tX tY e1
  unfold dayDel
  rw [e1, Outcome.bind_ok]
  refine ((gcPhase_ends K.own1 hu.gc0 (forall₂_flatten e4)).mono (fun hs => hs.mono (le_max_right _ _)) (fun _ _ h => h)).bind
    fun f1 _ _ => ?_
  refine ((gcPhase_ends K.own0 hu.gc1 (forall₂_flatten e5)).mono (fun hs => hs.mono (le_max_left _ _)) (fun _ _ h => h)).bind
    fun f2 _ _ => ?_
  exact ⟨i1, e2, e3⟩

theorem runDel_ends (K : Keys p0 q0 p1 q1 mont k0 k1) {ro : List UInt8 → Nat} {h : Nat → List Bool}
    (hh : ∀ e, (h e).length = 256) {B : Nat} (hB0 : B ≤ p0 * q0) (hB1 : B ≤ p1 * q1) {stash : Nat}
    (ds : List DayDelIn) : ∀ (X Y : List EP) (s : StDel),
    DInv h B (p0 * q0) (p1 * q1) X Y s.p0 s.p1 → DFit stash X s.p0 → DFit stash Y s.p1 →
    (∀ d ∈ ds, d.coins.round.WF B (p0 * q0) (p1 * q1) d.xs d.ys) → (∀ d ∈ ds, d.coins.Usable B (p0 * q0) (p1 * q1)) →
    (∀ e ∈ delX ds, e.1 < B) → (∀ e ∈ delY ds, e.1 < B) →
    (X ++ delX ds).length < 2 ^ 30 → (Y ++ delY ds).length < 2 ^ 30 →
    absMass (X ++ delX ds) < p0 * q0 → absMass (X ++ delX ds) < p1 * q1 →
    absMass (Y ++ delY ds) < p0 * q0 → absMass (Y ++ delY ds) < p1 * q1 →
    (runDays (fun s (d : DayDelIn) => dayDel ro mont h k0 k1 s d.xs d.ys d.coins) s ds).Ends
      (ShortHash ro (max (p0 * q0) (p1 * q1))) (fun s' => DFit stash (X ++ delX ds) s'.p0 ∧ DFit stash (Y ++ delY ds) s'.p1) := by
  induction ds with
  | nil =>
    intro X Y s hI f0 f1 _ _ _ _ _ _ _ _ _ _
    simpa [delX, delY, runDays, Outcome.Ends] using ⟨f0, f1⟩
  | cons d ds ih =>
    intro X Y s hI f0 f1 hw hu hX hY tX tY m1 m2 m3 m4
    have eX : X ++ delX (d :: ds) = (X ++ d.xs) ++ delX ds := by simp [delX]
    have eY : Y ++ delY (d :: ds) = (Y ++ d.ys) ++ delY ds := by simp [delY]
    rw [eX] at tX m1 m2 ⊢
    rw [eY] at tY m3 m4 ⊢
    have tX1 : (X ++ d.xs).length < 2 ^ 30 := by rw [List.length_append (as := X ++ d.xs)] at tX; omega
    have tY1 : (Y ++ d.ys).length < 2 ^ 30 := by rw [List.length_append (as := Y ++ d.ys)] at tY; omega
    have a1 := absMass_append (X ++ d.xs) (delX ds)
    have a2 := absMass_append (Y ++ d.ys) (delY ds)
    simp only [runDays]
    refine (dayDel_ends K hh hB0 hB1 hI f0 f1 (hw d (by simp)) (hu d (by simp))
      (fun e he => hX e (by simp [delX, he])) (fun e he => hY e (by simp [delY, he])) tX1 tY1
      (by omega) (by omega) (by omega) (by omega)).bind fun s1 _ hs1 => ?_
    exact ih _ _ s1 hs1.1 hs1.2.1 hs1.2.2 (fun e he => hw e (by simp [he])) (fun e he => hu e (by simp [he]))
      (fun e he => hX e (by simp only [delX, List.flatMap_cons, List.mem_append] at he ⊢; exact Or.inr he))
      (fun e he => hY e (by simp only [delY, List.flatMap_cons, List.mem_append] at he ⊢; exact Or.inr he)) tX tY m1 m2 m3 m4

/-- **C63** (cardinality and sum with deletions) For every admissible history whose coins are usable and whose
payloads sum up, in absolute value, to less than the moduli, the run ends normally or has undefined behaviour, and
the latter only if the random oracle maps some number below the moduli to a hash shorter than nine bytes: it never
returns an error and never aborts.  When it ends normally, no entry is lost unless a party made more updates than
its stash holds. -/
theorem C63_deletion_only (K : Keys p0 q0 p1 q1 mont k0 k1) (ro : List UInt8 → Nat) (h : Nat → List Bool)
    (hh : ∀ e, (h e).length = 256) (B stash node : Nat) (ds : List DayDelIn)
    (hA : DelAdmissible B (p0 * q0) (p1 * q1) ds) (hu : ∀ d ∈ ds, d.coins.Usable B (p0 * q0) (p1 * q1))
    (mX : mass (delX ds) < min ((p0 * q0 : Nat) : Int) ((p1 * q1 : Nat) : Int))
    (mY : mass (delY ds) < min ((p0 * q0 : Nat) : Int) ((p1 * q1 : Nat) : Int)) :
    (∃ s, runDelDays ro mont h k0 k1 stash node ds = .ok s ∧
      ((delX ds).length ≤ stash → s.p0.lost = []) ∧ ((delY ds).length ≤ stash → s.p1.lost = [])) ∨
    (runDelDays ro mont h k0 k1 stash node ds = .ub ∧
      ∃ x : Nat, x < max (p0 * q0) (p1 * q1) ∧ ro (natBytes x) < 2 ^ 64) := by
  rw [← absMass_eq_mass] at mX mY
  have hends := runDel_ends K (ro := ro) hh hA.bound0 hA.bound1 (stash := stash) ds [] [] (StDel.init stash node)
    (DInv.init h B (p0 * q0) (p1 * q1) stash node) (DFit.init _ _) (DFit.init _ _) hA.coins hu hA.x hA.y
    (by simpa using hA.sizeX) (by simpa using hA.sizeY) (by rw [List.nil_append]; omega) (by rw [List.nil_append]; omega)
    (by rw [List.nil_append]; omega) (by rw [List.nil_append]; omega)
  rcases hends.cases with ⟨s, hs, h1, h2⟩ | ⟨hs, hS⟩
  · exact Or.inl ⟨s, hs, h1.lost, h2.lost⟩
  · exact Or.inr ⟨hs, hS⟩

/-- **C63/C46** If no hash is short and no party makes more updates than its stash holds, the run ends normally; the
number it reports is the inner product unless a hash collided or a share wrapped. -/
theorem C63_deletion_small (K : Keys p0 q0 p1 q1 mont k0 k1) (ro : List UInt8 → Nat) (h : Nat → List Bool)
    (hh : ∀ e, (h e).length = 256) (B stash node : Nat) (ds : List DayDelIn)
    (hA : DelAdmissible B (p0 * q0) (p1 * q1) ds) (hu : ∀ d ∈ ds, d.coins.Usable B (p0 * q0) (p1 * q1))
    (mX : mass (delX ds) < min ((p0 * q0 : Nat) : Int) ((p1 * q1 : Nat) : Int))
    (mY : mass (delY ds) < min ((p0 * q0 : Nat) : Int) ((p1 * q1 : Nat) : Int))
    (b : 2 * (mass (delX ds) * mass (delY ds)) < min ((p0 * q0 : Nat) : Int) ((p1 * q1 : Nat) : Int))
    (sX : (delX ds).length ≤ stash) (sY : (delY ds).length ≤ stash)
    (hro : ∀ x : Nat, x < max (p0 * q0) (p1 * q1) → 2 ^ 64 ≤ ro (natBytes x)) :
    ∃ s, runDelDays ro mont h k0 k1 stash node ds = .ok s ∧
      ((∀ f ∈ s.trace, f.Clean ro) → s.result = UInt64.ofInt (innerProduct (delX ds) (delY ds))) := by
  rcases C63_deletion_only K ro h hh B stash node ds hA hu mX mY with ⟨s, hs, l0, l1⟩ | ⟨_, x, hx, hx'⟩
  · exact ⟨s, hs, fun hc => C46_inner_product K ro h hh B stash node ds hA s hs (l0 sX) (l1 sY) hc (by omega) (by omega)⟩
  · have := hro x hx; omega

/-! ### intersection with deletions -/

theorem gcGroups_ends {p q : Nat} {pk : Public} {sk : Private} (K : KeyPair p q mont pk sk) {ro : List UInt8 → Nat} {aliceSends : Bool}
    {ρ : Nat → GcCoins} (hρ : ∀ i, (ρ i).Usable (p * q)) {gs : List (List Item)} {ys : List (List Int)}
    (h : List.Forall₂ (List.Forall₂ (InOK (p * q))) gs ys) : ∀ i,
    (gcGroups ro mont pk sk aliceSends ρ i gs ys).Ends (ShortHash ro (p * q)) (fun _ => True) := by
  induction h with
  | nil => intro i; trivial
  | cons h1 _ ih =>
    intro i
    simp only [gcGroups]
    exact (gcPhase_ends K (hρ i) h1).bind fun f _ _ => (ih (i + 1)).bind fun fs _ _ => trivial

theorem transmit_total {n b : Nat} (hb : cntBlock n = .ok b) {c m : Int} (h : PEnc n c m) : transmit b c = .ok c := by
  obtain ⟨l, u⟩ := h.bounds
  obtain ⟨bl, e1, _, e2⟩ := C33_block_roundtrip c b l (lt_of_lt_of_le u (cntBlock_spec hb))
  simp only [transmit, e1, Outcome.bind_ok, Outcome.pure_eq, e2]

theorem secondPhase_total {p q : Nat} {pk : Public} {sk : Private} (K : KeyPair p q mont pk sk) (hn : 2 ^ 65 ≤ p * q) {ρ : DelPsiCoins}
    (hsh : ∀ l, (ρ.shuffle l).Perm l) (h0 : ∀ i k, 0 ≤ ρ.enc0 i k) (h1 : ∀ i, 0 ≤ ρ.enc1 i ∧ ρ.enc1 i ≤ ((p * q : Nat) : Int))
    (words : List (UInt64 × UInt64)) : ∃ us, secondPhase mont sk pk ρ words = .ok us := by
  obtain ⟨b0, hb0⟩ : ∃ bs, cntBlock ((p * q : Nat) : Int) = .ok bs := by
    obtain ⟨b, hb, _⟩ := C30_bytes_roundtrip ((p * q : Nat) : Int) (by omega)
    exact ⟨(b.length * 2 + 15) / 16, by unfold cntBlock; rw [hb]; rfl⟩
  unfold secondPhase
  rw [K.priv.ns, pow_one, hb0, Outcome.bind_ok, K.pub.hn, hb0, Outcome.bind_ok, if_neg (by simp)]
  obtain ⟨enc, e1, e2⟩ := forIdx_ok (f := fun i (w : UInt64 × UInt64) => do
      let a ← sk.encrypt mont (w.1.toNat : Int) (ρ.enc0 i 0) (ρ.enc0 i 1)
      let a' ← transmit b0 a
      let b ← pk.encrypt mont (w.2.toNat : Int) (ρ.enc1 i)
      pk.add a' b) (R := fun w c => PEnc (p * q) c ((w.1.toNat : Int) + w.2.toNat)) words (fun i w _ => by
        have l1 := w.1.toNat_lt
        have l2 := w.2.toNat_lt
        obtain ⟨a, ha, _⟩ := K.encPriv_total (m := (w.1.toNat : Int)) (rp := ρ.enc0 i 0) (rq := ρ.enc0 i 1) (by omega) (by omega) (h0 i 0) (h0 i 1)
        have ht := transmit_total hb0 (K.enc_priv ha)
        obtain ⟨b, hb, hb'⟩ := K.encPub_total (m := (w.2.toNat : Int)) (r := ρ.enc1 i) (by omega) (by omega) (h1 i).1 (h1 i).2
        obtain ⟨c, hc, hc'⟩ := K.add_total (K.enc_priv ha) hb'
        exact ⟨c, by simp only [ha, ht, hb, hc, Outcome.bind_ok], hc'⟩) 0
  rw [e1, Outcome.bind_ok]
  have hmem : ∀ c ∈ ρ.shuffle enc, ∃ w : UInt64 × UInt64, PEnc (p * q) c ((w.1.toNat : Int) + w.2.toNat) := by
    intro c hc
    obtain ⟨k, hk, rfl⟩ := List.mem_iff_getElem.1 ((hsh enc).subset hc)
    exact ⟨_, e2.get (by rw [e2.length_eq]; exact hk) hk⟩
  obtain ⟨ds, d1, _⟩ := forIdx_ok (f := fun _ c => do
      let c' ← transmit b0 c
      let d ← sk.decrypt c'
      let d' := if d ≥ 2 ^ 64 then d - 2 ^ 64 else d
      toIntValue d') (R := fun _ _ => True) (ρ.shuffle enc) (fun i c hc => by
        obtain ⟨w, hw⟩ := hmem c hc
        have l1 := w.1.toNat_lt
        have l2 := w.2.toNat_lt
        obtain ⟨d, hd, d0, _⟩ := K.dec_total hw
        have hv := K.dec hw hd
        rw [Int.emod_eq_of_lt (by omega) (by omega)] at hv
        refine ⟨UInt64.ofNat (if d ≥ 2 ^ 64 then d - 2 ^ 64 else d).natAbs, ?_, trivial⟩
        simp only [transmit_total hb0 hw, hd, Outcome.bind_ok, toIntValue]
        rw [if_pos]
        split <;> omega) 0
  rw [d1]
  exact ⟨_, rfl⟩

/-- Usable coins of a day of the intersection protocol with deletions. -/
structure DelPsiCoins.Usable (B n0 n1 : Nat) (ρ : DelPsiCoins) : Prop where
  round1 : ρ.round1.Usable B n0 n1
  round2 : ρ.round2.Usable B n0 n1
  gc0 : ∀ i, (ρ.gc0 i).Usable n1
  gc1 : ∀ i, (ρ.gc1 i).Usable n0
  enc0 : ∀ i k, 0 ≤ ρ.enc0 i k
  enc1 : ∀ i, 0 ≤ ρ.enc1 i ∧ ρ.enc1 i ≤ n0

theorem absMass_split (xs : List EP) : absMass (deletionsOf xs) + absMass (additionsOf xs) = absMass xs := by
  rw [← absMass_append]
  exact ((split_perm xs).map _).sum_eq

theorem pendingOf_ends (K : Keys p0 q0 p1 q1 mont k0 k1) {ro : List UInt8 → Nat} {h : Nat → List Bool}
    (hh : ∀ e, (h e).length = 256) {B : Nat} (hB0 : B ≤ p0 * q0) (hB1 : B ≤ p1 * q1) (hw : 2 ^ 65 ≤ p0 * q0)
    {X Y xs ys : List EP} {s0 s1 : DSt} (hI : DInv h B (p0 * q0) (p1 * q1) X Y s0 s1) {stash : Nat}
    (hf0 : DFit stash X s0) (hf1 : DFit stash Y s1)
    {ρ : DelPsiCoins} (hρ1 : ρ.round1.WF B (p0 * q0) (p1 * q1) (deletionsOf xs) (deletionsOf ys))
    (hρ2 : ρ.round2.WF B (p0 * q0) (p1 * q1) (additionsOf xs) (additionsOf ys))
    (hsh : ∀ l, (ρ.shuffle l).Perm l) (hu : ρ.Usable B (p0 * q0) (p1 * q1))
    (hX : ∀ e ∈ xs, e.1 < B) (hY : ∀ e ∈ ys, e.1 < B)
    (tX : X.length + xs.length < 2 ^ 30) (tY : Y.length + ys.length < 2 ^ 30)
    (mX0 : absMass X + absMass xs < p0 * q0) (mX1 : absMass X + absMass xs < p1 * q1)
    (mY0 : absMass Y + absMass ys < p0 * q0) (mY1 : absMass Y + absMass ys < p1 * q1) :
    (pendingOf ro mont h k0 k1 s0 s1 xs ys ρ).Ends (ShortHash ro (max (p0 * q0) (p1 * q1))) (fun x =>
      DFit stash (X ++ deletionsOf xs ++ additionsOf xs) x.p0 ∧ DFit stash (Y ++ deletionsOf ys ++ additionsOf ys) x.p1) := by
  have lx := (split_perm xs).length_eq
  have ly := (split_perm ys).length_eq
  simp only [List.length_append] at lx ly
  have ax := absMass_split xs
  have ay := absMass_split ys
  have mx : ∀ e, e ∈ deletionsOf xs → e ∈ xs := fun e he => (List.mem_filter.1 he).1
  have mx' : ∀ e, e ∈ additionsOf xs → e ∈ xs := fun e he => (List.mem_filter.1 he).1
  have my : ∀ e, e ∈ deletionsOf ys → e ∈ ys := fun e he => (List.mem_filter.1 he).1
  have my' : ∀ e, e ∈ additionsOf ys → e ∈ ys := fun e he => (List.mem_filter.1 he).1
  obtain ⟨a0, a1, o1, e1, e2, e3, e4, e5⟩ := round_total K hh hB0 hB1 hI hf0 hf1 hρ1 hu.round1 (fun e he => hX e (mx e he))
    (fun e he => hY e (my e he)) (by simp only [List.length_append]; omega) (by simp only [List.length_append]; omega)
    (by rw [absMass_append]; omega) (by rw [absMass_append]; omega) (by rw [absMass_append]; omega) (by rw [absMass_append]; omega)
  obtain ⟨r1, _⟩ := round_spec K hh hB0 hB1 hI hρ1 (fun e he => hX e (mx e he))
    (fun e he => hY e (my e he)) (by simp only [List.length_append]; omega)
    (by simp only [List.length_append]; omega) e1
  obtain ⟨b0, b1, o2, g1, g2, g3, g4, g5⟩ := round_total K hh hB0 hB1 r1 e2 e3 hρ2 hu.round2 (fun e he => hX e (mx' e he))
    (fun e he => hY e (my' e he)) (by simp only [List.length_append]; omega) (by simp only [List.length_append]; omega)
    (by rw [absMass_append, absMass_append]; omega) (by rw [absMass_append, absMass_append]; omega)
    (by rw [absMass_append, absMass_append]; omega) (by rw [absMass_append, absMass_append]; omega)
  unfold pendingOf
  rw [e1, Outcome.bind_ok]
  dsimp only
  rw [g1, Outcome.bind_ok]
  dsimp only
  refine ((gcGroups_ends K.own1 hu.gc0 (List.rel_append e4 g4) 0).mono (fun hs => hs.mono (le_max_right _ _)) (fun _ _ h => h)).bind
    fun f1 _ _ => ?_
  refine ((gcGroups_ends K.own0 hu.gc1 (List.rel_append e5 g5) 0).mono (fun hs => hs.mono (le_max_left _ _)) (fun _ _ h => h)).bind
    fun f2 _ _ => ?_
  obtain ⟨us, hus⟩ := secondPhase_total K.own0 hw hsh hu.enc0 hu.enc1
    (f1.map (fun f => (f.sender, f.receiver)) ++ f2.map (fun f => (f.receiver, f.sender)))
  rw [hus]
  exact ⟨g2, g3⟩

theorem applyUpdates_ends (u : List Int) : ∀ st, (applyUpdates st u).Ends (-2 ^ 63 ∈ u) (fun _ => True) := by
  induction u with
  | nil => intro st; trivial
  | cons a u ih =>
    intro st
    simp only [applyUpdates]
    refine Outcome.Ends.bind (Q := fun _ => True) ?_ fun st' _ _ => (ih st').mono (fun h => List.mem_cons_of_mem _ h) (fun _ _ h => h)
    unfold applyUpdate
    split
    · rename_i h
      exact List.mem_cons.2 (Or.inl h.symm)
    · trivial

/-- The part of a history that was completed, and the numbers party zero was about to process on the next day. -/
def StopsAt (ro : List UInt8 → Nat) (mont : Int → Option Mont) (h : Nat → List Bool) (k0 k1 : DKeys) (s : StDelPsi)
    (ds : List DayPsiIn) (bad : Pending → Prop) : Prop :=
  ∃ pre d post s' x, ds = pre ++ d :: post ∧
    runDays (fun s (d : DayPsiIn) => dayDelPsi ro mont h k0 k1 s d.xs d.ys d.coins) s pre = .ok s' ∧
    pendingOf ro mont h k0 k1 s'.p0 s'.p1 d.xs d.ys d.coins = .ok x ∧ bad x

theorem StopsAt.cons {ro : List UInt8 → Nat} {h : Nat → List Bool} {s s1 : StDelPsi} {d : DayPsiIn} {ds : List DayPsiIn}
    {bad : Pending → Prop} (h1 : dayDelPsi ro mont h k0 k1 s d.xs d.ys d.coins = .ok s1)
    (h2 : StopsAt ro mont h k0 k1 s1 ds bad) : StopsAt ro mont h k0 k1 s (d :: ds) bad := by
  obtain ⟨pre, e, post, s', x, rfl, k1, k2, k3⟩ := h2
  exact ⟨d :: pre, e, post, s', x, rfl, by simp only [runDays, h1, Outcome.bind_ok]; exact k1, k2, k3⟩

theorem runDelPsi_ends (K : Keys p0 q0 p1 q1 mont k0 k1) {ro : List UInt8 → Nat} {h : Nat → List Bool}
    (hh : ∀ e, (h e).length = 256) {B : Nat} (hB0 : 2 * B ≤ p0 * q0) (hB1 : 2 * B ≤ p1 * q1) (hB : B ≤ 2 ^ 63)
    (hwide : 2 ^ 65 ≤ p0 * q0) {v w : Nat → Int}
    (hvw : ∀ k, 0 < k → k < B → 0 < v k ∧ 0 < w k ∧ v k * w k = k) {stash : Nat}
    (ds : List DayPsiIn) : ∀ (X Y : List EP) (A C : Finset Nat) (s : StDelPsi),
    DInv h B (p0 * q0) (p1 * q1) X Y s.p0 s.p1 → DFit stash X s.p0 → DFit stash Y s.p1 → Carries v X A → Carries w Y C →
    (∀ d ∈ ds, d.coins.round1.WF B (p0 * q0) (p1 * q1) (deletionsOf d.xs) (deletionsOf d.ys)) →
    (∀ d ∈ ds, d.coins.round2.WF B (p0 * q0) (p1 * q1) (additionsOf d.xs) (additionsOf d.ys)) →
    (∀ d ∈ ds, ∀ l, (d.coins.shuffle l).Perm l) → (∀ d ∈ ds, d.coins.Usable B (p0 * q0) (p1 * q1)) →
    ValidDays v B A (ds.map (·.xs)) → ValidDays w B C (ds.map (·.ys)) →
    X.length + (ds.flatMap (·.xs)).length < 2 ^ 30 → Y.length + (ds.flatMap (·.ys)).length < 2 ^ 30 →
    absMass X + absMass (ds.flatMap (·.xs)) < p0 * q0 → absMass X + absMass (ds.flatMap (·.xs)) < p1 * q1 →
    absMass Y + absMass (ds.flatMap (·.ys)) < p0 * q0 → absMass Y + absMass (ds.flatMap (·.ys)) < p1 * q1 →
    (runDays (fun s (d : DayPsiIn) => dayDelPsi ro mont h k0 k1 s d.xs d.ys d.coins) s ds).Ends
      (ShortHash ro (max (p0 * q0) (p1 * q1)) ∨ StopsAt ro mont h k0 k1 s ds (fun x => -2 ^ 63 ∈ x.updates ∧
        (X.length + (ds.flatMap (·.xs)).length ≤ stash → Y.length + (ds.flatMap (·.ys)).length ≤ stash →
          ∃ f ∈ x.phases, ¬ f.Clean ro)))
      (fun s' => (X.length + (ds.flatMap (·.xs)).length ≤ stash → s'.p0.lost = []) ∧
        (Y.length + (ds.flatMap (·.ys)).length ≤ stash → s'.p1.lost = [])) := by
  induction ds with
  | nil =>
    intro X Y A C s hI f0 f1 _ _ _ _ _ _ _ _ _ _ _ _ _ _
    simpa [runDays, Outcome.Ends] using ⟨f0.lost, f1.lost⟩
  | cons d ds ih =>
    intro X Y A C s hI f0 f1 cX cY w1 w2 hsh hu v0 v1 tX tY m1 m2 m3 m4
    obtain ⟨v0, v0'⟩ := v0
    obtain ⟨v1, v1'⟩ := v1
    simp only [List.flatMap_cons, List.length_append, absMass_append] at tX tY m1 m2 m3 m4 ⊢
    have lx := (split_perm d.xs).length_eq
    have ly := (split_perm d.ys).length_eq
    simp only [List.length_append] at lx ly
    have ax := absMass_split d.xs
    have ay := absMass_split d.ys
    have hX : ∀ e ∈ d.xs, e.1 < B := fun e he => (v0.range e he).2
    have hY : ∀ e ∈ d.ys, e.1 < B := fun e he => (v1.range e he).2
    have hv : ∀ k, 0 < k → k < B → 0 < v k := fun k a b => (hvw k a b).1
    have hw : ∀ k, 0 < k → k < B → 0 < w k := fun k a b => (hvw k a b).2.1
    have hp := pendingOf_ends K (ro := ro) hh (by omega) (by omega) hwide hI f0 f1 (w1 d (by simp)) (w2 d (by simp))
      (hsh d (by simp)) (hu d (by simp)) hX hY (by omega) (by omega) (by omega) (by omega) (by omega) (by omega)
    simp only [runDays]
    refine Outcome.Ends.bind (Q := fun s1 => DInv h B (p0 * q0) (p1 * q1) (X ++ deletionsOf d.xs ++ additionsOf d.xs)
        (Y ++ deletionsOf d.ys ++ additionsOf d.ys) s1.p0 s1.p1 ∧ DFit stash (X ++ deletionsOf d.xs ++ additionsOf d.xs) s1.p0 ∧
        DFit stash (Y ++ deletionsOf d.ys ++ additionsOf d.ys) s1.p1) ?_ fun s1 hs1 ⟨i1, i2, i3⟩ => ?_
    · rw [dayDelPsi_eq]
      refine (hp.mono Or.inl (fun _ _ h => h)).bind fun x hx ⟨x1, x2⟩ => ?_
      obtain ⟨z1, _, _, z4⟩ := pendingOf_spec K hh hB0 hB1 hB hwide hI (w1 d (by simp)) (w2 d (by simp))
        (hsh d (by simp)) hX hY (by simp only [List.length_append]; omega) (by simp only [List.length_append]; omega) hx
      refine ((applyUpdates_ends x.updates (s.result, s.inter)).mono (fun hbad => ?_) (fun _ _ h => h)).bind fun r _ _ => ⟨z1, x1, x2⟩
      refine Or.inr ⟨[], d, ds, s, x, rfl, rfl, hx, hbad, fun b1 b2 => ?_⟩
      by_contra hcl
      push Not at hcl
      obtain ⟨y1, _, _⟩ := updates_spec hvw v0 v1 cX cY
      have hperm := z4 (x1.lost (by simp only [List.length_append]; omega)) (x2.lost (by simp only [List.length_append]; omega)) hcl y1
      have hmem := (List.mem_filter.1 (hperm.subset hbad)).1
      have := abs_lt.1 (y1 _ hmem)
      omega
    · have lX : (X ++ deletionsOf d.xs ++ additionsOf d.xs).length = X.length + d.xs.length := by
        simp only [List.length_append]; omega
      have lY : (Y ++ deletionsOf d.ys ++ additionsOf d.ys).length = Y.length + d.ys.length := by
        simp only [List.length_append]; omega
      have aX : absMass (X ++ deletionsOf d.xs ++ additionsOf d.xs) = absMass X + absMass d.xs := by
        rw [absMass_append, absMass_append]; omega
      have aY : absMass (Y ++ deletionsOf d.ys ++ additionsOf d.ys) = absMass Y + absMass d.ys := by
        rw [absMass_append, absMass_append]; omega
      have := ih _ _ (after A d.xs) (after C d.ys) s1 i1 i2 i3 (carries_after v0 hv cX)
        (carries_after v1 hw cY) (fun e he => w1 e (by simp [he]))
        (fun e he => w2 e (by simp [he])) (fun e he => hsh e (by simp [he])) (fun e he => hu e (by simp [he])) v0' v1'
        (by omega) (by omega) (by omega) (by omega) (by omega) (by omega)
      rw [lX, lY, Nat.add_assoc X.length, Nat.add_assoc Y.length] at this
      exact this.mono (fun hU => hU.imp id (StopsAt.cons hs1)) (fun _ _ h => h)

/-- **C63** (intersection with deletions) For every admissible history whose coins are usable and whose payloads
sum up, in absolute value, to less than the moduli, the run ends normally or has undefined behaviour; it never
returns an error and never aborts.  Undefined behaviour is possible only if the random oracle maps some number
below the moduli to a hash shorter than nine bytes, or if on some day party zero has to negate `-2^63`; if no
party made more updates than its stash holds, the latter needs a hash collision or a wrapped share on that day. -/
theorem C63_deletion_psi_only (K : Keys p0 q0 p1 q1 mont k0 k1) (ro : List UInt8 → Nat) (h : Nat → List Bool)
    (hh : ∀ e, (h e).length = 256) (v w : Nat → Int) (B stash node : Nat) (ds : List DayPsiIn)
    (hA : PsiAdmissible v w B (p0 * q0) (p1 * q1) ds) (hu : ∀ d ∈ ds, d.coins.Usable B (p0 * q0) (p1 * q1))
    (mX : mass (ds.flatMap (·.xs)) < min ((p0 * q0 : Nat) : Int) ((p1 * q1 : Nat) : Int))
    (mY : mass (ds.flatMap (·.ys)) < min ((p0 * q0 : Nat) : Int) ((p1 * q1 : Nat) : Int)) :
    (∃ s, runDelPsi ro mont h k0 k1 stash node ds = .ok s ∧
      ((ds.flatMap (·.xs)).length ≤ stash → s.p0.lost = []) ∧ ((ds.flatMap (·.ys)).length ≤ stash → s.p1.lost = [])) ∨
    (runDelPsi ro mont h k0 k1 stash node ds = .ub ∧
      ((∃ x : Nat, x < max (p0 * q0) (p1 * q1) ∧ ro (natBytes x) < 2 ^ 64) ∨
        StopsAt ro mont h k0 k1 (StDelPsi.init stash node) ds (fun x => -2 ^ 63 ∈ x.updates ∧
          ((ds.flatMap (·.xs)).length ≤ stash → (ds.flatMap (·.ys)).length ≤ stash → ∃ f ∈ x.phases, ¬ f.Clean ro)))) := by
  rw [← absMass_eq_mass] at mX mY
  have b0 := hA.bound0
  have b1 := hA.bound1
  have e0 : absMass ([] : List EP) = 0 := rfl
  have hends := runDelPsi_ends K (ro := ro) hh hA.bound0 hA.bound1 hA.bound64 hA.wide hA.weights (stash := stash) ds [] [] ∅ ∅
    (StDelPsi.init stash node)
    (DInv.init h B (p0 * q0) (p1 * q1) stash node) (DFit.init _ _) (DFit.init _ _) (fun k => by simp [payloadSum])
    (fun k => by simp [payloadSum]) hA.coins1 hA.coins2 hA.shuffle hu hA.valid0 hA.valid1
    (by simpa using hA.sizeX) (by simpa using hA.sizeY) (by rw [e0]; omega) (by rw [e0]; omega)
    (by rw [e0]; omega) (by rw [e0]; omega)
  simp only [List.length_nil, Nat.zero_add] at hends
  rcases hends.cases with ⟨s, hs, h1, h2⟩ | ⟨hs, hS⟩
  · exact Or.inl ⟨s, hs, h1, h2⟩
  · exact Or.inr ⟨hs, hS⟩

/-- **C63/C47** If no hash is short, no party makes more updates than its stash holds and no hash collides and no
share wraps on any day that is reached, the run ends normally and reports the exact size of the current
intersection. -/
theorem C63_deletion_psi_small (K : Keys p0 q0 p1 q1 mont k0 k1) (ro : List UInt8 → Nat) (h : Nat → List Bool)
    (hh : ∀ e, (h e).length = 256) (v w : Nat → Int) (B stash node : Nat) (ds : List DayPsiIn)
    (hA : PsiAdmissible v w B (p0 * q0) (p1 * q1) ds) (hu : ∀ d ∈ ds, d.coins.Usable B (p0 * q0) (p1 * q1))
    (mX : mass (ds.flatMap (·.xs)) < min ((p0 * q0 : Nat) : Int) ((p1 * q1 : Nat) : Int))
    (mY : mass (ds.flatMap (·.ys)) < min ((p0 * q0 : Nat) : Int) ((p1 * q1 : Nat) : Int))
    (sX : (ds.flatMap (·.xs)).length ≤ stash) (sY : (ds.flatMap (·.ys)).length ≤ stash)
    (hro : ∀ x : Nat, x < max (p0 * q0) (p1 * q1) → 2 ^ 64 ≤ ro (natBytes x))
    (hclean : ∀ pre d post s' x, ds = pre ++ d :: post → runDelPsi ro mont h k0 k1 stash node pre = .ok s' →
      pendingOf ro mont h k0 k1 s'.p0 s'.p1 d.xs d.ys d.coins = .ok x → ∀ f ∈ x.phases, f.Clean ro) :
    ∃ s, runDelPsi ro mont h k0 k1 stash node ds = .ok s ∧ ((∀ f ∈ s.trace, f.Clean ro) →
      s.result.toNat = (holdings ∅ (ds.map (·.xs)) ∩ holdings ∅ (ds.map (·.ys))).card) := by
  rcases C63_deletion_psi_only K ro h hh v w B stash node ds hA hu mX mY with ⟨s, hs, l0, l1⟩ | ⟨_, ⟨x, hx, hx'⟩ | hst⟩
  · exact ⟨s, hs, fun hc => C47_cardinality K ro h hh v w B stash node ds hA s hs (l0 sX) (l1 sY) hc⟩
  · have := hro x hx; omega
  · obtain ⟨pre, d, post, s', x, e, k1, k2, _, k4⟩ := hst
    obtain ⟨f, hf, hnf⟩ := k4 sX sY
    exact absurd (hclean pre d post s' x e k1 k2 f hf) hnf

end Upsi.Proto
