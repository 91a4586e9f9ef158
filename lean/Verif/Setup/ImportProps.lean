import Verif.Setup.ImportLemmas
/-
Property theorems C60: the addition-only protocols started from trees generated by the setup program.
-/
namespace Upsi.Setup
open Upsi Upsi.ElGamal Upsi.Tree Upsi.Tree.Props Upsi.Num Upsi.Proto

variable {γ κ P σ G : Type} [AddCommGroup G] [DecidableEq G]

/-- A history after an import is admissible, given the initial sets: elements (old and new) are below `B`
and paddings in `[B, q)`, each party holds fewer than `2^30` elements in all, shuffles permute, and masks
are non-zero. -/
structure AdmissibleFrom (S : Setup G) (key : P → Nat) (B : Nat) (X0 : List P) (Y0 : List Nat)
    (ds : List (DayIn G P κ)) : Prop where
  bound : B ≤ S.q
  coins : ∀ d ∈ ds, d.coins.WF S key B (fun t => NonZero S (t 0)) d.xs d.ys
  x : ∀ p ∈ X0 ++ allX ds, key p < B
  y : ∀ y ∈ Y0 ++ allY ds, y < B
  sizeX : (X0 ++ allX ds).length < 2 ^ 30
  sizeY : (Y0 ++ allY ds).length < 2 ^ 30

/-- The files of both parties after `addition/setup.cc` ran with initial sets `X0`, `Y0` for a
functionality other than secret sharing (addition/setup.cc:82-98). -/
structure SetupFiles (S : Setup G) (c : Codec G) (hashOf : Nat → List Bool) (B stash node : Nat)
    (X0 : List (Nat × Int)) (Y0 : List Nat) (f0 f1 : TreeFiles) (lost0 : List (Nat × Int)) (lost1 : List Nat) :
    Prop where
  ex0 : ∃ ρ : TreeCoins (Nat × Int), ρ.WF Prod.fst B S.q X0 ∧
    genAdd0 c hashOf S.pk stash node X0 ρ = .ok (f0, lost0)
  ex1 : ∃ ρ : TreeCoins Nat, ρ.WF id B S.q Y0 ∧ genAdd1 c hashOf S.pk stash node Y0 ρ = .ok (f1, lost1)

/-- The same for a setup with functionality secret sharing; `a` is party zero's Paillier object. -/
structure SetupFilesSS (S : Setup G) (c : Codec G) (mont : Int → Option Mont) (a : TPaillier)
    (hashOf : Nat → List Bool) (B stash node : Nat)
    (X0 : List (Nat × Int)) (Y0 : List Nat) (f0 f1 : TreeFiles) (lost0 : List (Nat × Int)) (lost1 : List Nat) :
    Prop where
  ex0 : ∃ ρ : TreeCoins (Nat × Int), ρ.WF Prod.fst B S.q X0 ∧
    genAdd0SS c mont a hashOf S.pk stash node X0 ρ = .ok (f0, lost0)
  ex1 : ∃ ρ : TreeCoins Nat, ρ.WF id B S.q Y0 ∧ genAdd1 c hashOf S.pk stash node Y0 ρ = .ok (f1, lost1)

/-! ### import succeeds and establishes the invariant -/

theorem import1 (S : Setup G) {c : Codec G} {hashOf : Nat → List Bool} (hh : ∀ e, (hashOf e).length = 256)
    {B stash node : Nat} {Y0 : List Nat} {ρ : TreeCoins Nat}
    (hρ : ρ.WF id B S.q Y0) (hsz : Y0.length < 2 ^ 30) {fs : TreeFiles} {lost : List Nat}
    (h : genAdd1 c hashOf S.pk stash node Y0 ρ = .ok (fs, lost)) :
    ∃ r, deserializeEnc (deserTreeCt c) fs.enc = .ok r ∧
      Imported (P := Nat) id hashOf (fun (y : Nat) x => S.dec x = (y : Int) • S.g) B S.q Y0
        (deserialize decNat fs.plain) r lost :=
  gen1_imported hh (pk := S.pk) (sk := S.sk0 + S.sk1) rfl hρ hsz h

/-- Cardinality and PSI parties read the files of either kind of setup. -/
theorem import_noPayload (S : Setup G) {c : Codec G} {hashOf : Nat → List Bool} (hh : ∀ e, (hashOf e).length = 256)
    {B stash node : Nat} {X0 : List (Nat × Int)} {Y0 : List Nat} {f0 f1 : TreeFiles} {lost0 : List (Nat × Int)}
    {lost1 : List Nat} (hf : SetupFiles S c hashOf B stash node X0 Y0 f0 f1 lost0 lost1)
    (hX : X0.length < 2 ^ 30) (hY : Y0.length < 2 ^ 30) (cu : Codec G) :
    ∃ s0 s1, importAdd c decNat (deserTreeCt c) f0 f1 (lost0.map Prod.fst) lost1 = .ok (s0, s1) ∧
      s0.lost = lost0.map Prod.fst ∧ s1.lost = lost1 ∧
      Inv S (funcCA c) (fun _ _ => True) hashOf B (X0.map Prod.fst) Y0 s0 s1 ∧
      Inv S (funcPSI c cu) (fun p k => S.dec k = (p : Int) • S.g) hashOf B (X0.map Prod.fst) Y0 s0 s1 := by
  obtain ⟨ρ0, w0, g0⟩ := hf.ex0
  obtain ⟨ρ1, w1, g1⟩ := hf.ex1
  obtain ⟨⟨r0, e0, i0⟩, _⟩ := gen0_imported S hh w0 hX g0
  obtain ⟨r1, e1, i1⟩ := import1 S hh w1 hY g1
  obtain ⟨s0, s1, h1, h2, h3, h4⟩ := importAdd_inv (S := S) (F := funcPSI c cu)
    (Pay := fun p k => S.dec k = (p : Int) • S.g) e0 e1
    ⟨i0.wf, i0.size, i0.all, ⟨i0.mir.depth, i0.mir.size, i0.mir.count, fun u => by
      obtain ⟨pads, a1, a2⟩ := i0.mir.node u
      exact ⟨pads, a1, a2.imp (fun _ _ h => ⟨h, h⟩)⟩⟩⟩ i1
  refine ⟨s0, s1, h1, h2, h3, ⟨h4.wf0, h4.wf1, h4.size0, h4.size1, h4.all0, h4.all1,
    ⟨h4.mir0.depth, h4.mir0.size, h4.mir0.count, fun u => ?_⟩, h4.mir1⟩, h4⟩
  obtain ⟨pads, a1, a2⟩ := h4.mir0.node u
  exact ⟨pads, a1, a2.imp (fun _ _ h => ⟨h.1, trivial⟩)⟩

/-! ### one day, relative to the starting point -/

theorem dayCA_step {S : Setup G} {c : Codec G} {hashOf : Nat → List Bool}
    (hh : ∀ e, (hashOf e).length = 256) {B : Nat} {X Y : List Nat} {s s' : StCA G} {d : DayIn G Nat Unit}
    (hI : Inv S (funcCA c) (fun _ _ => True) hashOf B X Y s.p0 s.p1)
    (hd : Admissible S id B (fun t => NonZero S (t 0)) [d])
    (hX : ∀ p ∈ X ++ d.xs, (funcCA c).key p < B) (hY : ∀ y ∈ Y ++ d.ys, y < B)
    (tX : (X ++ d.xs).length < 2 ^ 30) (tY : (Y ++ d.ys).length < 2 ^ 30)
    (hs : dayCA c hashOf S.pk S.sk0 S.sk1 s d.xs d.ys d.coins = .ok s') :
    Inv S (funcCA c) (fun _ _ => True) hashOf B (X ++ d.xs) (Y ++ d.ys) s'.p0 s'.p1 ∧
    s.p0.lost <+: s'.p0.lost ∧ s.p1.lost <+: s'.p1.lost ∧
    (s'.p0.lost = [] → s'.p1.lost = [] →
      s'.cardinality + (matched id X Y).length = s.cardinality + (matched id (X ++ d.xs) (Y ++ d.ys)).length) := by
  simp only [dayCA, Outcome.bind_eq_ok, Outcome.pure_eq, Outcome.ok.injEq] at hs
  obtain ⟨⟨p0, p1, cands⟩, he, rfl⟩ := hs
  obtain ⟨k1, k2, k3, k4⟩ := exchange_spec (funcCA_ok S c) c hh hd.bound hI
    (hd.coins d (by simp)) hX hY tX tY he
  refine ⟨k1, k2, k3, fun l0 l1 => ?_⟩
  obtain ⟨ms, hp, hf⟩ := k4 l0 l1
  simp only
  rw [countLoop_eq, ← hf.length_eq, hp.length_eq, (matched_step id X d.xs Y d.ys).length_eq]
  simp [funcCA]
  omega

/-- A run of the cardinality protocol from given trees (addition/run.cc:50-110 with `import`). -/
def runCAFrom (S : Setup G) (c : Codec G) (hashOf : Nat → List Bool) (s : StCA G)
    (ds : List (DayIn G Nat Unit)) : Outcome (StCA G) :=
  runDays (fun s d => dayCA c hashOf S.pk S.sk0 S.sk1 s d.xs d.ys d.coins) s ds

theorem runCAFrom_spec {S : Setup G} {c : Codec G} {hashOf : Nat → List Bool}
    (hh : ∀ e, (hashOf e).length = 256) {B : Nat} {X0 Y0 : List Nat} {ds : List (DayIn G Nat Unit)}
    (hA : AdmissibleFrom S id B X0 Y0 ds) {s s' : StCA G}
    (hI : Inv S (funcCA c) (fun _ _ => True) hashOf B X0 Y0 s.p0 s.p1)
    (h : runCAFrom S c hashOf s ds = .ok s') (l0 : s'.p0.lost = []) (l1 : s'.p1.lost = []) :
    s'.cardinality + (matched id X0 Y0).length =
      s.cardinality + (matched id (X0 ++ allX ds) (Y0 ++ allY ds)).length := by
  refine (runDays_spec (S := S) (F := funcCA c) (Pay := fun _ _ => True)
    (Good := fun t => NonZero S (t 0)) (hashOf := hashOf) (B := B) (st0 := StCA.p0) (st1 := StCA.p1)
    (Out := fun X Y t => t.cardinality + (matched id X0 Y0).length = s.cardinality + (matched id X Y).length)
    ?_ ds X0 Y0 s s' hI hA.bound hA.coins hA.x hA.y hA.sizeX hA.sizeY h).2.2.2 l0 l1 rfl
  intro X Y t t' d hI hd hX hY tX tY hs
  obtain ⟨k1, k2, k3, k4⟩ := dayCA_step hh hI hd hX hY tX tY hs
  refine ⟨k1, k2, k3, fun l0 l1 ho => ?_⟩
  have := k4 l0 l1
  omega

/-- **C60** (cardinality) When both parties import the trees generated by the setup program, the import
succeeds, and if all days are then processed without error and nothing was lost to stash overflow, the
reported cardinality is exactly the number of common elements that were not already common at the start. -/
theorem C60_cardinality (S : Setup G) (c : Codec G) (hashOf : Nat → List Bool)
    (hh : ∀ e, (hashOf e).length = 256) (B stash node : Nat) (X0 : List (Nat × Int)) (Y0 : List Nat)
    (f0 f1 : TreeFiles) (lost0 : List (Nat × Int)) (lost1 : List Nat)
    (hf : SetupFiles S c hashOf B stash node X0 Y0 f0 f1 lost0 lost1) (ds : List (DayIn G Nat Unit))
    (hA : AdmissibleFrom S id B (X0.map Prod.fst) Y0 ds)
    (nX : (X0.map Prod.fst ++ allX ds).Nodup) (nY : (Y0 ++ allY ds).Nodup) :
    ∃ s0 s1, importAdd c decNat (deserTreeCt c) f0 f1 (lost0.map Prod.fst) lost1 = .ok (s0, s1) ∧
      ∀ s', runCAFrom S c hashOf ⟨s0, s1, 0⟩ ds = .ok s' → s'.p0.lost = [] → s'.p1.lost = [] →
        s'.cardinality + ((X0.map Prod.fst).toFinset ∩ Y0.toFinset).card =
          ((X0.map Prod.fst ++ allX ds).toFinset ∩ (Y0 ++ allY ds).toFinset).card := by
  have t1 := hA.sizeX
  have t2 := hA.sizeY
  simp only [List.length_append, List.length_map] at t1 t2
  obtain ⟨s0, s1, h1, _, _, h4, _⟩ := import_noPayload S hh hf (by omega) (by omega) c
  refine ⟨s0, s1, h1, fun s' hr l0 l1 => ?_⟩
  have := runCAFrom_spec hh hA (s := ⟨s0, s1, 0⟩) h4 hr l0 l1
  rw [matched_card _ _ nX nY, matched_card _ _ (List.nodup_append.1 nX).1 (List.nodup_append.1 nY).1] at this
  simpa using this

/-! ### PSI -/

/-- A run of the PSI protocol from given trees. -/
def runPSIFrom (S : Setup G) (c cu : Codec G) (hashOf : Nat → List Bool) (s : StPSI G)
    (ds : List (DayIn G Nat (Ct G))) : Outcome (StPSI G) :=
  runDays (fun s d => dayPSI c cu hashOf S.pk S.sk0 S.sk1 s d.xs d.ys d.coins) s ds

/-- The output loop appends what the map holds for every match. -/
theorem psiLoop_lookup (S : Setup G) (cu : Codec G) (m : Mapping) (l : List (Ct G × Ct G)) :
    ∀ (ms : List Nat) (out out' : List (Option Nat)),
    List.Forall₂ (fun p x => decrypt S.sk0 x.2 = ((p : Nat) : Int) • S.g) ms
      (l.filter (fun x => decrypt S.sk0 x.1 = 0)) →
    psiLoop cu S.sk0 m l out = .ok out' →
    out' = out ++ ms.map (fun p : Nat => m.lookup (cu.enc ((p : Int) • S.g))) ∧ ∀ p ∈ ms, ((p : Int) • S.g) ≠ 0 := by
  induction l with
  | nil =>
    intro ms out out' h h'
    simp only [psiLoop, Outcome.ok.injEq] at h'
    simp only [List.filter_nil, List.forall₂_nil_right_iff] at h
    subst h h'; simp
  | cons x l ih =>
    intro ms out out' h h'
    unfold psiLoop at h'
    by_cases hx : decrypt S.sk0 x.1 = 0
    · rw [if_pos hx] at h'
      simp only [Outcome.bind_eq_ok] at h'
      obtain ⟨k, hk, h'⟩ := h'
      simp only [hx, decide_true, List.filter_cons_of_pos] at h
      cases h with
      | cons h1 h2 =>
        rename_i p ps
        simp only [pointToBytes, h1] at hk
        by_cases h0 : ((p : Int) • S.g) = 0
        · rw [if_pos h0] at hk; simp at hk
        rw [if_neg h0] at hk
        simp only [Outcome.ok.injEq] at hk
        subst hk
        obtain ⟨k1, k2⟩ := ih ps _ _ h2 h'
        refine ⟨by rw [k1]; simp, ?_⟩
        intro r hr
        rcases List.mem_cons.1 hr with rfl | hr
        · exact h0
        · exact k2 r hr
    · rw [if_neg hx] at h'
      simp only [hx, decide_false, Bool.false_eq_true, not_false_eq_true, List.filter_cons_of_neg] at h
      exact ih ms out out' h h'

theorem lookup_none (S : Setup G) (cu : Codec G) (X : List Nat) (hX : ∀ x ∈ X, x < S.q) (m : Mapping)
    (hm : MapOK S cu X m) (x : Nat) (hx : x ∉ X) (hlt : x < S.q) (h0 : (x : Int) • S.g ≠ 0) :
    m.lookup (cu.enc ((x : Int) • S.g)) = none := by
  rw [List.lookup_eq_none_iff]
  intro e he
  obtain ⟨h1, h2⟩ := hm.2 e he
  simp only [bne_iff_ne, ne_eq, beq_iff_eq] at *
  intro heq
  rw [h2] at heq
  have := enc_inj cu h0 (hm.1 _ h1).1 heq
  have := (S.smul_eq_iff hlt (hX _ h1)).1 (by rw [this]; simp)
  exact hx (this ▸ h1)

/-- What the PSI party zero prints for a common element: its decimal string if it was added during the
run, the empty string (`none`) if it was imported. -/
def label (X0 : List Nat) (x : Nat) : Option Nat := if x ∈ X0 then none else some x

theorem dayPSI_step {S : Setup G} {c cu : Codec G} {hashOf : Nat → List Bool}
    (hh : ∀ e, (hashOf e).length = 256) {B : Nat} {X0 Xn Y : List Nat} {s s' : StPSI G} {d : DayIn G Nat (Ct G)}
    (hI : Inv S (funcPSI c cu) (fun p k => S.dec k = (p : Int) • S.g) hashOf B (X0 ++ Xn) Y s.p0 s.p1)
    (hd : Admissible S id B (fun t => NonZero S (t 0)) [d])
    (hX : ∀ p ∈ (X0 ++ Xn) ++ d.xs, p < B) (hY : ∀ y ∈ Y ++ d.ys, y < B)
    (tX : ((X0 ++ Xn) ++ d.xs).length < 2 ^ 30) (tY : (Y ++ d.ys).length < 2 ^ 30)
    (hn : ∀ x ∈ X0, x ∉ Xn ++ d.xs) (hm : MapOK S cu Xn s.mapping)
    (hs : dayPSI c cu hashOf S.pk S.sk0 S.sk1 s d.xs d.ys d.coins = .ok s') :
    Inv S (funcPSI c cu) (fun p k => S.dec k = (p : Int) • S.g) hashOf B ((X0 ++ Xn) ++ d.xs) (Y ++ d.ys) s'.p0 s'.p1 ∧
    s.p0.lost <+: s'.p0.lost ∧ s.p1.lost <+: s'.p1.lost ∧ MapOK S cu (Xn ++ d.xs) s'.mapping ∧
    (s'.p0.lost = [] → s'.p1.lost = [] → ∃ ms : List Nat, ms.Perm (matched id d.xs Y ++ matched id ((X0 ++ Xn) ++ d.xs) d.ys) ∧
      s'.intersection = s.intersection ++ ms.map (label X0)) := by
  simp only [dayPSI, Outcome.bind_eq_ok, Outcome.pure_eq, Outcome.ok.injEq] at hs
  obtain ⟨m, hm', ⟨p0, p1, cands⟩, he, out, hout, rfl⟩ := hs
  obtain ⟨k1, k2, k3, k4⟩ := exchange_spec (funcPSI_ok S c cu) c hh hd.bound hI
    (hd.coins d (by simp)) hX hY tX tY he
  have hmm := recordAll_ok S cu d.xs Xn _ _ hm hm'
  refine ⟨k1, k2, k3, hmm, fun l0 l1 => ?_⟩
  obtain ⟨ms, hp, hf⟩ := k4 l0 l1
  obtain ⟨j1, j2⟩ := psiLoop_lookup S cu m cands ms _ _ hf hout
  refine ⟨ms, hp, ?_⟩
  simp only
  rw [j1]
  congr 1
  apply List.map_congr_left
  intro p hpm
  have hmem : p ∈ (X0 ++ Xn) ++ d.xs := by
    rcases List.mem_append.1 (hp.subset hpm) with h | h
    · exact List.mem_append_right _ (mem_matched.1 h).1
    · exact (mem_matched.1 h).1
  have hb := hd.bound
  have hlt : ∀ x ∈ Xn ++ d.xs, x < S.q := fun x hx => by
    have := hX x (by rw [List.append_assoc]; exact List.mem_append_right _ hx); omega
  by_cases h0 : p ∈ X0
  · rw [label, if_pos h0]
    exact lookup_none S cu _ hlt m hmm p (hn p h0) (by have := hX p hmem; omega) (j2 p hpm)
  · rw [label, if_neg h0]
    refine lookup_ok S cu _ hlt m hmm p ?_
    rw [List.append_assoc] at hmem
    exact (List.mem_append.1 hmem).resolve_left h0

theorem runPSIFrom_spec {S : Setup G} {c cu : Codec G} {hashOf : Nat → List Bool}
    (hh : ∀ e, (hashOf e).length = 256) {B : Nat} (hB : B ≤ S.q) {X0 : List Nat} (ds : List (DayIn G Nat (Ct G))) :
    ∀ (Xn Y : List Nat) (s s' : StPSI G),
    (∀ d ∈ ds, d.coins.WF S id B (fun t => NonZero S (t 0)) d.xs d.ys) →
    (∀ p ∈ (X0 ++ Xn) ++ allX ds, p < B) → (∀ y ∈ Y ++ allY ds, y < B) →
    ((X0 ++ Xn) ++ allX ds).length < 2 ^ 30 → (Y ++ allY ds).length < 2 ^ 30 →
    (∀ x ∈ X0, x ∉ Xn ++ allX ds) →
    Inv S (funcPSI c cu) (fun p k => S.dec k = (p : Int) • S.g) hashOf B (X0 ++ Xn) Y s.p0 s.p1 →
    MapOK S cu Xn s.mapping → runPSIFrom S c cu hashOf s ds = .ok s' →
    s.p0.lost <+: s'.p0.lost ∧ s.p1.lost <+: s'.p1.lost ∧
    (s'.p0.lost = [] → s'.p1.lost = [] →
      (s'.intersection ++ (matched id (X0 ++ Xn) Y).map (label X0)).Perm
        (s.intersection ++ (matched id ((X0 ++ Xn) ++ allX ds) (Y ++ allY ds)).map (label X0))) := by
  induction ds with
  | nil =>
    intro Xn Y s s' _ _ _ _ _ _ _ _ h
    simp only [runPSIFrom, runDays, Outcome.ok.injEq] at h
    subst h
    simp [allX, allY]
  | cons d ds ih =>
    intro Xn Y s s' hw hX hY tX tY hn hI hm h
    simp only [runPSIFrom, runDays, Outcome.bind_eq_ok] at h
    obtain ⟨s1, h1, h2⟩ := h
    have eX : (X0 ++ Xn) ++ allX (d :: ds) = ((X0 ++ Xn) ++ d.xs) ++ allX ds := by simp [allX]
    have eN : Xn ++ allX (d :: ds) = (Xn ++ d.xs) ++ allX ds := by simp [allX]
    have eY : Y ++ allY (d :: ds) = (Y ++ d.ys) ++ allY ds := by simp [allY]
    rw [eX] at hX tX ⊢
    rw [eY] at hY tY ⊢
    rw [eN] at hn
    have hX1 : ∀ p ∈ (X0 ++ Xn) ++ d.xs, p < B := fun p hp => hX p (List.mem_append_left _ hp)
    have hY1 : ∀ y ∈ Y ++ d.ys, y < B := fun y hy => hY y (List.mem_append_left _ hy)
    have tX1 : ((X0 ++ Xn) ++ d.xs).length < 2 ^ 30 := by
      rw [List.length_append (as := (X0 ++ Xn) ++ d.xs)] at tX; omega
    have tY1 : (Y ++ d.ys).length < 2 ^ 30 := by rw [List.length_append (as := Y ++ d.ys)] at tY; omega
    have hadm : Admissible S id B (fun t => NonZero S (t 0)) [d] := by
      refine ⟨hB, fun e he => by simp at he; subst he; exact hw e (by simp), ?_, ?_, ?_, ?_⟩
      · intro p hp; simp [allX] at hp; exact hX1 p (List.mem_append_right _ hp)
      · intro p hp; simp [allY] at hp; exact hY1 p (List.mem_append_right _ hp)
      · simp [allX] at tX1 ⊢; omega
      · simp [allY] at tY1 ⊢; omega
    obtain ⟨k1, k2, k3, k4, k5⟩ := dayPSI_step hh hI hadm hX1 hY1 tX1 tY1
      (fun x hx hc => hn x hx (List.mem_append_left _ hc)) hm h1
    obtain ⟨j1, j2, j3⟩ := ih (Xn ++ d.xs) (Y ++ d.ys) s1 s' (fun e he => hw e (by simp [he]))
      (by rw [← List.append_assoc X0]; exact hX) hY (by rw [← List.append_assoc X0]; exact tX) tY hn
      (by rw [← List.append_assoc X0]; exact k1) k4 h2
    refine ⟨k2.trans j1, k3.trans j2, fun l0 l1 => ?_⟩
    obtain ⟨ms, hp, hi⟩ := k5 (by rw [l0] at j1; exact List.prefix_nil.1 j1)
      (by rw [l1] at j2; exact List.prefix_nil.1 j2)
    have j := j3 l0 l1
    rw [← List.append_assoc X0, hi] at j
    have hstep := (matched_step id (X0 ++ Xn) d.xs Y d.ys).map (label X0)
    rw [List.map_append] at hstep
    have hms := hp.map (label X0)
    -- cancel the new matches
    have a1 : (s'.intersection ++ ((matched id (X0 ++ Xn) Y).map (label X0) ++ ms.map (label X0))).Perm
        (s.intersection ++ ms.map (label X0) ++
          (matched id ((X0 ++ Xn) ++ d.xs ++ allX ds) (Y ++ d.ys ++ allY ds)).map (label X0)) := by
      refine (List.Perm.append_left _ ?_).trans j
      exact (List.Perm.append_left _ hms).trans hstep.symm
    rw [← List.append_assoc] at a1
    have a2 : (s.intersection ++ ms.map (label X0) ++
          (matched id ((X0 ++ Xn) ++ d.xs ++ allX ds) (Y ++ d.ys ++ allY ds)).map (label X0)).Perm
        ((s.intersection ++ (matched id ((X0 ++ Xn) ++ d.xs ++ allX ds) (Y ++ d.ys ++ allY ds)).map (label X0)) ++
          ms.map (label X0)) := by
      rw [List.append_assoc, List.append_assoc s.intersection]
      exact List.Perm.append_left _ List.perm_append_comm
    exact (List.perm_append_right_iff _).1 (a1.trans a2)

/-- **C60** (plain intersection) After importing the trees generated by the setup program (the import
succeeds), if all days are processed without error and nothing was lost, party zero prints one line for
each common element that was not already common at the start – but the line is the element itself only for
elements party zero added during the run: for an element it imported the line is empty, because the table
from curve points to elements is not part of the import. -/
theorem C60_psi (S : Setup G) (c cu : Codec G) (hashOf : Nat → List Bool)
    (hh : ∀ e, (hashOf e).length = 256) (B stash node : Nat) (X0 : List (Nat × Int)) (Y0 : List Nat)
    (f0 f1 : TreeFiles) (lost0 : List (Nat × Int)) (lost1 : List Nat)
    (hf : SetupFiles S c hashOf B stash node X0 Y0 f0 f1 lost0 lost1) (ds : List (DayIn G Nat (Ct G)))
    (hA : AdmissibleFrom S id B (X0.map Prod.fst) Y0 ds)
    (nX : (X0.map Prod.fst ++ allX ds).Nodup) (nY : (Y0 ++ allY ds).Nodup) :
    ∃ s0 s1, importAdd c decNat (deserTreeCt c) f0 f1 (lost0.map Prod.fst) lost1 = .ok (s0, s1) ∧
      ∀ s', runPSIFrom S c cu hashOf ⟨s0, s1, [], []⟩ ds = .ok s' → s'.p0.lost = [] → s'.p1.lost = [] →
        (s'.intersection ++ ((X0.map Prod.fst).filter (fun x => x ∈ Y0)).map (fun _ => none)).Perm
          (((X0.map Prod.fst).filter (fun x => x ∈ Y0 ++ allY ds)).map (fun _ => none) ++
            ((allX ds).filter (fun x => x ∈ Y0 ++ allY ds)).map some) := by
  have t1 := hA.sizeX
  have t2 := hA.sizeY
  simp only [List.length_append, List.length_map] at t1 t2
  obtain ⟨s0, s1, h1, _, _, _, h4⟩ := import_noPayload S hh hf (by omega) (by omega) cu
  refine ⟨s0, s1, h1, fun s' hr l0 l1 => ?_⟩
  have hdj := List.disjoint_of_nodup_append nX
  have := (runPSIFrom_spec hh hA.bound (X0 := X0.map Prod.fst) ds [] Y0 ⟨s0, s1, [], []⟩ s' hA.coins
    (by simpa using hA.x) hA.y (by simpa using hA.sizeX) hA.sizeY (fun x hx hc => hdj hx (by simpa using hc))
    (by simpa using h4) ⟨by simp, by simp⟩ hr).2.2 l0 l1
  simp only [List.append_nil, List.nil_append] at this
  rw [matched_eq_filter id _ _ nY, matched_eq_filter id _ _ (List.nodup_append.1 nY).1] at this
  simp only [id] at this
  have e1 : ∀ (L : List Nat), ((X0.map Prod.fst).filter (fun x => decide (x ∈ L))).map (label (X0.map Prod.fst)) =
      ((X0.map Prod.fst).filter (fun x => decide (x ∈ L))).map (fun _ => none) := by
    intro L
    apply List.map_congr_left
    intro x hx
    rw [label, if_pos (List.mem_filter.1 hx).1]
  have e2 : ((allX ds).filter (fun x => decide (x ∈ Y0 ++ allY ds))).map (label (X0.map Prod.fst)) =
      ((allX ds).filter (fun x => decide (x ∈ Y0 ++ allY ds))).map some := by
    apply List.map_congr_left
    intro x hx
    rw [label, if_neg (fun hc => hdj hc (List.mem_filter.1 hx).1)]
  rw [List.filter_append, List.map_append, e1, e1, e2] at this
  exact this

end Upsi.Setup
