import Verif.Setup.ImportSum
import Verif.Setup.ImportDel
import Verif.Setup.ImportOg
import Verif.Proto.ProgressProps
import Verif.Proto.ProgressSS
import Verif.Proto.ProgressDelProps
import Verif.Proto.ProgressOg
/-
Property theorems C83: from imported trees, too, runs between honest parties never crash.
-/
namespace Upsi.Setup
open Upsi Upsi.ElGamal Upsi.Tree Upsi.Tree.Props Upsi.Num Upsi.Proto Upsi.Paillier

variable {α γ κ P σ G : Type}

/-! ### what a generated tree has room for -/

/-- The tree in the file has the stash size it was made with, and nothing was lost if the initial set fits the stash. -/
theorem gen_fits {hashOf : α → List Bool} (hh : ∀ e, (hashOf e).length = 256) {enc : Tape → α → Outcome EncElem} {deser : EncElem → Outcome γ}
    {ser : γ → Outcome EncElem} {encP : α → Outcome PElem} (dec : PElem → P) {stash node : Nat} {data : List α} {ρ : TreeCoins α}
    (hb : Batch.WF (data, ρ.hsh)) (hsz : data.length < 2 ^ 30) {fs : TreeFiles} {lost : List α}
    (h : generateTrees hashOf id enc deser ser encP stash node data ρ = .ok (fs, lost)) :
    (deserialize dec fs.plain).stashSize = stash ∧ (data.length ≤ stash → lost = []) := by
  simp only [generateTrees, sendUpdate, serialize, Outcome.bind_eq_ok, Outcome.pure_eq, Outcome.ok.injEq, Prod.mk.injEq] at h
  obtain ⟨u, ⟨ri, hri, ws, -, rfl⟩, r, -, p, ⟨ps, -, rfl⟩, e, -, rfl, rfl⟩ := h
  obtain ⟨ri', k1, k2, k3, k4, -⟩ := insertWith_spec (M := Nat) (PostOK.id _)
    (fun e => by rw [hh e]) (fun _ => 0) (fun b => by simp [wsum]) (empty_wf hashOf stash node) hb (by simpa [Tree.empty] using hsz)
  obtain rfl := Outcome.ok.inj (k1.symm.trans hri)
  refine ⟨k4, fun hl => ?_⟩
  exact insertWith_noloss (fun e => by rw [hh e]) (empty_wf hashOf stash node) hb (by simpa [Tree.empty] using hsz)
    (by simpa [Tree.empty, Tree.contents] using hl) hri

/-- The same for the protocols with deletions. -/
theorem gen_fitsDel {h : Nat → List Bool} (hh : ∀ e, (h e).length = 256) {mont : Int → Option Mont} {sk : Private} {stash node : Nat} {data : List EP}
    {ρ : TreeCoins EP} (hb : Batch.WF (data, ρ.hsh)) (hsz : data.length < 2 ^ 30) {fs : TreeFiles} {lost : List EP}
    (hg : genDel mont sk h stash node data ρ = .ok (fs, lost)) (other : Upsi.Tree.Tree (Int × Int)) :
    DFit stash data ⟨deserialize decNatPair fs.plain, other, lost⟩ := by
  obtain ⟨x, h1, h2, h3, -⟩ := generateTrees_import (hashOf := fun e : EP => h e.1)
    (f := fun e : EP => e) (fun e => hh _) (mergeBucket_post h) (Enc := fun _ _ => True) (Enc' := fun _ _ => True)
    (isPad := fun _ => True) (isPad' := fun _ => True) (R := fun c d => d = c) (dec := decNatPair)
    (deser' := deserPair)
    (fun t a w c hw hc => trivial) (fun c w hw => ⟨c, serPair_both hw, rfl⟩)
    (fun a c d hc e => trivial) (fun _ h => trivial) (fun a p hp => (encNatPair_dec hp).1) hb (fun _ _ => trivial) hsz hg
  rw [mapTree_id] at h3
  rw [h3]
  have hh' : ∀ e : EP, 256 ≤ ((fun e : EP => h e.1) e).length := fun e => by simp only [hh]; omega
  have hs : data.length + (Tree.empty stash node : Upsi.Tree.Tree EP).actualSize < 2 ^ 30 := by simpa [Tree.empty] using hsz
  simp only [sendUpdate, Outcome.bind_eq_ok, Outcome.pure_eq, Outcome.ok.injEq] at h1
  obtain ⟨ri, hri, ws, -, rfl⟩ := h1
  obtain ⟨ri', k1, k2, k3, k4, -⟩ := insertWith_spec (M := Nat) (mergeBucket_post h)
    hh' (fun _ => 0) (fun b => by simp [wsum]) (empty_wf _ stash node) hb hs
  obtain rfl := Outcome.ok.inj (k1.symm.trans hri)
  have hw := (insertWith_weight (mergeBucket_post h) hh' (fun e : EP => e.2.natAbs) (fun b => (mergeBucket_weight b).1)
    (empty_wf _ stash node) hb hs hri).1
  obtain ⟨hw1, hw2⟩ := insertWith_weight (mergeBucket_post h) hh' (fun _ : EP => 1) (fun b => by simpa using (mergeBucket_weight b).2)
    (empty_wf _ stash node) hb hs hri
  have c0 : (Tree.empty stash node : Upsi.Tree.Tree EP).contents = [] := by simp [Tree.contents, Tree.empty]
  simp only [List.map_const', List.sum_replicate, smul_eq_mul, mul_one, c0, List.length_nil, Nat.zero_add] at hw1
  rw [c0] at hw
  simp only at h2
  subst h2
  refine ⟨k4, hw1, ?_, fun hl => hw2 (fun _ => rfl) (by rw [c0]; simpa [Tree.empty] using hl)⟩
  show absMass ri'.tree.contents ≤ absMass data
  unfold absMass
  simp only [List.map_nil, List.sum_nil] at hw
  omega

variable [AddCommGroup G] [DecidableEq G]

/-- What an import leaves in the parties. -/
theorem importAdd_my {c : Codec G} {dec : PElem → P} {deser : EncElem → Outcome γ} {f0 f1 : TreeFiles} {lost0 : List P} {lost1 : List Nat}
    {s0 : St0 G P} {s1 : St1 γ} (h : importAdd c dec deser f0 f1 lost0 lost1 = .ok (s0, s1)) :
    s0.my = deserialize dec f0.plain ∧ s1.my = deserialize decNat f1.plain ∧ s0.lost = lost0 ∧ s1.lost = lost1 := by
  simp only [importAdd, importTrees, Outcome.bind_eq_ok, Outcome.pure_eq, Outcome.ok.injEq] at h
  obtain ⟨⟨m0, o0⟩, ⟨a, -, ha⟩, ⟨m1, o1⟩, ⟨b, -, hb⟩, h⟩ := h
  obtain ⟨rfl, rfl⟩ := Prod.mk.inj h
  obtain ⟨rfl, rfl⟩ := Prod.mk.inj ha
  obtain ⟨rfl, rfl⟩ := Prod.mk.inj hb
  exact ⟨rfl, rfl, rfl, rfl⟩

omit [AddCommGroup G] [DecidableEq G] in
/-- An import leaves room for as much as the stash holds. -/
theorem fits_of {s0 : St0 G P} {s1 : St1 γ} {X : List P} {Y : List Nat} {stash : Nat}
    (h0 : s0.my.stashSize = stash ∧ (X.length ≤ stash → s0.lost = [])) (h1 : s1.my.stashSize = stash ∧ (Y.length ≤ stash → s1.lost = [])) :
    Fits stash X Y s0 s1 := ⟨h0.1, h1.1, h0.2, h1.2⟩

theorem import_noPayload_fits (S : Setup G) {c : Codec G} {hashOf : Nat → List Bool} (hh : ∀ e, (hashOf e).length = 256)
    {B stash node : Nat} {X0 : List (Nat × Int)} {Y0 : List Nat} {f0 f1 : TreeFiles} {lost0 : List (Nat × Int)}
    {lost1 : List Nat} (hf : SetupFiles S c hashOf B stash node X0 Y0 f0 f1 lost0 lost1)
    (hX : X0.length < 2 ^ 30) (hY : Y0.length < 2 ^ 30) {s0 : St0 G Nat} {s1 : St1 (Ct G)}
    (hi : importAdd c decNat (deserTreeCt c) f0 f1 (lost0.map Prod.fst) lost1 = .ok (s0, s1)) :
    Fits stash (X0.map Prod.fst) Y0 s0 s1 := by
  obtain ⟨ρ0, w0, g0⟩ := hf.ex0
  obtain ⟨ρ1, w1, g1⟩ := hf.ex1
  obtain ⟨e0, e1, e2, e3⟩ := importAdd_my hi
  obtain ⟨a1, a2⟩ := gen_fits (fun e => hh _) decNat w0.hsh hX g0
  obtain ⟨b1, b2⟩ := gen_fits hh decNat w1.hsh hY g1
  exact fits_of ⟨by rw [e0]; exact a1, fun h => by rw [e2, a2 (by simpa using h)]; rfl⟩ ⟨by rw [e1]; exact b1, fun h => by rw [e3]; exact b2 h⟩

theorem import_elGamal_fits (S : Setup G) {c : Codec G} {hashOf : Nat → List Bool} (hh : ∀ e, (hashOf e).length = 256)
    {B stash node : Nat} {X0 : List (Nat × Int)} {Y0 : List Nat} {f0 f1 : TreeFiles} {lost0 : List (Nat × Int)}
    {lost1 : List Nat} (hf : SetupFiles S c hashOf B stash node X0 Y0 f0 f1 lost0 lost1)
    (hX : X0.length < 2 ^ 30) (hY : Y0.length < 2 ^ 30) {s0 : St0 G (Nat × Int)} {s1 : St1 (Ct G × Ct G)}
    (hi : importAdd c decNatPair (deserElGamal c) f0 f1 lost0 lost1 = .ok (s0, s1)) :
    Fits stash X0 Y0 s0 s1 := by
  obtain ⟨ρ0, w0, g0⟩ := hf.ex0
  obtain ⟨ρ1, w1, g1⟩ := hf.ex1
  obtain ⟨e0, e1, e2, e3⟩ := importAdd_my hi
  obtain ⟨a1, a2⟩ := gen_fits (fun e => hh _) decNatPair w0.hsh hX g0
  obtain ⟨b1, b2⟩ := gen_fits hh decNat w1.hsh hY g1
  exact fits_of ⟨by rw [e0]; exact a1, fun h => by rw [e2]; exact a2 h⟩ ⟨by rw [e1]; exact b1, fun h => by rw [e3]; exact b2 h⟩

theorem import_paillier_fits (S : Setup G) {c : Codec G} {mont : Int → Option Mont} {a : TPaillier} {hashOf : Nat → List Bool}
    (hh : ∀ e, (hashOf e).length = 256)
    {B stash node : Nat} {X0 : List (Nat × Int)} {Y0 : List Nat} {f0 f1 : TreeFiles} {lost0 : List (Nat × Int)}
    {lost1 : List Nat} (hf : SetupFilesSS S c mont a hashOf B stash node X0 Y0 f0 f1 lost0 lost1)
    (hX : X0.length < 2 ^ 30) (hY : Y0.length < 2 ^ 30) {s0 : St0 G (Nat × Int)} {s1 : St1 (Ct G × Int)}
    (hi : importAdd c decNatPair (deserPaillier c) f0 f1 lost0 lost1 = .ok (s0, s1)) :
    Fits stash X0 Y0 s0 s1 := by
  obtain ⟨ρ0, w0, g0⟩ := hf.ex0
  obtain ⟨ρ1, w1, g1⟩ := hf.ex1
  obtain ⟨e0, e1, e2, e3⟩ := importAdd_my hi
  obtain ⟨a1, a2⟩ := gen_fits (fun e => hh _) decNatPair w0.hsh hX g0
  obtain ⟨b1, b2⟩ := gen_fits hh decNat w1.hsh hY g1
  exact fits_of ⟨by rw [e0]; exact a1, fun h => by rw [e2]; exact a2 h⟩ ⟨by rw [e1]; exact b1, fun h => by rw [e3]; exact b2 h⟩

/-! ### cardinality -/

theorem runCAFrom_only (S : Setup G) (c : Codec G) {hashOf : Nat → List Bool} (hh : ∀ e, (hashOf e).length = 256) {B stash : Nat}
    {X0 Y0 : List Nat} {ds : List (DayIn G Nat Unit)} (hA : AdmissibleFrom S id B X0 Y0 ds) {s : StCA G}
    (hI : Inv S (funcCA c) (fun _ _ => True) hashOf B X0 Y0 s.p0 s.p1) (hfit : Fits stash X0 Y0 s.p0 s.p1) :
    (runCAFrom S c hashOf s ds).Only InfErr (fun s' => Fits stash (X0 ++ allX ds) (Y0 ++ allY ds) s'.p0 s'.p1) :=
  (runDays_only (S := S) (key := id) (Good := fun t => NonZero S (t 0)) (B := B) (E := InfErr)
    (D := fun _ => True) (PX := fun _ => True)
    (J := fun X Y (s : StCA G) => Inv S (funcCA c) (fun _ _ => True) hashOf B X Y s.p0 s.p1 ∧ Fits stash X Y s.p0 s.p1)
    (step := fun s d => dayCA c hashOf S.pk S.sk0 S.sk1 s d.xs d.ys d.coins) (fun X Y s d hJ hd _ hX hY tX tY => by
      unfold dayCA
      refine (exchange_only (funcCA_ok S c) c hh hd.bound hJ.1 hJ.2 (hd.coins d (by simp)) (fun p hp => (hX p hp).1)
        hY tX tY (fun _ h => h) (funcCA_total S c) (fun _ _ => trivial) (fun _ _ => trivial) (fun _ _ => trivial)
        (fun _ => trivial) (fun _ => trivial)).bind ?_
      rintro ⟨p0, p1, cands⟩ - ⟨_, k1, k2⟩
      exact ⟨k1, k2⟩)
    ds X0 Y0 s ⟨hI, hfit⟩ hA.bound hA.coins (fun _ _ => trivial)
    (fun p hp => ⟨hA.x p hp, trivial⟩) hA.y hA.sizeX hA.sizeY).mono (fun _ h => h) (fun _ _ h => h.2)

/-- **C83** (cardinality) When both parties import the trees generated by the setup program, the import succeeds, and
for every admissible history the run ends normally or with the error raised when a point to be sent is the point at
infinity; it never aborts and never has undefined behaviour.  When it ends normally, a party has lost no element
unless its initial set and its updates together exceed its stash. -/
theorem C83_cardinality_only (S : Setup G) (c : Codec G) (hashOf : Nat → List Bool)
    (hh : ∀ e, (hashOf e).length = 256) (B stash node : Nat) (X0 : List (Nat × Int)) (Y0 : List Nat)
    (f0 f1 : TreeFiles) (lost0 : List (Nat × Int)) (lost1 : List Nat)
    (hf : SetupFiles S c hashOf B stash node X0 Y0 f0 f1 lost0 lost1) (ds : List (DayIn G Nat Unit))
    (hA : AdmissibleFrom S id B (X0.map Prod.fst) Y0 ds) :
    ∃ s0 s1, importAdd c decNat (deserTreeCt c) f0 f1 (lost0.map Prod.fst) lost1 = .ok (s0, s1) ∧
      (runCAFrom S c hashOf ⟨s0, s1, 0⟩ ds = .err "EC_POINT_point2oct failed" ∨
       ∃ s, runCAFrom S c hashOf ⟨s0, s1, 0⟩ ds = .ok s ∧
        (X0.length + (allX ds).length ≤ stash → s.p0.lost = []) ∧ (Y0.length + (allY ds).length ≤ stash → s.p1.lost = [])) := by
  have t1 := hA.sizeX
  have t2 := hA.sizeY
  simp only [List.length_append, List.length_map] at t1 t2
  obtain ⟨s0, s1, h1, _, _, h4, _⟩ := import_noPayload S hh hf (by omega) (by omega) c
  refine ⟨s0, s1, h1, ?_⟩
  rcases (runCAFrom_only S c hh hA (s := ⟨s0, s1, 0⟩) h4 (import_noPayload_fits S hh hf (by omega) (by omega) h1)).cases
    with ⟨s, hs, hJ⟩ | ⟨m, hm, rfl⟩
  · exact Or.inr ⟨s, hs, fun h => hJ.l0 (by simpa using h), fun h => hJ.l1 (by simpa using h)⟩
  · exact Or.inl hm

/-- **C83/C60** (cardinality, unconditional for small sets) If initial set and updates of each party fit its stash, the
run reports the number of elements that became common or ends with the infinity error. -/
theorem C83_cardinality_small (S : Setup G) (c : Codec G) (hashOf : Nat → List Bool)
    (hh : ∀ e, (hashOf e).length = 256) (B stash node : Nat) (X0 : List (Nat × Int)) (Y0 : List Nat)
    (f0 f1 : TreeFiles) (lost0 : List (Nat × Int)) (lost1 : List Nat)
    (hf : SetupFiles S c hashOf B stash node X0 Y0 f0 f1 lost0 lost1) (ds : List (DayIn G Nat Unit))
    (hA : AdmissibleFrom S id B (X0.map Prod.fst) Y0 ds)
    (nX : (X0.map Prod.fst ++ allX ds).Nodup) (nY : (Y0 ++ allY ds).Nodup)
    (sX : X0.length + (allX ds).length ≤ stash) (sY : Y0.length + (allY ds).length ≤ stash) :
    ∃ s0 s1, importAdd c decNat (deserTreeCt c) f0 f1 (lost0.map Prod.fst) lost1 = .ok (s0, s1) ∧
      (runCAFrom S c hashOf ⟨s0, s1, 0⟩ ds = .err "EC_POINT_point2oct failed" ∨
       ∃ s, runCAFrom S c hashOf ⟨s0, s1, 0⟩ ds = .ok s ∧
        s.cardinality + ((X0.map Prod.fst).toFinset ∩ Y0.toFinset).card =
          ((X0.map Prod.fst ++ allX ds).toFinset ∩ (Y0 ++ allY ds).toFinset).card) := by
  obtain ⟨s0, s1, h1, h2⟩ := C83_cardinality_only S c hashOf hh B stash node X0 Y0 f0 f1 lost0 lost1 hf ds hA
  obtain ⟨t0, t1, k1, k2⟩ := C60_cardinality S c hashOf hh B stash node X0 Y0 f0 f1 lost0 lost1 hf ds hA nX nY
  obtain ⟨rfl, rfl⟩ := Prod.mk.inj (Outcome.ok.inj (h1.symm.trans k1))
  refine ⟨s0, s1, h1, h2.imp id ?_⟩
  rintro ⟨s, hs, l0, l1⟩
  exact ⟨s, hs, k2 s hs (l0 sX) (l1 sY)⟩

/-! ### PSI -/

theorem runPSIFrom_only (S : Setup G) (c cu : Codec G) {hashOf : Nat → List Bool} (hh : ∀ e, (hashOf e).length = 256) {B stash : Nat}
    {X0 Y0 : List Nat} {ds : List (DayIn G Nat (Ct G))} (hA : AdmissibleFrom S id B X0 Y0 ds) {s : StPSI G}
    (hI : Inv S (funcPSI c cu) (fun p k => S.dec k = (p : Int) • S.g) hashOf B X0 Y0 s.p0 s.p1) (hfit : Fits stash X0 Y0 s.p0 s.p1) :
    (runPSIFrom S c cu hashOf s ds).Only InfErr (fun s' => Fits stash (X0 ++ allX ds) (Y0 ++ allY ds) s'.p0 s'.p1) :=
  (runDays_only (S := S) (key := id) (Good := fun t => NonZero S (t 0)) (B := B) (E := InfErr)
    (D := fun _ => True) (PX := fun _ => True)
    (J := fun X Y (s : StPSI G) => Inv S (funcPSI c cu) (fun p k => S.dec k = (p : Int) • S.g) hashOf B X Y s.p0 s.p1 ∧
      Fits stash X Y s.p0 s.p1)
    (step := fun s d => dayPSI c cu hashOf S.pk S.sk0 S.sk1 s d.xs d.ys d.coins) (fun X Y s d hJ hd _ hX hY tX tY => by
      unfold dayPSI
      refine (recordAll_only S cu _ _).bind fun m _ _ => ?_
      refine (exchange_only (funcPSI_ok S c cu) c hh hd.bound hJ.1 hJ.2 (hd.coins d (by simp)) (fun p hp => (hX p hp).1)
        hY tX tY (fun _ h => h) (funcPSI_total S c cu) (fun _ _ => trivial) (fun _ _ => trivial) (fun _ _ => trivial)
        (fun _ => trivial) (fun _ => trivial)).bind ?_
      rintro ⟨p0, p1, cands⟩ - ⟨_, k1, k2⟩
      exact (psiLoop_only cu _ _ _ _).bind fun out _ _ => ⟨k1, k2⟩)
    ds X0 Y0 s ⟨hI, hfit⟩ hA.bound hA.coins (fun _ _ => trivial)
    (fun p hp => ⟨hA.x p hp, trivial⟩) hA.y hA.sizeX hA.sizeY).mono (fun _ h => h) (fun _ _ h => h.2)

/-- **C83** (plain intersection) As for cardinality. -/
theorem C83_psi_only (S : Setup G) (c cu : Codec G) (hashOf : Nat → List Bool)
    (hh : ∀ e, (hashOf e).length = 256) (B stash node : Nat) (X0 : List (Nat × Int)) (Y0 : List Nat)
    (f0 f1 : TreeFiles) (lost0 : List (Nat × Int)) (lost1 : List Nat)
    (hf : SetupFiles S c hashOf B stash node X0 Y0 f0 f1 lost0 lost1) (ds : List (DayIn G Nat (Ct G)))
    (hA : AdmissibleFrom S id B (X0.map Prod.fst) Y0 ds) :
    ∃ s0 s1, importAdd c decNat (deserTreeCt c) f0 f1 (lost0.map Prod.fst) lost1 = .ok (s0, s1) ∧
      (runPSIFrom S c cu hashOf ⟨s0, s1, [], []⟩ ds = .err "EC_POINT_point2oct failed" ∨
       ∃ s, runPSIFrom S c cu hashOf ⟨s0, s1, [], []⟩ ds = .ok s ∧
        (X0.length + (allX ds).length ≤ stash → s.p0.lost = []) ∧ (Y0.length + (allY ds).length ≤ stash → s.p1.lost = [])) := by
  have t1 := hA.sizeX
  have t2 := hA.sizeY
  simp only [List.length_append, List.length_map] at t1 t2
  obtain ⟨s0, s1, h1, _, _, _, h4⟩ := import_noPayload S hh hf (by omega) (by omega) cu
  refine ⟨s0, s1, h1, ?_⟩
  rcases (runPSIFrom_only S c cu hh hA (s := ⟨s0, s1, [], []⟩) h4 (import_noPayload_fits S hh hf (by omega) (by omega) h1)).cases
    with ⟨s, hs, hJ⟩ | ⟨m, hm, rfl⟩
  · exact Or.inr ⟨s, hs, fun h => hJ.l0 (by simpa using h), fun h => hJ.l1 (by simpa using h)⟩
  · exact Or.inl hm

/-- **C83/C60** (plain intersection, unconditional for small sets). -/
theorem C83_psi_small (S : Setup G) (c cu : Codec G) (hashOf : Nat → List Bool)
    (hh : ∀ e, (hashOf e).length = 256) (B stash node : Nat) (X0 : List (Nat × Int)) (Y0 : List Nat)
    (f0 f1 : TreeFiles) (lost0 : List (Nat × Int)) (lost1 : List Nat)
    (hf : SetupFiles S c hashOf B stash node X0 Y0 f0 f1 lost0 lost1) (ds : List (DayIn G Nat (Ct G)))
    (hA : AdmissibleFrom S id B (X0.map Prod.fst) Y0 ds)
    (nX : (X0.map Prod.fst ++ allX ds).Nodup) (nY : (Y0 ++ allY ds).Nodup)
    (sX : X0.length + (allX ds).length ≤ stash) (sY : Y0.length + (allY ds).length ≤ stash) :
    ∃ s0 s1, importAdd c decNat (deserTreeCt c) f0 f1 (lost0.map Prod.fst) lost1 = .ok (s0, s1) ∧
      (runPSIFrom S c cu hashOf ⟨s0, s1, [], []⟩ ds = .err "EC_POINT_point2oct failed" ∨
       ∃ s, runPSIFrom S c cu hashOf ⟨s0, s1, [], []⟩ ds = .ok s ∧
        (s.intersection ++ ((X0.map Prod.fst).filter (fun x => x ∈ Y0)).map (fun _ => none)).Perm
          (((X0.map Prod.fst).filter (fun x => x ∈ Y0 ++ allY ds)).map (fun _ => none) ++
            ((allX ds).filter (fun x => x ∈ Y0 ++ allY ds)).map some)) := by
  obtain ⟨s0, s1, h1, h2⟩ := C83_psi_only S c cu hashOf hh B stash node X0 Y0 f0 f1 lost0 lost1 hf ds hA
  obtain ⟨t0, t1, k1, k2⟩ := C60_psi S c cu hashOf hh B stash node X0 Y0 f0 f1 lost0 lost1 hf ds hA nX nY
  obtain ⟨rfl, rfl⟩ := Prod.mk.inj (Outcome.ok.inj (h1.symm.trans k1))
  refine ⟨s0, s1, h1, h2.imp id ?_⟩
  rintro ⟨s, hs, l0, l1⟩
  exact ⟨s, hs, k2 s hs (l0 sX) (l1 sY)⟩

/-! ### sum -/

theorem runSumFrom_only (S : Setup G) (c : Codec G) {limit : Nat} (hl0 : 0 < limit) (hlim : limit ≤ 2 ^ 64) {hashOf : Nat → List Bool}
    (hh : ∀ e, (hashOf e).length = 256) {B stash : Nat}
    {X0 : List (Nat × Int)} {Y0 : List Nat} {ds : List (DayIn G (Nat × Int) (Ct G))} (hA : AdmissibleFrom S Prod.fst B X0 Y0 ds) {s : StSum G}
    (hI : Inv S (funcSum c) (fun p k => S.dec k = p.2 • S.g) hashOf B X0 Y0 s.p0 s.p1) (hfit : Fits stash X0 Y0 s.p0 s.p1) :
    (runSumFrom S c limit hashOf s ds).Only SumErr (fun s' =>
      Inv S (funcSum c) (fun p k => S.dec k = p.2 • S.g) hashOf B (X0 ++ allX ds) (Y0 ++ allY ds) s'.p0 s'.p1 ∧
      Fits stash (X0 ++ allX ds) (Y0 ++ allY ds) s'.p0 s'.p1) :=
  runDays_only (S := S) (key := Prod.fst) (Good := fun t => NonZero S (t 0)) (B := B) (E := SumErr)
    (D := fun _ => True) (PX := fun _ => True)
    (J := fun X Y (s : StSum G) => Inv S (funcSum c) (fun p k => S.dec k = p.2 • S.g) hashOf B X Y s.p0 s.p1 ∧
      Fits stash X Y s.p0 s.p1)
    (step := fun s d => daySum c limit hashOf S.pk S.sk0 S.sk1 s d.xs d.ys d.coins) (fun _ _ _ _ hJ hd _ hX hY tX tY =>
      daySum_only S c hl0 hlim hh hJ.1 hJ.2 hd (fun p hp => (hX p hp).1) hY tX tY)
    ds X0 Y0 s ⟨hI, hfit⟩ hA.bound hA.coins (fun _ _ => trivial)
    (fun p hp => ⟨hA.x p hp, trivial⟩) hA.y hA.sizeX hA.sizeY

/-- **C83** (sum) As for cardinality; the only further error is that a day's sum reached the bound of the decryption
table. -/
theorem C83_sum_only (S : Setup G) (c : Codec G) (limit : Nat) (hl0 : 0 < limit) (hlim : limit ≤ 2 ^ 64) (hashOf : Nat → List Bool)
    (hh : ∀ e, (hashOf e).length = 256) (B stash node : Nat) (X0 : List (Nat × Int)) (Y0 : List Nat)
    (f0 f1 : TreeFiles) (lost0 : List (Nat × Int)) (lost1 : List Nat)
    (hf : SetupFiles S c hashOf B stash node X0 Y0 f0 f1 lost0 lost1) (ds : List (DayIn G (Nat × Int) (Ct G)))
    (hA : AdmissibleFrom S Prod.fst B X0 Y0 ds) :
    ∃ s0 s1, importAdd c decNatPair (deserElGamal c) f0 f1 lost0 lost1 = .ok (s0, s1) ∧
      (runSumFrom S c limit hashOf ⟨s0, s1, 0, 0⟩ ds = .err "EC_POINT_point2oct failed" ∨
       runSumFrom S c limit hashOf ⟨s0, s1, 0, 0⟩ ds = .err "[ElGamalDecrypter::DecryptExp] message not within exp_limit" ∨
       ∃ s, runSumFrom S c limit hashOf ⟨s0, s1, 0, 0⟩ ds = .ok s ∧
        (X0.length + (allX ds).length ≤ stash → s.p0.lost = []) ∧ (Y0.length + (allY ds).length ≤ stash → s.p1.lost = [])) := by
  have t1 := hA.sizeX
  have t2 := hA.sizeY
  simp only [List.length_append] at t1 t2
  obtain ⟨s0, s1, h1, _, _, h4⟩ := import_elGamal S hh hf (by omega) (by omega)
  refine ⟨s0, s1, h1, ?_⟩
  rcases (runSumFrom_only S c hl0 hlim hh hA (s := ⟨s0, s1, 0, 0⟩) h4 (import_elGamal_fits S hh hf (by omega) (by omega) h1)).cases
    with ⟨s, hs, -, hJ⟩ | ⟨m, hm, rfl | rfl⟩
  · exact Or.inr (Or.inr ⟨s, hs, fun h => hJ.l0 (by simpa using h), fun h => hJ.l1 (by simpa using h)⟩)
  · exact Or.inl hm
  · exact Or.inr (Or.inl hm)

/-- From states in which the protocol's invariant holds, a day's sum never leaves the decryption table if the values of the
common elements sum to less than its bound and nothing is lost. -/
theorem runSumFrom_not_limit (S : Setup G) (c : Codec G) {limit : Nat} (hl0 : 0 < limit) (hlim : limit ≤ 2 ^ 64)
    {hashOf : Nat → List Bool} (hh : ∀ e, (hashOf e).length = 256) {B stash : Nat}
    {X0 : List (Nat × Int)} {Y0 : List Nat} {ds : List (DayIn G (Nat × Int) (Ct G))} (hA : AdmissibleFrom S Prod.fst B X0 Y0 ds) {s : StSum G}
    (hI0 : Inv S (funcSum c) (fun p k => S.dec k = p.2 • S.g) hashOf B X0 Y0 s.p0 s.p1) (fit : Fits stash X0 Y0 s.p0 s.p1)
    (hpos : ∀ p ∈ X0 ++ allX ds, 0 ≤ p.2) (hsmall' : valueSum (matched Prod.fst (X0 ++ allX ds) (Y0 ++ allY ds)) < limit)
    (sX : X0.length + (allX ds).length ≤ stash) (sY : Y0.length + (allY ds).length ≤ stash) :
    runSumFrom S c limit hashOf s ds ≠ .err "[ElGamalDecrypter::DecryptExp] message not within exp_limit" := by
  intro h
  have vpos : ∀ (l : List (Nat × Int)) (Y : List Nat), (∀ p ∈ l, 0 ≤ p.2) → 0 ≤ valueSum (matched Prod.fst l Y) :=
    fun l Y h => valueSum_nonneg (fun p hp => h p (mem_matched.1 hp).1)
  obtain ⟨pre, d, post, s', rfl, r1, r2⟩ := runDays_err _ _ h
  have eX : X0 ++ allX (pre ++ d :: post) = ((X0 ++ allX pre) ++ d.xs) ++ allX post := by simp [allX]
  have eY : Y0 ++ allY (pre ++ d :: post) = ((Y0 ++ allY pre) ++ d.ys) ++ allY post := by simp [allY]
  have bX := hA.x; have bY := hA.y; have zX := hA.sizeX; have zY := hA.sizeY
  have sX' : (X0 ++ allX (pre ++ d :: post)).length ≤ stash := by simpa using sX
  have sY' : (Y0 ++ allY (pre ++ d :: post)).length ≤ stash := by simpa using sY
  rw [eX, eY] at hsmall'
  rw [eX] at hpos bX zX sX'
  rw [eY] at bY zY sY'
  simp only [List.length_append] at sX' sY' zX zY
  have hp1 : ∀ p ∈ (X0 ++ allX pre) ++ d.xs, 0 ≤ p.2 := fun p hp => hpos p (List.mem_append_left _ hp)
  have hp2 : ∀ p ∈ X0 ++ allX pre, 0 ≤ p.2 := fun p hp => hp1 p (List.mem_append_left _ hp)
  have hp3 : ∀ p ∈ d.xs, 0 ≤ p.2 := fun p hp => hp1 p (List.mem_append_right _ hp)
  have hp4 : ∀ p ∈ allX post, 0 ≤ p.2 := fun p hp => hpos p (List.mem_append_right _ hp)
  have v1 := valueSum_perm (matched_step Prod.fst ((X0 ++ allX pre) ++ d.xs) (allX post) ((Y0 ++ allY pre) ++ d.ys) (allY post))
  have v2 := valueSum_perm (matched_step Prod.fst (X0 ++ allX pre) d.xs (Y0 ++ allY pre) d.ys)
  simp only [valueSum_append] at v1 v2
  have n1 := vpos (X0 ++ allX pre) (Y0 ++ allY pre) hp2
  have n2 := vpos d.xs (Y0 ++ allY pre) hp3
  have n3 := vpos ((X0 ++ allX pre) ++ d.xs) d.ys hp1
  have n4 := vpos (allX post) ((Y0 ++ allY pre) ++ d.ys) hp4
  have n5 := vpos (((X0 ++ allX pre) ++ d.xs) ++ allX post) (allY post) hpos
  have hA1 : AdmissibleFrom S Prod.fst B X0 Y0 pre :=
    ⟨hA.bound, fun e he => hA.coins e (by simp [he]), fun p hp => bX p (List.mem_append_left _ (List.mem_append_left _ hp)),
      fun p hp => bY p (List.mem_append_left _ (List.mem_append_left _ hp)), by rw [List.length_append]; omega,
      by rw [List.length_append]; omega⟩
  have hd1 : Admissible S Prod.fst B (fun t => NonZero S (t 0)) [d] :=
    ⟨hA.bound, fun e he => hA.coins e (by simp at he; simp [he]),
      fun p hp => bX p (by simp [allX] at hp; simp [hp]), fun p hp => bY p (by simp [allY] at hp; simp [hp]),
      by simp [allX]; omega, by simp [allY]; omega⟩
  have hJ := runSumFrom_only S c hl0 hlim hh hA1 hI0 fit
  rw [show runSumFrom S c limit hashOf s pre = .ok s' from r1] at hJ
  obtain ⟨hI, hst⟩ := hJ
  have := daySum_not_limit S c hlim hh hI hst hd1 (fun p hp => bX p (List.mem_append_left _ hp))
    (fun p hp => bY p (List.mem_append_left _ hp))
    (by simp only [List.length_append]; omega) (by simp only [List.length_append]; omega)
    (by simp only [List.length_append]; omega) (by simp only [List.length_append]; omega)
    (by rw [valueSum_append]; omega) (by rw [valueSum_append]; omega)
  rw [r2] at this
  simp [Outcome.Only, InfErr] at this

/-- **C83/C60** (sum, unconditional for small sets) If initial set and updates of each party fit its stash, the values are
non-negative and the values of the common elements sum to less than the table bound (and the group order), the run
reports the number of elements that became common and the exact sum of their values, or ends with the infinity
error. -/
theorem C83_sum_small (S : Setup G) (c : Codec G) (limit : Nat) (hl0 : 0 < limit) (hlim : limit ≤ 2 ^ 64) (hlimq : limit ≤ S.q)
    (hashOf : Nat → List Bool) (hh : ∀ e, (hashOf e).length = 256) (B stash node : Nat) (X0 : List (Nat × Int)) (Y0 : List Nat)
    (f0 f1 : TreeFiles) (lost0 : List (Nat × Int)) (lost1 : List Nat)
    (hf : SetupFiles S c hashOf B stash node X0 Y0 f0 f1 lost0 lost1) (ds : List (DayIn G (Nat × Int) (Ct G)))
    (hA : AdmissibleFrom S Prod.fst B X0 Y0 ds)
    (nY : (Y0 ++ allY ds).Nodup) (hpos : ∀ p ∈ X0 ++ allX ds, 0 ≤ p.2)
    (hsmall : (((X0 ++ allX ds).filter (fun p => p.1 ∈ Y0 ++ allY ds)).map Prod.snd).sum < limit)
    (sX : X0.length + (allX ds).length ≤ stash) (sY : Y0.length + (allY ds).length ≤ stash) :
    ∃ s0 s1, importAdd c decNatPair (deserElGamal c) f0 f1 lost0 lost1 = .ok (s0, s1) ∧
      (runSumFrom S c limit hashOf ⟨s0, s1, 0, 0⟩ ds = .err "EC_POINT_point2oct failed" ∨
       ∃ s, runSumFrom S c limit hashOf ⟨s0, s1, 0, 0⟩ ds = .ok s ∧
        s.cardinality + (X0.filter (fun p => p.1 ∈ Y0)).length =
          ((X0 ++ allX ds).filter (fun p => p.1 ∈ Y0 ++ allY ds)).length ∧
        (s.sum.toNat : Int) + ((X0.filter (fun p => p.1 ∈ Y0)).map Prod.snd).sum =
          (((X0 ++ allX ds).filter (fun p => p.1 ∈ Y0 ++ allY ds)).map Prod.snd).sum) := by
  obtain ⟨s0, s1, h1, h2⟩ := C83_sum_only S c limit hl0 hlim hashOf hh B stash node X0 Y0 f0 f1 lost0 lost1 hf ds hA
  obtain ⟨t0, t1, k1, k2⟩ := C60_sum S c limit hashOf hh B stash node X0 Y0 f0 f1 lost0 lost1 hf ds hA hlim hlimq nY hpos (by omega)
  obtain ⟨rfl, rfl⟩ := Prod.mk.inj (Outcome.ok.inj (h1.symm.trans k1))
  have nY0 := (List.nodup_append.1 nY).1
  have vpos : ∀ (l : List (Nat × Int)) (Y : List Nat), (∀ p ∈ l, 0 ≤ p.2) → 0 ≤ valueSum (matched Prod.fst l Y) :=
    fun l Y h => valueSum_nonneg (fun p hp => h p (mem_matched.1 hp).1)
  have hsmall' : valueSum (matched Prod.fst (X0 ++ allX ds) (Y0 ++ allY ds)) < limit := by
    rw [matched_eq_filter _ _ _ nY]; exact hsmall
  have hpos0 : ∀ p ∈ X0, 0 ≤ p.2 := fun p hp => hpos p (List.mem_append_left _ hp)
  refine ⟨s0, s1, h1, ?_⟩
  rcases h2 with h | h | ⟨s, hs, l0, l1⟩
  · exact Or.inl h
  · exfalso
    have z1 := hA.sizeX
    have z2 := hA.sizeY
    simp only [List.length_append] at z1 z2
    obtain ⟨t0, t1, i1, _, _, i4⟩ := import_elGamal S hh hf (by omega) (by omega)
    obtain ⟨rfl, rfl⟩ := Prod.mk.inj (Outcome.ok.inj (h1.symm.trans i1))
    exact runSumFrom_not_limit S c hl0 hlim hh hA (s := ⟨s0, s1, 0, 0⟩) i4 (import_elGamal_fits S hh hf (by omega) (by omega) h1) hpos hsmall' sX sY h
  · obtain ⟨j1, j2⟩ := k2 s hs (l0 sX) (l1 sY)
    refine Or.inr ⟨s, hs, j1, ?_⟩
    have v1 := valueSum_perm (matched_step Prod.fst X0 (allX ds) Y0 (allY ds))
    simp only [valueSum_append] at v1
    have n1 := vpos X0 Y0 hpos0
    have n2 := vpos (allX ds) Y0 (fun p hp => hpos p (List.mem_append_right _ hp))
    have n3 := vpos (X0 ++ allX ds) (allY ds) hpos
    rw [matched_eq_filter _ _ _ nY] at v1
    rw [matched_eq_filter _ _ _ nY0] at v1 n1
    unfold valueSum at v1 n1 n2 n3
    rw [j2, Int.emod_eq_of_lt (by omega) (by omega)]
    omega

/-! ### secret shares -/

theorem runSSFrom_only (S : Setup G) (c : Codec G) {p q : Nat} {mont : Int → Option Mont} {a b : TPaillier}
    (K : SSKeys p q mont a b) {hashOf : Nat → List Bool}
    (hh : ∀ e, (hashOf e).length = 256) {B stash : Nat}
    {X0 : List (Nat × Int)} {Y0 : List Nat} {ds : List (DayIn G (Nat × Int) Int)} (hA : AdmissibleFrom S Prod.fst B X0 Y0 ds)
    (hcoins : ∀ d ∈ ds, SSCoins (p * q) d.coins) (hB : B ≤ p * q) (hval : ∀ e ∈ X0, 0 ≤ e.2 ∧ e.2 < ((p * q : Nat) : Int)) {s : StSS G}
    (hI : Inv S (funcSS c mont a b) (PaySS (p * q)) hashOf B X0 Y0 s.p0 s.p1) (hfit : Fits stash X0 Y0 s.p0 s.p1) :
    (runSSFrom S c mont a b hashOf s ds).Only InfErr (fun s' =>
      Fits stash (X0 ++ (allX ds).map getPayloadSS) (Y0 ++ allY ds) s'.p0 s'.p1) := by
  have hX : allX (ds.map DayIn.loaded) = (allX ds).map getPayloadSS := by
    simp only [allX, List.flatMap_map, List.map_flatMap]; rfl
  have hYe : allY (ds.map DayIn.loaded) = allY ds := by
    simp only [allY, List.flatMap_map]; rfl
  have hrun : runSSFrom S c mont a b hashOf s ds =
      runDays (fun s d => daySSBody c mont a b hashOf S.pk S.sk0 S.sk1 s d.xs d.ys d.coins) s (ds.map DayIn.loaded) := by
    rw [runDays_map]; rfl
  have := runDays_only (S := S) (key := Prod.fst) (Good := fun t => NonZero S (t 0)) (B := B) (E := InfErr)
    (D := fun d => SSCoins (p * q) d.coins) (PX := fun e => 0 ≤ e.2 ∧ e.2 < ((p * q : Nat) : Int))
    (J := fun X Y (s : StSS G) => Inv S (funcSS c mont a b) (PaySS (p * q)) hashOf B X Y s.p0 s.p1 ∧
      Fits stash X Y s.p0 s.p1)
    (step := fun s d => daySSBody c mont a b hashOf S.pk S.sk0 S.sk1 s d.xs d.ys d.coins)
    (fun X Y s d hJ hd hD hX hY tX tY => by
      unfold daySSBody
      refine (exchange_only (funcSS_ok S c K) c hh hd.bound hJ.1 hJ.2 (hd.coins d (by simp)) (fun p hp => (hX p hp).1)
        hY tX tY (fun _ h => h) (funcSS_total S c K) (fun e he => (hX e he).2) hD.pads hD.enc0 hD.x0 hD.send).bind ?_
      rintro ⟨p0, p1, cands⟩ - ⟨k0, k1, k2⟩
      obtain ⟨sh', newp, j1, j2⟩ := ssLoop_total K S.sk0 hD.share hD.last cands 0 s.shares0 [] k0
      obtain ⟨r', hr'⟩ := j2 s.shares1
      dsimp only
      rw [j1, Outcome.bind_ok]
      dsimp only
      rw [List.nil_append, hr', Outcome.bind_ok]
      exact ⟨k1, k2⟩)
    (ds.map DayIn.loaded) X0 Y0 s ⟨hI, hfit⟩ hA.bound ?_ ?_ ?_ ?_ ?_ ?_
  · rw [← hrun, hX, hYe] at this
    exact this.mono (fun _ h => h) (fun _ _ h => h.2)
  · intro d hd
    obtain ⟨e, he, rfl⟩ := List.mem_map.1 hd
    have := hA.coins e he
    exact ⟨⟨by simpa [DayIn.loaded] using this.hsh0.1, this.hsh0.2⟩, this.hsh1, this.pads0, this.pads1, this.shuffle, this.masks⟩
  · intro d hd
    obtain ⟨e, he, rfl⟩ := List.mem_map.1 hd
    exact hcoins e he
  · intro x hx
    rw [hX] at hx
    rcases List.mem_append.1 hx with hx | hx
    · exact ⟨hA.x x (List.mem_append_left _ hx), hval x hx⟩
    · obtain ⟨e, he, rfl⟩ := List.mem_map.1 hx
      have := hA.x e (List.mem_append_right _ he)
      exact ⟨this, by simp only [getPayloadSS]; omega, by simp only [getPayloadSS]; omega⟩
  · rw [hYe]; exact hA.y
  · rw [hX]; simpa using hA.sizeX
  · rw [hYe]; exact hA.sizeY

/-- **C83** (secret shares) With the Paillier coins in their ranges, elements and initial values below the Paillier modulus,
the import succeeds and the run ends normally or with the infinity error. -/
theorem C83_shares_only (S : Setup G) (c : Codec G) {p q : Nat} {mont : Int → Option Mont} {a a' b : TPaillier}
    (K : SSKeys p q mont a b) (K' : SSKeys p q mont a' b) (hashOf : Nat → List Bool)
    (hh : ∀ e, (hashOf e).length = 256) (B stash node : Nat) (X0 : List (Nat × Int)) (Y0 : List Nat)
    (f0 f1 : TreeFiles) (lost0 : List (Nat × Int)) (lost1 : List Nat)
    (hf : SetupFilesSS S c mont a' hashOf B stash node X0 Y0 f0 f1 lost0 lost1)
    (ds : List (DayIn G (Nat × Int) Int)) (hA : AdmissibleFrom S Prod.fst B X0 Y0 ds)
    (hcoins : ∀ d ∈ ds, SSCoins (p * q) d.coins) (hB : B ≤ p * q) (hval : ∀ e ∈ X0, 0 ≤ e.2 ∧ e.2 < ((p * q : Nat) : Int)) :
    ∃ s0 s1, importAdd c decNatPair (deserPaillier c) f0 f1 lost0 lost1 = .ok (s0, s1) ∧
      (runSSFrom S c mont a b hashOf ⟨s0, s1, [], []⟩ ds = .err "EC_POINT_point2oct failed" ∨
       ∃ s, runSSFrom S c mont a b hashOf ⟨s0, s1, [], []⟩ ds = .ok s ∧
        (X0.length + (allX ds).length ≤ stash → s.p0.lost = []) ∧ (Y0.length + (allY ds).length ≤ stash → s.p1.lost = [])) := by
  have t1 := hA.sizeX
  have t2 := hA.sizeY
  simp only [List.length_append] at t1 t2
  obtain ⟨s0, s1, h1, _, _, h4'⟩ := import_paillier (b := b) S K' hh hf (by omega) (by omega)
  have h4 : Inv S (funcSS c mont a b) (PaySS (p * q)) hashOf B X0 Y0 s0 s1 :=
    ⟨h4'.1, h4'.2, h4'.3, h4'.4, h4'.5, h4'.6, h4'.7, h4'.8⟩
  refine ⟨s0, s1, h1, ?_⟩
  rcases (runSSFrom_only S c K hh hA hcoins hB hval (s := ⟨s0, s1, [], []⟩) h4
    (import_paillier_fits S hh hf (by omega) (by omega) h1)).cases with ⟨s, hs, hJ⟩ | ⟨m, hm, rfl⟩
  · exact Or.inr ⟨s, hs, fun h => hJ.l0 (by simpa using h), fun h => hJ.l1 (by simpa using h)⟩
  · exact Or.inl hm

/-- **C83/C60** (secret shares, unconditional for small sets). -/
theorem C83_shares_small (S : Setup G) (c : Codec G) {p q : Nat} {mont : Int → Option Mont} {a a' b : TPaillier}
    (K : SSKeys p q mont a b) (K' : SSKeys p q mont a' b) (hashOf : Nat → List Bool)
    (hh : ∀ e, (hashOf e).length = 256) (B stash node : Nat) (X0 : List (Nat × Int)) (Y0 : List Nat)
    (f0 f1 : TreeFiles) (lost0 : List (Nat × Int)) (lost1 : List Nat)
    (hf : SetupFilesSS S c mont a' hashOf B stash node X0 Y0 f0 f1 lost0 lost1)
    (ds : List (DayIn G (Nat × Int) Int)) (hA : AdmissibleFrom S Prod.fst B X0 Y0 ds)
    (hcoins : ∀ d ∈ ds, SSCoins (p * q) d.coins) (hB : B ≤ p * q) (hval : ∀ e ∈ X0, 0 ≤ e.2 ∧ e.2 < ((p * q : Nat) : Int))
    (nY : (Y0 ++ allY ds).Nodup)
    (sX : X0.length + (allX ds).length ≤ stash) (sY : Y0.length + (allY ds).length ≤ stash) :
    ∃ s0 s1, importAdd c decNatPair (deserPaillier c) f0 f1 lost0 lost1 = .ok (s0, s1) ∧
      (runSSFrom S c mont a b hashOf ⟨s0, s1, [], []⟩ ds = .err "EC_POINT_point2oct failed" ∨
       ∃ s, runSSFrom S c mont a b hashOf ⟨s0, s1, [], []⟩ ds = .ok s ∧
        s.shares0.length = s.shares1.length ∧
        (List.zipWith (fun x y => (x + y) % ((p * q : Nat) : Int)) s.shares0 s.shares1 ++
          (X0.filter (fun e => e.1 ∈ Y0)).map Prod.snd).Perm
          ((X0.filter (fun e => e.1 ∈ Y0 ++ allY ds)).map Prod.snd ++
            ((allX ds).filter (fun e => e.1 ∈ Y0 ++ allY ds)).map (fun e => (e.1 : Int)))) := by
  obtain ⟨s0, s1, h1, h2⟩ := C83_shares_only S c K K' hashOf hh B stash node X0 Y0 f0 f1 lost0 lost1 hf ds hA hcoins hB hval
  obtain ⟨t0, t1, k1, k2⟩ := C60_shares S c K K' hashOf hh B stash node X0 Y0 f0 f1 lost0 lost1 hf ds hA nY
  obtain ⟨rfl, rfl⟩ := Prod.mk.inj (Outcome.ok.inj (h1.symm.trans k1))
  refine ⟨s0, s1, h1, h2.imp id ?_⟩
  rintro ⟨s, hs, l0, l1⟩
  exact ⟨s, hs, k2 s hs (l0 sX) (l1 sY)⟩

/-! ### the original protocol -/

/-- **C83** (original protocol) When both parties import the files of the setup program, the import succeeds and the run
ends normally or with the infinity error; nothing is lost if party one's initial set and updates fit its stash. -/
theorem C83_original_only (S : Setup G) (c cu : Codec G) (H : Nat → G) (hashOf : Nat → List Bool)
    (hh : ∀ e, (hashOf e).length = 256) (B stash node : Nat) (X0 Y0 : List Nat) (f1 : TreeFiles)
    (hx : List (Nat × List UInt8)) (lost1 : List Nat)
    (hf : SetupFilesOg S c cu H hashOf B stash node X0 Y0 f1 hx lost1) (ds : List (OgDay G))
    (hA : OgAdmissible S B H X0 Y0 ds) :
    ∃ s0, importOg c cu f1 hx lost1 = .ok s0 ∧
      (runOgFrom S.og c cu H hashOf s0 ds = .err "EC_POINT_point2oct failed" ∨
       ∃ s, runOgFrom S.og c cu H hashOf s0 ds = .ok s ∧ (Y0.length + (ogY ds).length ≤ stash → s.p1.lost = [])) := by
  have t := hA.sizeY
  simp only [List.length_append] at t
  obtain ⟨s0, h1, h2, h3, h4⟩ := importOg_inv hh hf (by omega)
  refine ⟨s0, h1, (C63_original_only S c cu H hashOf hh B X0 Y0 s0 h4 ds hA).imp id ?_⟩
  rintro ⟨s, hs, hl⟩
  obtain ⟨ρ, w, g⟩ := hf.tree
  unfold genOg1 genAdd1 at g
  obtain ⟨b1, b2⟩ := gen_fits hh decNat w.hsh (by omega) g
  have e1 : s0.p1.tree = deserialize decNat f1.plain := by
    simp only [importOg, Outcome.bind_eq_ok, Outcome.pure_eq, Outcome.ok.injEq] at h1
    obtain ⟨_, -, _, -, rfl⟩ := h1
    rfl
  refine ⟨s, hs, fun h => hl (by rw [h2]; exact b2 (by omega)) ?_⟩
  rw [e1, b1, List.length_append]; exact h

/-- **C83/C61** (original protocol, unconditional for small sets). -/
theorem C83_original_small (S : Setup G) (c cu : Codec G) (H : Nat → G) (hashOf : Nat → List Bool)
    (hh : ∀ e, (hashOf e).length = 256) (B stash node : Nat) (X0 Y0 : List Nat) (f1 : TreeFiles)
    (hx : List (Nat × List UInt8)) (lost1 : List Nat)
    (hf : SetupFilesOg S c cu H hashOf B stash node X0 Y0 f1 hx lost1) (ds : List (OgDay G))
    (hA : OgAdmissible S B H X0 Y0 ds) (sY : Y0.length + (ogY ds).length ≤ stash) :
    ∃ s0, importOg c cu f1 hx lost1 = .ok s0 ∧
      (runOgFrom S.og c cu H hashOf s0 ds = .err "EC_POINT_point2oct failed" ∨
       ∃ s, runOgFrom S.og c cu H hashOf s0 ds = .ok s ∧
        (s.p0.intersection ++ X0.filter (fun x => x ∈ Y0)).Perm ((X0 ++ ogX ds).filter (fun x => x ∈ Y0 ++ ogY ds))) := by
  obtain ⟨s0, h1, h2⟩ := C83_original_only S c cu H hashOf hh B stash node X0 Y0 f1 hx lost1 hf ds hA
  obtain ⟨t0, k1, k2⟩ := C61_original_import S c cu H hashOf hh B stash node X0 Y0 f1 hx lost1 hf ds hA
  obtain rfl := Outcome.ok.inj (h1.symm.trans k1)
  refine ⟨s0, h1, h2.imp id ?_⟩
  rintro ⟨s, hs, l⟩
  exact ⟨s, hs, k2 s hs (l sY)⟩

/-! ### the protocols with deletions -/

variable {mont : Int → Option Mont} {p0 q0 p1 q1 : Nat} {k0 k1 : DKeys}

omit [AddCommGroup G] [DecidableEq G] in
theorem importDel_fits {h : Nat → List Bool} (hh : ∀ e, (h e).length = 256)
    {B n0 n1 stash node : Nat} {X0 Y0 : List EP} {f0 f1 : TreeFiles} {lost0 lost1 : List EP}
    (hf : SetupFilesDel mont k0 k1 h B n0 n1 stash node X0 Y0 f0 f1 lost0 lost1)
    (tX : X0.length < 2 ^ 30) (tY : Y0.length < 2 ^ 30) {s0 s1 : DSt} (hi : importDel f0 f1 lost0 lost1 = .ok (s0, s1)) :
    DFit stash X0 s0 ∧ DFit stash Y0 s1 := by
  obtain ⟨ρ0, w0, g0⟩ := hf.ex0
  obtain ⟨ρ1, w1, g1⟩ := hf.ex1
  simp only [importDel, importTrees, Outcome.bind_eq_ok, Outcome.pure_eq, Outcome.ok.injEq] at hi
  obtain ⟨⟨m0, o0⟩, ⟨a, -, ha⟩, ⟨m1, o1⟩, ⟨b, -, hb⟩, h⟩ := hi
  obtain ⟨rfl, rfl⟩ := Prod.mk.inj h
  obtain ⟨rfl, rfl⟩ := Prod.mk.inj ha
  obtain ⟨rfl, rfl⟩ := Prod.mk.inj hb
  exact ⟨gen_fitsDel hh w0.hsh tX g0 _, gen_fitsDel hh w1.hsh tY g1 _⟩

omit [AddCommGroup G] [DecidableEq G] in
/-- **C83** (cardinality and sum with deletions) When both parties import the trees of the setup program, the import
succeeds, and for every admissible history whose coins are usable and whose payloads – initial ones included – sum up,
in absolute value, to less than the moduli, the run ends normally or has undefined behaviour, and the latter only if the
random oracle maps some number below the moduli to a hash shorter than nine bytes: it never returns an error and never
aborts. -/
theorem C83_deletion_only (K : Keys p0 q0 p1 q1 mont k0 k1) (ro : List UInt8 → Nat) (h : Nat → List Bool)
    (hh : ∀ e, (h e).length = 256) (B stash node : Nat) (X0 Y0 : List EP) (f0 f1 : TreeFiles)
    (lost0 lost1 : List EP)
    (hf : SetupFilesDel mont k0 k1 h B (p0 * q0) (p1 * q1) stash node X0 Y0 f0 f1 lost0 lost1)
    (ds : List DayDelIn) (hA : DelAdmissibleFrom B (p0 * q0) (p1 * q1) X0 Y0 ds)
    (hu : ∀ d ∈ ds, d.coins.Usable B (p0 * q0) (p1 * q1))
    (mX : mass (X0 ++ delX ds) < min ((p0 * q0 : Nat) : Int) ((p1 * q1 : Nat) : Int))
    (mY : mass (Y0 ++ delY ds) < min ((p0 * q0 : Nat) : Int) ((p1 * q1 : Nat) : Int)) :
    ∃ s0 s1, importDel f0 f1 lost0 lost1 = .ok (s0, s1) ∧
      ((∃ s, runDelFrom ro mont h k0 k1 ⟨s0, s1, 0, []⟩ ds = .ok s ∧
        (X0.length + (delX ds).length ≤ stash → s.p0.lost = []) ∧ (Y0.length + (delY ds).length ≤ stash → s.p1.lost = [])) ∨
       (runDelFrom ro mont h k0 k1 ⟨s0, s1, 0, []⟩ ds = .ub ∧
        ∃ x : Nat, x < max (p0 * q0) (p1 * q1) ∧ ro (natBytes x) < 2 ^ 64)) := by
  rw [← absMass_eq_mass] at mX mY
  have t1 := hA.sizeX
  have t2 := hA.sizeY
  simp only [List.length_append] at t1 t2
  obtain ⟨s0, s1, h1, _, _, hI⟩ := importDel_inv K hh hf (fun e he => hA.x e (by simp [he]))
    (fun e he => hA.y e (by simp [he])) (by omega) (by omega)
  obtain ⟨g0, g1⟩ := importDel_fits hh hf (by omega) (by omega) h1
  refine ⟨s0, s1, h1, ?_⟩
  have hends := runDel_ends K (ro := ro) hh hA.bound0 hA.bound1 (stash := stash) ds X0 Y0 ⟨s0, s1, 0, []⟩ hI g0 g1 hA.coins hu
    (fun e he => hA.x e (List.mem_append_right _ he)) (fun e he => hA.y e (List.mem_append_right _ he))
    hA.sizeX hA.sizeY (by omega) (by omega) (by omega) (by omega)
  rcases hends.cases with ⟨s, hs, j1, j2⟩ | ⟨hs, hS⟩
  · exact Or.inl ⟨s, hs, fun h => j1.lost (by simpa using h), fun h => j2.lost (by simpa using h)⟩
  · exact Or.inr ⟨hs, hS⟩

omit [AddCommGroup G] [DecidableEq G] in
/-- **C83/C62** If no hash is short and initial entries and updates of each party fit its stash, the run ends normally; the
number it reports is the inner product of everything minus that of the initial entries unless a hash collided or a share
wrapped. -/
theorem C83_deletion_small (K : Keys p0 q0 p1 q1 mont k0 k1) (ro : List UInt8 → Nat) (h : Nat → List Bool)
    (hh : ∀ e, (h e).length = 256) (B stash node : Nat) (X0 Y0 : List EP) (f0 f1 : TreeFiles)
    (lost0 lost1 : List EP)
    (hf : SetupFilesDel mont k0 k1 h B (p0 * q0) (p1 * q1) stash node X0 Y0 f0 f1 lost0 lost1)
    (ds : List DayDelIn) (hA : DelAdmissibleFrom B (p0 * q0) (p1 * q1) X0 Y0 ds)
    (hu : ∀ d ∈ ds, d.coins.Usable B (p0 * q0) (p1 * q1))
    (mX : mass (X0 ++ delX ds) < min ((p0 * q0 : Nat) : Int) ((p1 * q1 : Nat) : Int))
    (mY : mass (Y0 ++ delY ds) < min ((p0 * q0 : Nat) : Int) ((p1 * q1 : Nat) : Int))
    (b : 2 * (mass (X0 ++ delX ds) * mass (Y0 ++ delY ds)) < min ((p0 * q0 : Nat) : Int) ((p1 * q1 : Nat) : Int))
    (sX : X0.length + (delX ds).length ≤ stash) (sY : Y0.length + (delY ds).length ≤ stash)
    (hro : ∀ x : Nat, x < max (p0 * q0) (p1 * q1) → 2 ^ 64 ≤ ro (natBytes x)) :
    ∃ s0 s1, importDel f0 f1 lost0 lost1 = .ok (s0, s1) ∧
      ∃ s, runDelFrom ro mont h k0 k1 ⟨s0, s1, 0, []⟩ ds = .ok s ∧
        ((∀ f ∈ s.trace, f.Clean ro) →
          s.result = UInt64.ofInt (innerProduct (X0 ++ delX ds) (Y0 ++ delY ds) - innerProduct X0 Y0)) := by
  obtain ⟨s0, s1, h1, h2⟩ := C83_deletion_only K ro h hh B stash node X0 Y0 f0 f1 lost0 lost1 hf ds hA hu mX mY
  obtain ⟨t0, t1, j1, j2⟩ := C62_inner_product K ro h hh B stash node X0 Y0 f0 f1 lost0 lost1 hf ds hA (by omega) (by omega)
  obtain ⟨rfl, rfl⟩ := Prod.mk.inj (Outcome.ok.inj (h1.symm.trans j1))
  refine ⟨s0, s1, h1, ?_⟩
  rcases h2 with ⟨s, hs, l0, l1⟩ | ⟨_, x, hx, hx'⟩
  · exact ⟨s, hs, fun hc => j2 s hs (l0 sX) (l1 sY) hc⟩
  · have := hro x hx; omega

omit [AddCommGroup G] [DecidableEq G] in
/-- **C83** (intersection with deletions) As for cardinality and sum with deletions; the only further undefined behaviour
is that of negating `-2^63`, which needs – if initial entries and updates fit the stashes – a hash collision or a wrapped
share on that day. -/
theorem C83_deletion_psi_only (K : Keys p0 q0 p1 q1 mont k0 k1) (ro : List UInt8 → Nat) (h : Nat → List Bool)
    (hh : ∀ e, (h e).length = 256) (v w : Nat → Int) (B stash node : Nat) (X0 Y0 : List EP) (f0 f1 : TreeFiles)
    (lost0 lost1 : List EP)
    (hf : SetupFilesDel mont k0 k1 h B (p0 * q0) (p1 * q1) stash node X0 Y0 f0 f1 lost0 lost1)
    (A0 C0 : Finset Nat) (ds : List DayPsiIn)
    (hA : PsiAdmissibleFrom v w B (p0 * q0) (p1 * q1) X0 Y0 A0 C0 ds) (hu : ∀ d ∈ ds, d.coins.Usable B (p0 * q0) (p1 * q1))
    (mX : mass X0 + mass (ds.flatMap (·.xs)) < min ((p0 * q0 : Nat) : Int) ((p1 * q1 : Nat) : Int))
    (mY : mass Y0 + mass (ds.flatMap (·.ys)) < min ((p0 * q0 : Nat) : Int) ((p1 * q1 : Nat) : Int)) :
    ∃ s0 s1, importDel f0 f1 lost0 lost1 = .ok (s0, s1) ∧
      ((∃ s, runDelPsiFrom ro mont h k0 k1 ⟨s0, s1, 0, [], [], []⟩ ds = .ok s ∧
        (X0.length + (ds.flatMap (·.xs)).length ≤ stash → s.p0.lost = []) ∧
        (Y0.length + (ds.flatMap (·.ys)).length ≤ stash → s.p1.lost = [])) ∨
       (runDelPsiFrom ro mont h k0 k1 ⟨s0, s1, 0, [], [], []⟩ ds = .ub ∧
        ((∃ x : Nat, x < max (p0 * q0) (p1 * q1) ∧ ro (natBytes x) < 2 ^ 64) ∨
         StopsAt ro mont h k0 k1 ⟨s0, s1, 0, [], [], []⟩ ds (fun x => -2 ^ 63 ∈ x.updates ∧
          (X0.length + (ds.flatMap (·.xs)).length ≤ stash → Y0.length + (ds.flatMap (·.ys)).length ≤ stash →
            ∃ f ∈ x.phases, ¬ f.Clean ro))))) := by
  rw [← absMass_eq_mass, ← absMass_eq_mass] at mX mY
  obtain ⟨s0, s1, h1, _, _, hI⟩ := importDel_inv K hh hf hA.x hA.y
    (by have := hA.sizeX; omega) (by have := hA.sizeY; omega)
  obtain ⟨g0, g1⟩ := importDel_fits hh hf (by have := hA.sizeX; omega) (by have := hA.sizeY; omega) h1
  refine ⟨s0, s1, h1, ?_⟩
  have hends := runDelPsi_ends K (ro := ro) hh hA.bound0 hA.bound1 hA.bound64 hA.wide hA.weights (stash := stash) ds X0 Y0 A0 C0
    ⟨s0, s1, 0, [], [], []⟩ hI g0 g1 hA.start0 hA.start1 hA.coins1 hA.coins2 hA.shuffle hu hA.valid0 hA.valid1
    hA.sizeX hA.sizeY (by omega) (by omega) (by omega) (by omega)
  rcases hends.cases with ⟨s, hs, j1, j2⟩ | ⟨hs, hS⟩
  · exact Or.inl ⟨s, hs, j1, j2⟩
  · exact Or.inr ⟨hs, hS⟩

omit [AddCommGroup G] [DecidableEq G] in
/-- **C83/C62** (intersection with deletions) If no hash is short, initial entries and updates of each party fit its stash and
no hash collides and no share wraps on any day that is reached, the run ends normally and reports the size of the current
intersection minus that of the initial one. -/
theorem C83_deletion_psi_small (K : Keys p0 q0 p1 q1 mont k0 k1) (ro : List UInt8 → Nat) (h : Nat → List Bool)
    (hh : ∀ e, (h e).length = 256) (v w : Nat → Int) (B stash node : Nat) (X0 Y0 : List EP) (f0 f1 : TreeFiles)
    (lost0 lost1 : List EP)
    (hf : SetupFilesDel mont k0 k1 h B (p0 * q0) (p1 * q1) stash node X0 Y0 f0 f1 lost0 lost1)
    (A0 C0 : Finset Nat) (ds : List DayPsiIn)
    (hA : PsiAdmissibleFrom v w B (p0 * q0) (p1 * q1) X0 Y0 A0 C0 ds) (hu : ∀ d ∈ ds, d.coins.Usable B (p0 * q0) (p1 * q1))
    (mX : mass X0 + mass (ds.flatMap (·.xs)) < min ((p0 * q0 : Nat) : Int) ((p1 * q1 : Nat) : Int))
    (mY : mass Y0 + mass (ds.flatMap (·.ys)) < min ((p0 * q0 : Nat) : Int) ((p1 * q1 : Nat) : Int))
    (sX : X0.length + (ds.flatMap (·.xs)).length ≤ stash) (sY : Y0.length + (ds.flatMap (·.ys)).length ≤ stash)
    (hro : ∀ x : Nat, x < max (p0 * q0) (p1 * q1) → 2 ^ 64 ≤ ro (natBytes x)) :
    ∃ s0 s1, importDel f0 f1 lost0 lost1 = .ok (s0, s1) ∧
      ((∀ pre d post s' x, ds = pre ++ d :: post → runDelPsiFrom ro mont h k0 k1 ⟨s0, s1, 0, [], [], []⟩ pre = .ok s' →
          pendingOf ro mont h k0 k1 s'.p0 s'.p1 d.xs d.ys d.coins = .ok x → ∀ f ∈ x.phases, f.Clean ro) →
        ∃ s, runDelPsiFrom ro mont h k0 k1 ⟨s0, s1, 0, [], [], []⟩ ds = .ok s ∧ ((∀ f ∈ s.trace, f.Clean ro) →
          s.result = UInt64.ofInt
            ((holdings A0 (ds.map (·.xs)) ∩ holdings C0 (ds.map (·.ys))).card - (A0 ∩ C0).card))) := by
  obtain ⟨s0, s1, h1, h2⟩ := C83_deletion_psi_only K ro h hh v w B stash node X0 Y0 f0 f1 lost0 lost1 hf A0 C0 ds hA hu mX mY
  obtain ⟨t0, t1, j1, j2⟩ := C62_intersection K ro h hh v w B stash node X0 Y0 f0 f1 lost0 lost1 hf A0 C0 ds hA
  obtain ⟨rfl, rfl⟩ := Prod.mk.inj (Outcome.ok.inj (h1.symm.trans j1))
  refine ⟨s0, s1, h1, fun hclean => ?_⟩
  rcases h2 with ⟨s, hs, l0, l1⟩ | ⟨_, ⟨x, hx, hx'⟩ | hst⟩
  · exact ⟨s, hs, fun hc => (j2 s hs (l0 sX) (l1 sY) hc).1⟩
  · have := hro x hx; omega
  · obtain ⟨pre, d, post, s', x, e, i1, i2, _, i4⟩ := hst
    obtain ⟨f, hf, hnf⟩ := i4 sX sY
    exact absurd (hclean pre d post s' x e i1 i2 f hf) hnf

end Upsi.Setup
