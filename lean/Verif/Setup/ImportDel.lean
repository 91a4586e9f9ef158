import Verif.Setup.ImportLemmas
import Verif.Proto.DelPsiProps
/-
Property theorems C62: the protocols with deletions started from trees generated by the setup program.
-/
namespace Upsi.Setup
open Upsi Upsi.Tree Upsi.Tree.Props Upsi.Num Upsi.Proto Upsi.Paillier

variable {mont : Int → Option Mont} {p q p0 q0 p1 q1 : Nat} {k0 k1 : DKeys}

theorem serPair_both {x : Int × Int} {w : EncElem} (h : serPair x = .ok w) : deserPair w = .ok x := by
  simp only [serPair, Outcome.bind_eq_ok, Outcome.pure_eq, Outcome.ok.injEq] at h
  obtain ⟨a, ha, b, hb, rfl⟩ := h
  simp [deserPair, toBytes_inv ha, toBytes_inv hb]

/-- One direction of an import for the protocols with deletions. -/
structure ImportedDel (h : Nat → List Bool) (B n : Nat) (X0 : List EP) (mine : Upsi.Tree.Tree EP)
    (copy : Upsi.Tree.Tree (Int × Int)) (lost : List EP) : Prop where
  wf : TWF (fun e : EP => h e.1) mine
  size : mine.actualSize = X0.length
  keys : ∀ e ∈ mine.contents, e.1 < B
  net : ∀ k, payloadSum k mine.contents + payloadSum k lost = payloadSum k X0
  mir : Mirror (EncP n) (PadP B n) mine copy

theorem mapTree_id (t : Upsi.Tree.Tree α) : mapTree (fun x => x) t = t := by
  cases t; simp [mapTree]

theorem genDel_imported {pk : Public} {sk : Private} (K : KeyPair p q mont pk sk) {h : Nat → List Bool}
    (hh : ∀ e, (h e).length = 256) {B stash node : Nat} {X0 : List EP} {ρ : TreeCoins EP}
    (hρ : ρ.WF Prod.fst B (p * q) X0) (hX : ∀ e ∈ X0, e.1 < B) (hsz : X0.length < 2 ^ 30) {fs : TreeFiles}
    {lost : List EP} (hg : genDel mont sk h stash node X0 ρ = .ok (fs, lost)) :
    ∃ r, deserializeEnc deserPair fs.enc = .ok r ∧
      ImportedDel h B (p * q) X0 (deserialize decNatPair fs.plain) r lost := by
  obtain ⟨x, h1, h2, h3, h4, h5, r, h6, h7⟩ := generateTrees_import (hashOf := fun e : EP => h e.1)
    (f := fun e : EP => e) (fun e => hh _) (mergeBucket_post h) (Enc := EncP (p * q)) (Enc' := EncP (p * q))
    (isPad := PadP B (p * q)) (isPad' := PadP B (p * q)) (R := fun c d => d = c) (dec := decNatPair)
    (deser' := deserPair)
    (fun t a w c hw hc => encPair_spec K hw hc) (fun c w hw => ⟨c, serPair_both hw, rfl⟩)
    (fun a c d hc e => e ▸ hc) (fun _ h => h) (fun a p hp => (encNatPair_dec hp).1) hρ.hsh hρ.pads hsz hg
  rw [mapTree_id] at h3 h4 h7
  refine ⟨r, h6, ?_⟩
  obtain ⟨n1, n2⟩ := sendUpdate_net hh (empty_wf _ _ _) hρ.hsh (by simpa [Tree.empty] using hsz) h1
  rw [h3]
  refine ⟨h4, h5, n2 B hX (by simp [Tree.contents, Tree.empty]), fun k => ?_, h7⟩
  rw [← h2, n1 k]
  simp [Tree.contents, Tree.empty, payloadSum]

/-- The files of both parties after `deletion/setup.cc` ran with initial entries `X0`, `Y0`. -/
structure SetupFilesDel (mont : Int → Option Mont) (k0 k1 : DKeys) (h : Nat → List Bool) (B n0 n1 stash node : Nat)
    (X0 Y0 : List EP) (f0 f1 : TreeFiles) (lost0 lost1 : List EP) : Prop where
  ex0 : ∃ ρ : TreeCoins EP, ρ.WF Prod.fst B n0 X0 ∧ genDel mont k0.sk h stash node X0 ρ = .ok (f0, lost0)
  ex1 : ∃ ρ : TreeCoins EP, ρ.WF Prod.fst B n1 Y0 ∧ genDel mont k1.sk h stash node Y0 ρ = .ok (f1, lost1)

/-- Import establishes the invariant of the protocols with deletions. -/
theorem importDel_inv (K : Keys p0 q0 p1 q1 mont k0 k1) {h : Nat → List Bool} (hh : ∀ e, (h e).length = 256)
    {B stash node : Nat} {X0 Y0 : List EP} {f0 f1 : TreeFiles} {lost0 lost1 : List EP}
    (hf : SetupFilesDel mont k0 k1 h B (p0 * q0) (p1 * q1) stash node X0 Y0 f0 f1 lost0 lost1)
    (hX : ∀ e ∈ X0, e.1 < B) (hY : ∀ e ∈ Y0, e.1 < B) (tX : X0.length < 2 ^ 30) (tY : Y0.length < 2 ^ 30) :
    ∃ s0 s1, importDel f0 f1 lost0 lost1 = .ok (s0, s1) ∧ s0.lost = lost0 ∧ s1.lost = lost1 ∧
      DInv h B (p0 * q0) (p1 * q1) X0 Y0 s0 s1 := by
  obtain ⟨ρ0, w0, g0⟩ := hf.ex0
  obtain ⟨ρ1, w1, g1⟩ := hf.ex1
  obtain ⟨r0, e0, i0⟩ := genDel_imported K.own0 hh w0 hX tX g0
  obtain ⟨r1, e1, i1⟩ := genDel_imported K.own1 hh w1 hY tY g1
  refine ⟨_, _, by simp [importDel, importTrees, e0, e1, orAbort]; exact ⟨rfl, rfl⟩, rfl, rfl, ?_⟩
  exact ⟨i0.wf, i1.wf, i0.size, i1.size, i0.keys, i1.keys, i0.net, i1.net, i0.mir, i1.mir⟩

/-- Histories after an import of the initial entries `X0`, `Y0`. -/
structure DelAdmissibleFrom (B n0 n1 : Nat) (X0 Y0 : List EP) (ds : List DayDelIn) : Prop where
  bound0 : B ≤ n0
  bound1 : B ≤ n1
  coins : ∀ d ∈ ds, d.coins.round.WF B n0 n1 d.xs d.ys
  x : ∀ e ∈ X0 ++ delX ds, e.1 < B
  y : ∀ e ∈ Y0 ++ delY ds, e.1 < B
  sizeX : (X0 ++ delX ds).length < 2 ^ 30
  sizeY : (Y0 ++ delY ds).length < 2 ^ 30

/-- A run of the cardinality/sum protocol with deletions from given trees. -/
abbrev runDelFrom (ro : List UInt8 → Nat) (mont : Int → Option Mont) (h : Nat → List Bool) (k0 k1 : DKeys)
    (s : StDel) (ds : List DayDelIn) : Outcome StDel :=
  runDays (fun s (d : DayDelIn) => dayDel ro mont h k0 k1 s d.xs d.ys d.coins) s ds

/-- **C62** (inner product) When both parties import the trees generated by the setup program, the import
succeeds, and if the run then completes, no tree overflowed, no 64-bit hashes collided and no share wrapped,
party zero's 64-bit result is the inner product of the net payloads of everything – initial entries and
updates – minus the inner product of the initial entries: what was common at the start is not counted, and
deleting it makes the result go below zero (modulo 2^64). -/
theorem C62_inner_product (K : Keys p0 q0 p1 q1 mont k0 k1) (ro : List UInt8 → Nat) (h : Nat → List Bool)
    (hh : ∀ e, (h e).length = 256) (B stash node : Nat) (X0 Y0 : List EP) (f0 f1 : TreeFiles)
    (lost0 lost1 : List EP)
    (hf : SetupFilesDel mont k0 k1 h B (p0 * q0) (p1 * q1) stash node X0 Y0 f0 f1 lost0 lost1)
    (ds : List DayDelIn) (hA : DelAdmissibleFrom B (p0 * q0) (p1 * q1) X0 Y0 ds)
    (b0 : 2 * (mass (X0 ++ delX ds) * mass (Y0 ++ delY ds)) < ((p0 * q0 : Nat) : Int))
    (b1 : 2 * (mass (X0 ++ delX ds) * mass (Y0 ++ delY ds)) < ((p1 * q1 : Nat) : Int)) :
    ∃ s0 s1, importDel f0 f1 lost0 lost1 = .ok (s0, s1) ∧
      ∀ s', runDelFrom ro mont h k0 k1 ⟨s0, s1, 0, []⟩ ds = .ok s' → s'.p0.lost = [] → s'.p1.lost = [] →
        (∀ f ∈ s'.trace, f.Clean ro) →
        s'.result = UInt64.ofInt (innerProduct (X0 ++ delX ds) (Y0 ++ delY ds) - innerProduct X0 Y0) := by
  have t1 := hA.sizeX
  have t2 := hA.sizeY
  simp only [List.length_append] at t1 t2
  obtain ⟨s0, s1, h1, _, _, hI⟩ := importDel_inv K hh hf (fun e he => hA.x e (by simp [he]))
    (fun e he => hA.y e (by simp [he])) (by omega) (by omega)
  refine ⟨s0, s1, h1, fun s' hr l0 l1 hc => ?_⟩
  obtain ⟨_, _, _, _, k5⟩ := runDel_spec K hh hA.bound0 hA.bound1 ds X0 Y0 ⟨s0, s1, 0, []⟩ s' hI hA.coins
    (fun e he => hA.x e (List.mem_append_right _ he)) (fun e he => hA.y e (List.mem_append_right _ he))
    hA.sizeX hA.sizeY hr
  have := k5 l0 l1 hc b0 b1 (UInt64.ofInt (-join X0 Y0)) (by
    rw [← UInt64.ofInt_add, neg_add_cancel]; rfl)
  rw [this, ← UInt64.ofInt_add, ← join_eq_innerProduct, ← join_eq_innerProduct]
  congr 1
  ring

/-- **C62** (cardinality and sum) If party zero's initial entries hold the set `A0` and, with the updates,
net out to `A`, each element with its value `v`, and party one's hold `C0` and net out to `C` with payload
one, the result is the sum of the values of `A ∩ C` minus that of `A0 ∩ C0` (with all values one: the
cardinalities). -/
theorem C62_sum (K : Keys p0 q0 p1 q1 mont k0 k1) (ro : List UInt8 → Nat) (h : Nat → List Bool)
    (hh : ∀ e, (h e).length = 256) (B stash node : Nat) (X0 Y0 : List EP) (f0 f1 : TreeFiles)
    (lost0 lost1 : List EP)
    (hf : SetupFilesDel mont k0 k1 h B (p0 * q0) (p1 * q1) stash node X0 Y0 f0 f1 lost0 lost1)
    (ds : List DayDelIn) (hA : DelAdmissibleFrom B (p0 * q0) (p1 * q1) X0 Y0 ds)
    (b0 : 2 * (mass (X0 ++ delX ds) * mass (Y0 ++ delY ds)) < ((p0 * q0 : Nat) : Int))
    (b1 : 2 * (mass (X0 ++ delX ds) * mass (Y0 ++ delY ds)) < ((p1 * q1 : Nat) : Int))
    (v : Nat → Int) (A0 C0 A C : Finset Nat) (hX0 : Carries v X0 A0) (hY0 : Carries (fun _ => 1) Y0 C0)
    (hX : Carries v (X0 ++ delX ds) A) (hY : Carries (fun _ => 1) (Y0 ++ delY ds) C) :
    ∃ s0 s1, importDel f0 f1 lost0 lost1 = .ok (s0, s1) ∧
      ∀ s', runDelFrom ro mont h k0 k1 ⟨s0, s1, 0, []⟩ ds = .ok s' → s'.p0.lost = [] → s'.p1.lost = [] →
        (∀ f ∈ s'.trace, f.Clean ro) →
        s'.result = UInt64.ofInt (∑ k ∈ A ∩ C, v k - ∑ k ∈ A0 ∩ C0, v k) := by
  obtain ⟨s0, s1, h1, h2⟩ := C62_inner_product K ro h hh B stash node X0 Y0 f0 f1 lost0 lost1 hf ds hA b0 b1
  refine ⟨s0, s1, h1, fun s' hr l0 l1 hc => ?_⟩
  rw [h2 s' hr l0 l1 hc, innerProduct_carries hX hY, innerProduct_carries hX0 hY0]
  simp

/-- Histories of the intersection protocol with deletions after an import: party zero starts with the set
`A0`, party one with `C0`. -/
structure PsiAdmissibleFrom (v w : Nat → Int) (B n0 n1 : Nat) (X0 Y0 : List EP) (A0 C0 : Finset Nat)
    (ds : List DayPsiIn) : Prop where
  bound0 : 2 * B ≤ n0
  bound1 : 2 * B ≤ n1
  bound64 : B ≤ 2 ^ 63
  wide : 2 ^ 65 ≤ n0
  weights : ∀ k, 0 < k → k < B → 0 < v k ∧ 0 < w k ∧ v k * w k = k
  coins1 : ∀ d ∈ ds, d.coins.round1.WF B n0 n1 (deletionsOf d.xs) (deletionsOf d.ys)
  coins2 : ∀ d ∈ ds, d.coins.round2.WF B n0 n1 (additionsOf d.xs) (additionsOf d.ys)
  shuffle : ∀ d ∈ ds, ∀ l, (d.coins.shuffle l).Perm l
  x : ∀ e ∈ X0, e.1 < B
  y : ∀ e ∈ Y0, e.1 < B
  start0 : Carries v X0 A0
  start1 : Carries w Y0 C0
  range0 : ∀ k ∈ A0, 0 < k ∧ k < B
  range1 : ∀ k ∈ C0, 0 < k ∧ k < B
  valid0 : ValidDays v B A0 (ds.map (·.xs))
  valid1 : ValidDays w B C0 (ds.map (·.ys))
  sizeX : X0.length + (ds.flatMap (·.xs)).length < 2 ^ 30
  sizeY : Y0.length + (ds.flatMap (·.ys)).length < 2 ^ 30

/-- A run of the intersection protocol with deletions from given trees. -/
abbrev runDelPsiFrom (ro : List UInt8 → Nat) (mont : Int → Option Mont) (h : Nat → List Bool) (k0 k1 : DKeys)
    (s : StDelPsi) (ds : List DayPsiIn) : Outcome StDelPsi :=
  runDays (fun s (d : DayPsiIn) => dayDelPsi ro mont h k0 k1 s d.xs d.ys d.coins) s ds

/-- **C62** (intersection) When both parties of the intersection protocol with deletions import the trees
generated by the setup program (the import succeeds), and the run then completes, no tree overflowed, no
64-bit hashes collided and no share wrapped: party zero's counter is the size of the current intersection
minus the size of the initial one (modulo 2^64); and, if on no day a party deletes and re-adds the same
element (or every removal was processed first), the reported list holds exactly the elements that are common
now but were not at the start, and the *negation* of every element that was common at the start and no longer
is. -/
theorem C62_intersection (K : Keys p0 q0 p1 q1 mont k0 k1) (ro : List UInt8 → Nat) (h : Nat → List Bool)
    (hh : ∀ e, (h e).length = 256) (v w : Nat → Int) (B stash node : Nat) (X0 Y0 : List EP) (f0 f1 : TreeFiles)
    (lost0 lost1 : List EP)
    (hf : SetupFilesDel mont k0 k1 h B (p0 * q0) (p1 * q1) stash node X0 Y0 f0 f1 lost0 lost1)
    (A0 C0 : Finset Nat) (ds : List DayPsiIn)
    (hA : PsiAdmissibleFrom v w B (p0 * q0) (p1 * q1) X0 Y0 A0 C0 ds) :
    ∃ s0 s1, importDel f0 f1 lost0 lost1 = .ok (s0, s1) ∧
      ∀ s', runDelPsiFrom ro mont h k0 k1 ⟨s0, s1, 0, [], [], []⟩ ds = .ok s' → s'.p0.lost = [] →
        s'.p1.lost = [] → (∀ f ∈ s'.trace, f.Clean ro) →
        s'.result = UInt64.ofInt
          ((holdings A0 (ds.map (·.xs)) ∩ holdings C0 (ds.map (·.ys))).card - (A0 ∩ C0).card) ∧
        ((∀ u ∈ s'.updates, OrderOK u) ∨
          (∀ d ∈ ds, Disjoint (delKeys d.xs) (addKeys d.xs) ∧ Disjoint (delKeys d.ys) (addKeys d.ys)) →
          s'.inter.Nodup ∧ ∀ z, z ∈ s'.inter ↔
            (∃ k ∈ (holdings A0 (ds.map (·.xs)) ∩ holdings C0 (ds.map (·.ys))) \ (A0 ∩ C0), z = (k : Int)) ∨
            (∃ k ∈ (A0 ∩ C0) \ (holdings A0 (ds.map (·.xs)) ∩ holdings C0 (ds.map (·.ys))), z = -(k : Int))) := by
  obtain ⟨s0, s1, h1, _, _, hI⟩ := importDel_inv K hh hf hA.x hA.y
    (by have := hA.sizeX; omega) (by have := hA.sizeY; omega)
  refine ⟨s0, s1, h1, fun s' hr l0 l1 hc => ?_⟩
  obtain ⟨_, _, _, _, k⟩ := runDelPsi_spec K hh hA.bound0 hA.bound1 hA.bound64 hA.wide hA.weights
    (E := A0 ∩ C0) (fun k hk => (hA.range0 k (Finset.mem_inter.1 hk).1).1) (UInt64.ofInt (-((A0 ∩ C0).card : Int)))
    ds X0 Y0 A0 C0 ⟨s0, s1, 0, [], [], []⟩ s' hI hA.start0 hA.start1 hA.range0 hA.range1
    hA.coins1 hA.coins2 hA.shuffle hA.valid0 hA.valid1 hA.sizeX hA.sizeY hr
  obtain ⟨k1, k2, _⟩ := k l0 l1 hc
  refine ⟨?_, fun ho => k2 ⟨by simp, by simp⟩ ho⟩
  rw [k1 (by rw [← UInt64.ofInt_add, neg_add_cancel]; rfl), ← UInt64.ofInt_add]
  congr 1
  ring

end Upsi.Setup
