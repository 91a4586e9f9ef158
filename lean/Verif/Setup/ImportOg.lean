import Verif.Setup.ImportLemmas
import Verif.Proto.OgExamples
/-
Property theorems C61: the original protocol started from the files generated by the setup program.
-/
namespace Upsi.Setup
open Upsi Upsi.ElGamal Upsi.Tree Upsi.Tree.Props Upsi.Num Upsi.Proto

variable {G : Type} [AddCommGroup G] [DecidableEq G]

/-- Reading back the tags: the map holds exactly the tags of the written elements. -/
theorem readHX_spec {S : Setup G} {cu : Codec G} {H : Nat → G} : ∀ {X0 : List Nat}
    {hx : List (Nat × List UInt8)} {m : Mapping}, writeHX cu H S.og X0 = .ok hx →
    ∃ m', readHX cu hx m = .ok m' ∧ (∀ e ∈ m, e ∈ m') ∧
      (∀ e ∈ m', e ∈ m ∨ (e.2 ∈ X0 ∧ S.tag H e.2 ≠ 0 ∧ e.1 = cu.enc (S.tag H e.2))) ∧
      (∀ x ∈ X0, S.tag H x ≠ 0 ∧ (cu.enc (S.tag H x), x) ∈ m')
  | [], hx, m, h => by
    simp only [writeHX, Outcome.ok.injEq] at h
    subst h
    exact ⟨m, rfl, fun _ h => h, fun _ h => .inl h, by simp⟩
  | x :: X0, hx, m, h => by
    simp only [writeHX, Outcome.bind_eq_ok, Outcome.pure_eq, Outcome.ok.injEq] at h
    obtain ⟨w, hw, rest, hr, rfl⟩ := h
    have etag : S.og.b • (S.og.a • H x) = S.tag H x := by
      simp only [Setup.tag, Setup.og, smul_smul, mul_comm]
    rw [etag] at hw
    obtain ⟨hne, rfl⟩ := pointToBytes_ok hw
    obtain ⟨m', h1, h2, h3, h4⟩ := readHX_spec (m := (cu.enc (S.tag H x), x) :: m) hr
    refine ⟨m', ?_, fun e he => h2 e (by simp [he]), ?_, ?_⟩
    · simp [readHX, createECPoint, cu.dec_enc _ hne, hne, pointToBytes, orAbort, h1]
    · intro e he
      rcases h3 e he with h | ⟨h, k⟩
      · rcases List.mem_cons.1 h with rfl | h
        · exact .inr ⟨by simp, hne, rfl⟩
        · exact .inl h
      · exact .inr ⟨by simp [h], k⟩
    · intro y hy
      rcases List.mem_cons.1 hy with rfl | hy
      · exact ⟨hne, h2 _ (by simp)⟩
      · exact h4 y hy

/-- The files written by `original/setup.cc` for initial sets `X0` (party zero) and `Y0` (party one):
party one's tree, party zero's copy of it, and the tags of party zero's elements
(original/setup.cc:102-111). -/
structure SetupFilesOg (S : Setup G) (c cu : Codec G) (H : Nat → G) (hashOf : Nat → List Bool)
    (B stash node : Nat) (X0 Y0 : List Nat) (f1 : TreeFiles) (hx : List (Nat × List UInt8)) (lost1 : List Nat) :
    Prop where
  tree : ∃ ρ : TreeCoins Nat, ρ.WF id B S.q Y0 ∧ genOg1 c hashOf S.og stash node Y0 ρ = .ok (f1, lost1)
  tags : writeHX cu H S.og X0 = .ok hx

/-- Import establishes the invariant of the original protocol. -/
theorem importOg_inv {S : Setup G} {c cu : Codec G} {H : Nat → G} {hashOf : Nat → List Bool}
    (hh : ∀ e, (hashOf e).length = 256) {B stash node : Nat} {X0 Y0 : List Nat} {f1 : TreeFiles}
    {hx : List (Nat × List UInt8)} {lost1 : List Nat}
    (hf : SetupFilesOg S c cu H hashOf B stash node X0 Y0 f1 hx lost1) (hsz : Y0.length < 2 ^ 30) :
    ∃ s, importOg c cu f1 hx lost1 = .ok s ∧ s.p1.lost = lost1 ∧ s.p0.intersection = [] ∧
      OgInv S cu H hashOf B X0 Y0 s := by
  obtain ⟨ρ, hρ, hg⟩ := hf.tree
  obtain ⟨r, e1, i1⟩ := gen1_imported hh (pk := S.og.pk1) (sk := S.sk1) rfl hρ hsz hg
  obtain ⟨m', k1, _, k3, k4⟩ := readHX_spec (m := []) hf.tags
  refine ⟨_, by simp [importOg, e1, orAbort, k1]; rfl, rfl, rfl, ?_⟩
  exact ⟨i1.wf, i1.size, i1.all, i1.mir,
    fun e he => (k3 e he).resolve_left (by simp), fun x hx _ => k4 x hx⟩

/-- **C61** When both parties of the original protocol import the files written by the setup program, the
import succeeds, and if all days are then processed without error and nothing was lost to stash overflow,
party zero reports exactly the common elements that were not already common at the start, each once –
including those it imported and party one added later, and those party one imported and it added later. -/
theorem C61_original_import (S : Setup G) (c cu : Codec G) (H : Nat → G) (hashOf : Nat → List Bool)
    (hh : ∀ e, (hashOf e).length = 256) (B stash node : Nat) (X0 Y0 : List Nat) (f1 : TreeFiles)
    (hx : List (Nat × List UInt8)) (lost1 : List Nat)
    (hf : SetupFilesOg S c cu H hashOf B stash node X0 Y0 f1 hx lost1) (ds : List (OgDay G))
    (hA : OgAdmissible S B H X0 Y0 ds) :
    ∃ s0, importOg c cu f1 hx lost1 = .ok s0 ∧
      ∀ s', runOgFrom S.og c cu H hashOf s0 ds = .ok s' → s'.p1.lost = [] →
        (s'.p0.intersection ++ X0.filter (fun x => x ∈ Y0)).Perm
          ((X0 ++ ogX ds).filter (fun x => x ∈ Y0 ++ ogY ds)) := by
  have t := hA.sizeY
  simp only [List.length_append] at t
  obtain ⟨s0, h1, _, h3, h4⟩ := importOg_inv hh hf (by omega)
  exact ⟨s0, h1, fun s' hr hl =>
    Proto.Props.C48_original_from S c cu H hashOf hh B X0 Y0 s0 h4 h3 ds hA s' hr hl⟩

/-- **C61** Generation fails for no other reason than an initial element of party zero that hashes to the
point at infinity: for a hash into non-zero points and non-zero keys the tags are always written. -/
theorem C61_tags_written (S : Setup G) (cu : Codec G) (H : Nat → G) (ha : NonZero S S.sk0)
    (hb : NonZero S S.sk1) : ∀ (X0 : List Nat), (∀ x ∈ X0, H x ≠ 0) → ∃ hx, writeHX cu H S.og X0 = .ok hx ∧
      hx.map Prod.fst = X0
  | [], _ => ⟨[], rfl, rfl⟩
  | x :: X0, h => by
    obtain ⟨hx, h1, h2⟩ := C61_tags_written S cu H ha hb X0 (fun y hy => h y (by simp [hy]))
    have hne : S.og.b • (S.og.a • H x) ≠ 0 := by
      intro h0
      have h1 := (S.smul_zero_iff hb _).1 h0
      exact h x (by simp) ((S.smul_zero_iff ha _).1 h1)
    exact ⟨(x, cu.enc (S.og.b • (S.og.a • H x))) :: hx, by simp [writeHX, pointToBytes, hne, h1], by simp [h2]⟩

/-! ### non-vacuity -/

open Upsi.Proto.Examples

/-- Coins of a generation in the toy group. -/
def toyTreeCoins (h : List (List Bool)) (pad : α) : TreeCoins α where
  hsh := h
  pads _ _ := pad
  enc i j k := smallCoin' i j k
where smallCoin' (i j k : Nat) : Int := coin (i + 10 * j) 6 k

/-- The setup program succeeds on `X0 = {3, 5}`, `Y0 = {5, 8}`; after the import, party zero adds 8 and
party one adds 3: both are reported, 5 is not. -/
def ogImportDays : List (OgDay (ZMod 65521)) := [⟨[8], [3], ogCoins [Props.toyHash 0]⟩]

def ogImportRun : Outcome (OgSt (ZMod 65521)) := do
  let (f1, lost1) ← genOg1 toyCodec65521 Props.toyHash toySetup.og 4 1 [5, 8]
    (toyTreeCoins [Props.toyHash 1, Props.toyHash 2] 60)
  let hx ← writeHX toyCodec65521 ogHash toySetup.og [3, 5]
  let s ← importOg toyCodec65521 toyCodec65521 f1 hx lost1
  runOgFrom toySetup.og toyCodec65521 toyCodec65521 ogHash Props.toyHash s ogImportDays

theorem ogImportRun_ok : ∃ s, ogImportRun = .ok s ∧
    (s.p1.lost == [] && s.p0.intersection == [3, 8]) = true :=
  holds_ok (by decide +kernel)

theorem ogImportDays_adm : OgAdmissible toySetup 50 ogHash [3, 5] [5, 8] ogImportDays where
  bound := by decide
  key0 := by simp only [NonZero, toySetup]; omega
  key1 := by simp only [NonZero, toySetup]; omega
  coins := by
    intro d hd
    simp only [ogImportDays, List.mem_cons, List.not_mem_nil, or_false] at hd
    subst hd
    exact ogCoins_wf ⟨rfl, by intro y hy; simp only [List.mem_cons, List.not_mem_nil, or_false] at hy; subst hy; exact Props.toyHash_len _⟩
  x := by decide
  y := by decide
  nodupX := by decide
  nodupY := by decide
  sizeY := by decide
  inj := by decide

/-- The hypotheses of `C61_original_import` are met by this case. -/
example : ∃ s, ogImportRun = .ok s ∧ (s.p0.intersection ++ [5]).Perm [3, 5, 8] := by
  obtain ⟨s, h, hp⟩ := ogImportRun_ok
  simp only [Bool.and_eq_true, beq_iff_eq] at hp
  refine ⟨s, h, ?_⟩
  simp only [ogImportRun, Outcome.bind_eq_ok] at h
  obtain ⟨⟨f1, lost1⟩, hg, hx, hw, s0, hi, hr⟩ := h
  obtain ⟨s0', k1, k2⟩ := C61_original_import toySetup toyCodec65521 toyCodec65521 ogHash Props.toyHash
    (fun e => Props.toyHash_len e) 50 4 1 [3, 5] [5, 8] f1 hx lost1
    ⟨⟨_, ⟨⟨rfl, by
        intro y hy; simp only [toyTreeCoins, List.mem_cons, List.not_mem_nil, or_false] at hy
        rcases hy with rfl | rfl <;> exact Props.toyHash_len _⟩,
        fun _ _ => by simp only [toyTreeCoins, toySetup, id]; omega⟩, hg⟩, hw⟩ ogImportDays ogImportDays_adm
  simp only at hi
  rw [k1] at hi
  simp only [Outcome.ok.injEq] at hi
  subst hi
  exact k2 s hr hp.1

end Upsi.Setup
