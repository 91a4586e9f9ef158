import Verif.Main.SetupOnly
import Verif.Main.OgStart
import Verif.Setup.KeySuccess
/-
Property theorem C86 (continued): the setup program of the original protocol does its work.
-/
namespace Upsi.Main
open Upsi Upsi.Rec Upsi.ElGamal Upsi.Tree Upsi.Proto Upsi.Setup Upsi.Wire Upsi.Data

theorem digits_len : ∀ (k n : Nat), n < 10 ^ (k + 1) → (digits n).length ≤ k + 1 := by
  intro k
  induction k with
  | zero => intro n h; rw [digits, if_pos (by omega)]; simp
  | succ k ih =>
    intro n h
    rw [digits]
    split
    · simp
    · rw [List.length_append, List.length_singleton]
      have := ih (n / 10) (by rw [pow_succ] at h; omega)
      omega

variable {G : Type} [AddCommGroup G] [DecidableEq G]

/-- The tags of party zero's initial elements: made, or one of them is the point at infinity. -/
theorem writeHX_only (cu : Codec G) (H : Nat → G) (K : OgKeys G) (L : Nat) (hc : ∀ x, (cu.enc x).length ≤ L) : ∀ xs : List Nat,
    writeHX cu H K xs = .err "EC_POINT_point2oct failed" ∨
    ∃ hx, writeHX cu H K xs = .ok hx ∧ hx.length = xs.length ∧ ∀ p ∈ hx, p.1 ∈ xs ∧ p.2.length ≤ L
  | [] => Or.inr ⟨[], rfl, rfl, by simp⟩
  | x :: xs => by
    rw [writeHX]
    unfold pointToBytes
    split
    · left; rfl
    · rw [Outcome.bind_ok]
      rcases writeHX_only cu H K L hc xs with h | ⟨hx, h, hl, hm⟩
      · left; rw [h, Outcome.bind_err]
      · right
        refine ⟨_, by rw [h, Outcome.bind_ok, Outcome.pure_eq], by simp [hl], fun p hp => ?_⟩
        rcases List.mem_cons.1 hp with rfl | hp
        · exact ⟨by simp, hc _⟩
        · exact ⟨by simp [(hm p hp).1], (hm p hp).2⟩

theorem serOPRF_length {l : List (Rec.Bytes × Rec.Bytes)} {L : Nat} (hL : L ≤ 2 ^ 20) (h : ∀ p ∈ l, p.1.length ≤ 20 ∧ p.2.length ≤ L) :
    (serOPRF l).length ≤ l.length * (L + 38) := by
  have := repField_length (k := 1) (M := L + 32) (by norm_num) (by omega) (l.map serKV) (fun b hb => by
    obtain ⟨p, hp, rfl⟩ := List.mem_map.1 hb
    obtain ⟨h1, h2⟩ := h p hp
    have e1 := lenField_length (k := 1) (b := p.1) (by norm_num) (by omega)
    have e2 := lenField_length (k := 2) (b := p.2) (by norm_num) (by omega)
    simp only [serKV, encFields, List.flatMap_cons, List.flatMap_nil, List.length_append, List.length_nil]
    omega)
  rw [List.length_map] at this
  exact this

/-- **C55** Key generation for the original protocol always succeeds on a disk that can be written, with keys of ordinary size. -/
theorem C55_original_succeeds (c : Codec G) (g : G) (q : Nat) (hq : q.Prime) (ho : ∀ x : G, (q : Int) • x = 0) (hg : g ≠ 0)
    (coin0 coin1 : Nat) (out : String) (fs : FS) (hw : ∀ n, fs.writable n = true) (L : Nat) (hL : L ≤ 2 ^ 20)
    (hc : ∀ x, (c.enc x).length ≤ L) (hqL : q ≤ 256 ^ L) {x0 x1 : Int} (hx0 : Curve.generatePrivateKey coin0 q = .ok x0)
    (hx1 : Curve.generatePrivateKey coin1 q = .ok x1) : ∃ fs', setupOriginal c g q coin0 coin1 out fs = .ok fs' := by
  obtain ⟨a0, b0⟩ := privateKey_range hx0
  obtain ⟨a1, b1⟩ := privateKey_range hx1
  have nz : ∀ x : Int, 1 ≤ x → x < q → x • g ≠ 0 := fun x h h' =>
    Curve.smul_ne_zero' hq ho (show Curve.ValidKey q x from ⟨h, by omega⟩) hg
  obtain ⟨f1, h1⟩ := genPair_succeeds (c := c) (pubFn := out ++ "p0/" ++ "/elgamal.pub") (prvFn := out ++ "p0/" ++ "/elgamal.key")
    hx0 hg (nz _ a0 b0) (hw _) (hw _) (pk_small hL (hc _) (hc _)) (sk_small hL (natBytes_small (by omega) (by omega)))
  obtain ⟨_, _, -, -, -, -, -, -, p3⟩ := genPair_spec h1
    (name_ne out _ _ _ _ (by decide) (by decide) (by decide))
  obtain ⟨f2, h2⟩ := genPair_succeeds (c := c) (pubFn := out ++ "p1/" ++ "/elgamal.pub") (prvFn := out ++ "p1/" ++ "/elgamal.key")
    hx1 hg (nz _ a1 b1) (fs := f1) (by rw [p3.1]; exact hw _) (by rw [p3.1]; exact hw _)
    (pk_small hL (hc _) (hc _)) (sk_small hL (natBytes_small (by omega) (by omega)))
  exact ⟨f2, by rw [setupOriginal, generateElGamalKeys, h1, Outcome.bind_ok, h2]⟩

/-- What setup of the original protocol needs to do its work. -/
structure OgSetupFeasible (c cu : Codec G) (q K stash node : Nat) (f : SetupFlags) (ρ : OgSetupRand) (x0 x1 : Int) (fs : FS) : Prop where
  shared : (sharedSize f).toNat ≤ f.start + f.days * f.daily
  sum : (sharedSize f).toNat ≤ (2 ^ 63 - 1) / f.maxValue.toNat
  disk : ∀ name, fs.writable name = true
  bytes : K ≤ 2 ^ 20
  points : ∀ x, (c.enc x).length ≤ K ∧ (cu.enc x).length ≤ K
  orderBytes : q ≤ 256 ^ K
  key0 : Curve.generatePrivateKey ρ.coin0 q = .ok x0
  key1 : Curve.generatePrivateKey ρ.coin1 q = .ok x1
  trees : 0 < f.start → 2 * f.start * (node * (4 * K + 106) + 17) + stash * (4 * K + 106) + 61 < 2 ^ 31
  tags : f.start * (K + 38) < 2 ^ 31

/-- **C86** (original protocol) The setup program of the original protocol, for all feasible flags, all data and all coins in
their ranges, ends normally or reports the point at infinity; without initial sets it always ends normally. -/
theorem C86_original_setup (c cu : Codec G) (g : G) (q : Nat) (hq : q.Prime) (hcard : Nat.card G = q) (hg : g ≠ 0) (H : Nat → G)
    {hashOf : Nat → List Bool} (hh : ∀ e, (hashOf e).length = 256) {L B stash node : Nat} {f : SetupFlags}
    (hf : SizesOK L B q stash node f) {ρ : OgSetupRand} (hρ : ρ.OK L B q f) {K : Nat} {x0 x1 : Int} {fs : FS}
    (hs : OgSetupFeasible c cu q K stash node f ρ x0 x1 fs) :
    ((∃ o, setupMainOg c cu g q H hashOf stash node f ρ fs = .ok o) ∨
      setupMainOg c cu g q H hashOf stash node f ρ fs = .err "EC_POINT_point2oct failed") ∧
    (f.start = 0 → ∃ o, setupMainOg c cu g q H hashOf stash node f ρ fs = .ok o) := by
  have ho : ∀ x : G, (q : Int) • x = 0 := fun x => by rw [natCast_zsmul, ← hcard, card_nsmul_eq_zero']
  obtain ⟨fk, hk⟩ := C55_original_succeeds c g q hq ho hg ρ.coin0 ρ.coin1 f.outDir fs hs.disk K hs.bytes (fun x => (hs.points x).1)
    hs.orderBytes hs.key0 hs.key1
  obtain ⟨y0, y1, -, -, p0, p1, pw⟩ := C55_original c g q ρ.coin0 ρ.coin1 f.outDir fs fk hk
  have htot := hf.total
  have hmax : (f.maxValue % 2 ^ 32).toNat = f.maxValue.toNat := by have := hf.maxPos; have := hf.maxValue; omega
  have hm31 : f.maxValue.toNat < 2 ^ 32 := by have := hf.maxValue; omega
  have hR := hρ.draws
  obtain ⟨gs, hgs, -⟩ := C54_add_only f.days f.daily f.start (sharedSize f).toNat f.maxValue.toNat ρ.data (by omega) hs.shared hR.maxPos hs.sum
    hR.sharedLen hR.fill0 hR.fill1 hR.perm0 hR.perm1 hR.vals hR.range hR.nodup
  obtain ⟨-, -, gen⟩ := gen_facts hR (by omega) hgs
  have wk : ∀ m, fk.writable m = true := fun m => by rw [pw.1]; exact hs.disk m
  obtain ⟨fd, hfd, wfd⟩ := writeDays_total (f.dataDir ++ "p0/") (f.dataDir ++ "p1/") (gen.good0 hm31) gen.good1 f.days 0 fk
    (by rw [gen.len0]; omega) (by rw [gen.len1]; omega) wk
  have wd : ∀ m, fd.writable m = true := fun m => by rw [wfd]; exact wk m
  obtain ⟨sv, -, -⟩ := daily_roundtrip gen.len0 gen.len1 (gen.good0 hm31) gen.good1 hfd
  by_cases hst : f.start > 0
  swap
  · have : ∃ o, setupMainOg c cu g q H hashOf stash node f ρ fs = .ok o := by
      refine ⟨⟨fd, some (sharedSize f), []⟩, ?_⟩
      rw [setupMainOg, hk, Outcome.bind_ok]
      simp only [generateDataOg, hmax, hgs, orAbort, Outcome.bind_ok, hfd, if_neg hst, Outcome.pure_eq]
    exact ⟨Or.inl this, fun _ => this⟩
  refine ⟨?_, fun h0 => absurd hst (by omega)⟩
  have p0d := (ogParty_same (by decide) (by decide) sv c f.outDir "p0" "p1").trans p0
  have p1d := (ogParty_same (by decide) (by decide) sv c f.outDir "p1" "p0").trans p1
  have num0 : ∀ e ∈ gs.tree0.elements, Numeric e := fun e he => (gen.str0 gs.tree0 (by simp) e he).numeric hf.len hf.bound
  have num1 : ∀ e ∈ gs.tree1.elements, Numeric e := fun e he => (gen.str1 gs.tree1 (by simp) e he).numeric hf.len hf.bound
  have n1 : canon (f.outDir ++ "p1/" ++ "elgamal.pub") = canon (f.outDir ++ "p1" ++ "/elgamal.pub") :=
    name_eq _ _ _ _ _ (by decide) (by decide) (by decide)
  have gk : getElGamal c (f.outDir ++ "p1/" ++ "elgamal.pub") fd = .ok (keyPair g y1).1 := by
    have := (ogParty_keys p1d).1
    rw [getElGamal, readKey_canon _ n1]
    exact this
  have hY0 : (gs.tree1.elements.map digitsValue).length = f.start := by rw [List.length_map, gen.t1.1]
  have w1 : Batch.WF (gs.tree1.elements.map digitsValue, ρ.tree1.hsh) := ⟨by rw [hY0]; exact hρ.hsh1.1, hρ.hsh1.2⟩
  obtain ⟨-, G1⟩ := C83_generation_addition c hashOf hh (keyPair g y1).1 stash node [] (gs.tree1.elements.map digitsValue)
    ⟨[], fun _ _ => (0, 0), fun _ _ _ => 0⟩ ρ.tree1 ⟨rfl, by simp⟩ w1 (by simp) (by omega) (by simp)
  have hP35 : 4 * K + 100 < 2 ^ 35 := by have := hs.bytes; omega
  have lim := hs.trees hst
  rcases G1 with G1 | ⟨⟨t1, lost1⟩, G1⟩
  · right
    rw [setupMainOg, hk, Outcome.bind_ok]
    simp only [generateDataOg, hmax, hgs, orAbort, Outcome.bind_ok, hfd, if_pos hst, C57_elements_exact gs.tree1 num1, gk, G1,
      Outcome.bind_err]
  obtain ⟨b1, b1'⟩ := generateTrees_bytes (P := 4 * K + 100) hh w1 (by omega) (by omega) (fun a ha p hp => by
      simp only [encNat, encElement, Outcome.bind_eq_ok, Outcome.pure_eq, Outcome.ok.injEq] at hp
      obtain ⟨u, hu, rfl⟩ := hp
      obtain ⟨e, he, rfl⟩ := List.mem_map.1 ha
      have h0 := (num1 e he).2.2
      have h1 := toBytes_length (k := 8) hu (by norm_num; omega)
      have := serPElem_length (p := ⟨u, []⟩) h1 (Nat.le_refl 0) (by norm_num) (by norm_num)
      omega) (noPayload_length hs.bytes (fun x => (hs.points x).1)) hP35 (by rw [hY0]; exact lim) G1
  obtain ⟨fw, hw, ww⟩ := writeTrees_total b1 b1' (f.dataDir ++ "p1/") (f.dataDir ++ "p0/") wd
  obtain ⟨z1, z2, z3⟩ := generateTrees_sizes hh (PostOK.id _) w1 (by omega) hf.stash hf.node G1
  obtain ⟨-, -, a3⟩ := writeTrees_spec z1 z2 z3 (D := f.dataDir) (Or.inr rfl) (Or.inl rfl) hw
  have sb : SameBut 'e' fd fw := sameBut_of_except a3 (by
    simp only [List.mem_cons, List.not_mem_nil, or_false, forall_eq_or_imp, forall_eq]
    exact ⟨tree_last _ _ _ (by decide), tree_last _ _ _ (by decide)⟩)
  have p0w := (ogParty_same (by decide) (by decide) sb c f.outDir "p0" "p1").trans p0d
  have p1w := (ogParty_same (by decide) (by decide) sb c f.outDir "p1" "p0").trans p1d
  have m0 : canon (f.outDir ++ "p0/" ++ "elgamal.key") = canon (f.outDir ++ "p0" ++ "/elgamal.key") :=
    name_eq _ _ _ _ _ (by decide) (by decide) (by decide)
  have m1 : canon (f.outDir ++ "p1/" ++ "elgamal.key") = canon (f.outDir ++ "p1" ++ "/elgamal.key") :=
    name_eq _ _ _ _ _ (by decide) (by decide) (by decide)
  have s0 : readSk (f.outDir ++ "p0/" ++ "elgamal.key") fw = .ok y0 := by
    have := (ogParty_keys p0w).2
    rw [readSk, readKey_canon _ m0]
    exact this
  have s1 : readSk (f.outDir ++ "p1/" ++ "elgamal.key") fw = .ok y1 := by
    have := (ogParty_keys p1w).2
    rw [readSk, readKey_canon _ m1]
    exact this
  rcases writeHX_only cu H ⟨0, 0, y0, y1⟩ K (fun x => (hs.points x).2) (gs.tree0.elements.map digitsValue) with hx | ⟨hx, h1, h2, h3⟩
  · right
    rw [setupMainOg, hk, Outcome.bind_ok]
    simp only [generateDataOg, hmax, hgs, orAbort, Outcome.bind_ok, hfd, if_pos hst, C57_elements_exact gs.tree1 num1, gk, G1, hw,
      writeHXFile, s0, s1, C57_elements_exact gs.tree0 num0, hx, Outcome.bind_err]
  · left
    have hlen : (serOPRF (hx.map (fun p => (digits p.1, p.2)))).length < 2 ^ 31 := by
      have := serOPRF_length (l := hx.map (fun p => (digits p.1, p.2))) (L := K) hs.bytes (fun p hp => by
        obtain ⟨a, ha, rfl⟩ := List.mem_map.1 hp
        obtain ⟨e, he, hae⟩ := List.mem_map.1 (h3 a ha).1
        have h0 := (num0 e he).2.2
        refine ⟨digits_len 19 _ ?_, (h3 a ha).2⟩
        rw [← hae]; norm_num; omega)
      rw [List.length_map, h2, List.length_map, gen.t0.1] at this
      exact lt_of_le_of_lt this hs.tags
    have hfin := writeKey_succeeds (ser := serOPRF) (name := f.dataDir ++ "p0/" ++ "elements.ec") (fs := fw) hlen
      (by rw [ww]; exact wd _)
    refine ⟨⟨fw.set (canon (f.dataDir ++ "p0/" ++ "elements.ec")) (writeVarint (serOPRF (hx.map (fun p => (digits p.1, p.2)))).length ++
      serOPRF (hx.map (fun p => (digits p.1, p.2)))), if f.expected then some (printedOg (sharedSize f) (initCount gs.tree1.elements gs.tree0.elements)) else none, lost1⟩, ?_⟩
    rw [setupMainOg, hk, Outcome.bind_ok]
    simp only [generateDataOg, hmax, hgs, orAbort, Outcome.bind_ok, hfd, if_pos hst, C57_elements_exact gs.tree1 num1, gk, G1, hw,
      writeHXFile, s0, s1, C57_elements_exact gs.tree0 num0, h1, hfin, Outcome.pure_eq]

end Upsi.Main
