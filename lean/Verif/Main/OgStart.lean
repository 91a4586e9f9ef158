import Verif.Main.OgMain
import Verif.Main.AddEnd
import Verif.Main.NetOtherProps
import Verif.Setup.ImportOg
/- What the parties of the original protocol find after original/setup.cc (helper lemmas for C76). -/
namespace Upsi.Main
open Upsi Upsi.Rec Upsi.ElGamal Upsi.Tree Upsi.Proto Upsi.Setup Upsi.Wire Upsi.Data

variable {G : Type} [AddCommGroup G] [DecidableEq G]

/-- The random choices of original/setup.cc are as the program draws them: data (`DrawsOK`), path identifiers of 256 bits, one
per initial element of party one, and padding elements in `[B, q)`. -/
structure OgSetupRand.OK (L B q : Nat) (f : SetupFlags) (ρ : OgSetupRand) : Prop where
  draws : DrawsOK L B f.days f.daily f.start (sharedSize f).toNat f.maxValue.toNat ρ.data
  hsh1 : ρ.tree1.hsh.length = f.start ∧ ∀ h ∈ ρ.tree1.hsh, h.length = 256
  pads1 : ∀ i j, B ≤ ρ.tree1.pads i j ∧ ρ.tree1.pads i j < q

/-- Coins of a day, in terms of what the programs know. -/
structure OgCoinsOK (B q daily : Nat) (ρ : OgCoins G) : Prop where
  hsh : ρ.hsh.length = daily ∧ ∀ h ∈ ρ.hsh, h.length = 256
  pads : ∀ i j, B ≤ ρ.pads i j ∧ ρ.pads i j < q
  beta : ∀ i j, ¬ (q : Int) ∣ ρ.beta i j
  gamma : ∀ i j, ¬ (q : Int) ∣ ρ.gamma i j
  shuffle : ∀ i l, (ρ.shuffle i l).Perm l
  mask : ∀ i, ¬ (q : Int) ∣ ρ.mask i

theorem last_ne {ch x : Char} {D t : String} (hx : t.toList.getLast? = some x) (hne : ch ≠ x) : (D ++ t).toList.getLast? ≠ some ch := by
  rw [String.toList_append, List.getLast?_append_of_ne_nil _ (by intro h0; rw [h0] at hx; simp at hx), hx]
  exact fun e => hne (Option.some.inj e).symm

theorem ogParty_same {ch : Char} (h1 : ch ≠ 'b') (h2 : ch ≠ 'y') {fs fs' : FS} (h : SameBut ch fs fs') (c : Codec G)
    (out p p' : String) : originalParty c out p p' fs' = originalParty c out p p' fs := by
  unfold originalParty
  rw [h.key PkProto.parse (last_ne (x := 'b') (by decide) h1), h.key PkProto.parse (last_ne (x := 'b') (by decide) h1),
    h.key SkProto.parse (last_ne (x := 'y') (by decide) h2)]

theorem valueOf_ok {A : Type} {x : Outcome A} {y : A} (h : valueOf x = .ok y) : x = .ok y := by
  cases x <;> simp_all [valueOf]

theorem ogParty_keys {c : Codec G} {out p p' : String} {fs : FS} {k : OgKeysRead G} (h : originalParty c out p p' fs = .ok k) :
    getElGamal c (out ++ p ++ "/elgamal.pub") fs = .ok k.mine ∧ readSk (out ++ p ++ "/elgamal.key") fs = .ok k.sk := by
  simp only [originalParty, Outcome.bind_eq_ok, Outcome.pure_eq, Outcome.ok.injEq] at h
  obtain ⟨a, ha, b, hb, a', ha', b', hb', e, he, s, hs, rfl⟩ := h
  rw [getElGamal, valueOf_ok ha, Outcome.bind_ok, valueOf_ok hb, readSk, valueOf_ok he, Outcome.bind_ok, hs]
  exact ⟨rfl, rfl⟩

/-- The tags depend on the secret keys only. -/
theorem writeHX_keys (cu : Codec G) (H : Nat → G) (K K' : OgKeys G) (ha : K.a = K'.a) (hb : K.b = K'.b) :
    ∀ xs, writeHX cu H K xs = writeHX cu H K' xs := by
  intro xs
  induction xs with
  | nil => rfl
  | cons x xs ih => rw [writeHX, writeHX, ha, hb, ih]

theorem initCount_spec (ys : List Data.Bytes) (hy : ys.Nodup) : ∀ xs, initCount ys xs = (xs.filter (fun x => x ∈ ys)).length := by
  intro xs
  induction xs with
  | nil => rfl
  | cons x xs ih =>
    rw [initCount, ih, List.filter_cons]
    by_cases h : x ∈ ys
    · have : (ys.filter (fun y => x == y)).length = 1 := by
        have e : ys.filter (fun y => x == y) = ys.filter (fun y => y == x) :=
          List.filter_congr (fun y _ => by rw [Bool.beq_comm])
        rw [e, ← List.countP_eq_length_filter]
        exact List.count_eq_one_of_mem hy h
      rw [this, if_pos (by simpa using h), List.length_cons]
      omega
    · have : ys.filter (fun y => x == y) = [] := by
        rw [List.filter_eq_nil_iff]
        intro y hy' e
        rw [beq_iff_eq] at e
        exact h (e ▸ hy')
      rw [this, if_neg (by simpa using h)]
      simp

/-- What the parties find. -/
structure FoundOg (c cu : Codec G) (H : Nat → G) (hashOf : Nat → List Bool) (L B stash node : Nat) (f : SetupFlags) (fs : FS)
    (o : OgSetupOut) (S : Setup G) (gs : GenSets) : Prop where
  gen : GenFacts L B f.days f.daily f.start (sharedSize f).toNat f.maxValue.toNat gs
  shared : 0 ≤ sharedSize f ∧ sharedSize f < 2 ^ 31
  daily0 : readDaily (f.dataDir ++ "p0/") o.fs f.days 1 = .ok gs.days0
  daily1 : readDaily (f.dataDir ++ "p1/") o.fs f.days 1 = .ok gs.days1
  keys0 : originalParty c f.outDir "p0" "p1" o.fs = .ok ⟨S.og.pk0, S.og.pk1, S.sk0⟩
  keys1 : originalParty c f.outDir "p1" "p0" o.fs = .ok ⟨S.og.pk1, S.og.pk0, S.sk1⟩
  nz0 : NonZero S S.sk0
  nz1 : NonZero S S.sk1
  fresh : f.start = 0 → o.lost1 = [] ∧ o.printed = some (sharedSize f) ∧
    ∀ n : String, n.toList.getLast? = some 'e' → o.fs.data n = fs.data n
  init : 0 < f.start → (∃ f1 hx, Reads o.fs parsePTree (f.dataDir ++ "p1/" ++ "plaintext.tree") f1.plain ∧
      Reads o.fs parseETree (f.dataDir ++ "p0/" ++ "encrypted.tree") f1.enc ∧
      Reads o.fs parseOPRF (f.dataDir ++ "p0/" ++ "elements.ec") (hx.map (fun p => (digits p.1, p.2))) ∧
      SetupFilesOg S c cu H hashOf B stash node (gs.tree0.elements.map digitsValue) (gs.tree1.elements.map digitsValue) f1 hx
        o.lost1) ∧
    (f.expected = false → o.printed = none) ∧
    (f.expected = true → o.printed =
      some ((sharedSize f - (gs.tree0.elements.filter (fun e => e ∈ gs.tree1.elements)).length) % 2 ^ 64))

theorem generated_nz {q coin : Nat} (hq : q.Prime) {x : Int} (h : Curve.generatePrivateKey coin q = .ok x) : ¬ (q : Int) ∣ x := by
  obtain ⟨k, e1, e2⟩ := (Curve.C28_generated q hq.one_lt).1 coin
  obtain rfl := Outcome.ok.inj (h.symm.trans e1)
  obtain ⟨l, u⟩ := (Curve.C28_check _ q).1.1 e2
  intro hd
  have := Int.le_of_dvd (by omega) hd
  omega

theorem write_oprf {l : List (Rec.Bytes × Rec.Bytes)} {name : String} {fs fs' : FS} (w : writeKey serOPRF l name fs = .ok fs') :
    (∀ name', canon name' = canon name → Reads fs' parseOPRF name' l) ∧ SameExcept fs fs' [name] :=
  write_spec (ser := serOPRF) (parse := parseOPRF) (m := l) (m' := l) (fun hl => C72_oprf l hl) w

theorem og_found (c cu : Codec G) (g : G) (q : Nat) (hq : q.Prime) (hcard : Nat.card G = q) (hg : g ≠ 0) (H : Nat → G)
    {hashOf : Nat → List Bool} (hh : ∀ e, (hashOf e).length = 256) {L B stash node : Nat} {f : SetupFlags}
    (hf : SizesOK L B q stash node f) (hsh31 : f.shared < 2 ^ 31) {ρ : OgSetupRand}
    (hρ : ρ.OK L B q f) {fs : FS} {o : OgSetupOut} (h : setupMainOg c cu g q H hashOf stash node f ρ fs = .ok o) :
    ∃ (S : Setup G) (gs : GenSets), S.g = g ∧ S.q = q ∧ FoundOg c cu H hashOf L B stash node f fs o S gs ∧
      ((allElements gs.tree0 gs.days0).filter (fun e => e ∈ allElements gs.tree1 gs.days1)).Perm ρ.data.shared ∧
      genAddOnly f.days f.daily f.start (sharedSize f).toNat f.maxValue.toNat ρ.data = .ok gs := by
  simp only [setupMainOg, Outcome.bind_eq_ok] at h
  obtain ⟨fk, hk, h⟩ := h
  obtain ⟨x0, x1, hx0, hx1, p0, p1, sk⟩ := C55_original c g q ρ.coin0 ρ.coin1 f.outDir fs fk hk
  simp only [generateDataOg, Outcome.bind_eq_ok] at h
  obtain ⟨gs, hgs, fd, hfd, h⟩ := h
  have hgs := orAbort_ok hgs
  have hmax : (f.maxValue % 2 ^ 32).toNat = f.maxValue.toNat := by have := hf.maxPos; have := hf.maxValue; omega
  rw [hmax] at hgs
  have htot := hf.total
  obtain ⟨hsh, hov, gen⟩ := gen_facts hρ.draws (by omega) hgs
  have hm31 : f.maxValue.toNat < 2 ^ 32 := by have := hf.maxValue; omega
  obtain ⟨sv, r0, r1⟩ := daily_roundtrip gen.len0 gen.len1 (gen.good0 hm31) gen.good1 hfd
  have hs0 : 0 ≤ sharedSize f ∧ sharedSize f < 2 ^ 31 := by unfold sharedSize; split <;> omega
  refine ⟨⟨g, q, x0, x1, hq, hcard, hg⟩, gs, rfl, rfl, ?_, gen_common hρ.draws (by omega) hgs, hgs⟩
  have p0d := (ogParty_same (by decide) (by decide) sv c f.outDir "p0" "p1").trans p0
  have p1d := (ogParty_same (by decide) (by decide) sv c f.outDir "p1" "p0").trans p1
  have nz0 := generated_nz hq hx0
  have nz1 := generated_nz hq hx1
  by_cases hst : f.start > 0
  · rw [if_pos hst] at h
    have num0 : ∀ e ∈ gs.tree0.elements, Numeric e := fun e he => (gen.str0 gs.tree0 (by simp) e he).numeric hf.len hf.bound
    have num1 : ∀ e ∈ gs.tree1.elements, Numeric e := fun e he => (gen.str1 gs.tree1 (by simp) e he).numeric hf.len hf.bound
    have n1 : canon (f.outDir ++ "p1/" ++ "elgamal.pub") = canon (f.outDir ++ "p1" ++ "/elgamal.pub") :=
      name_eq _ _ _ _ _ (by decide) (by decide) (by decide)
    have gk : getElGamal c (f.outDir ++ "p1/" ++ "elgamal.pub") fd = .ok (keyPair g x1).1 := by
      have := (ogParty_keys p1d).1
      rw [getElGamal, readKey_canon _ n1]
      exact this
    simp only [C57_elements_exact gs.tree1 num1, orAbort, Outcome.bind_ok, gk, Outcome.bind_eq_ok] at h
    obtain ⟨⟨f1, lost1⟩, g1, fw, w1, fe, w2, h⟩ := h
    simp only [Outcome.pure_eq, Outcome.ok.injEq] at h
    subst h
    have hY0 : (gs.tree1.elements.map digitsValue).length = f.start := by rw [List.length_map, gen.t1.1]
    have wf1 : ρ.tree1.WF id B q (gs.tree1.elements.map digitsValue) := ⟨⟨by rw [hY0]; exact hρ.hsh1.1, hρ.hsh1.2⟩, hρ.pads1⟩
    obtain ⟨y1, y2, y3⟩ := generateTrees_sizes (fun e => hh _) (PostOK.id _) wf1.hsh (by rw [hY0]; omega) hf.stash hf.node g1
    obtain ⟨b1, b2, b3⟩ := writeTrees_spec y1 y2 y3 (D := f.dataDir) (Or.inr rfl) (Or.inl rfl) w1
    have sb : SameBut 'e' fd fw := sameBut_of_except b3 (by
      simp only [List.mem_cons, List.not_mem_nil, or_false, forall_eq_or_imp, forall_eq]
      exact ⟨tree_last _ _ _ (by decide), tree_last _ _ _ (by decide)⟩)
    have p0w := (ogParty_same (by decide) (by decide) sb c f.outDir "p0" "p1").trans p0d
    have p1w := (ogParty_same (by decide) (by decide) sb c f.outDir "p1" "p0").trans p1d
    -- the tags
    have m0 : canon (f.outDir ++ "p0/" ++ "elgamal.key") = canon (f.outDir ++ "p0" ++ "/elgamal.key") :=
      name_eq _ _ _ _ _ (by decide) (by decide) (by decide)
    have m1 : canon (f.outDir ++ "p1/" ++ "elgamal.key") = canon (f.outDir ++ "p1" ++ "/elgamal.key") :=
      name_eq _ _ _ _ _ (by decide) (by decide) (by decide)
    have s0 : readSk (f.outDir ++ "p0/" ++ "elgamal.key") fw = .ok x0 := by
      have := (ogParty_keys p0w).2
      rw [readSk, readKey_canon _ m0]
      exact this
    have s1 : readSk (f.outDir ++ "p1/" ++ "elgamal.key") fw = .ok x1 := by
      have := (ogParty_keys p1w).2
      rw [readSk, readKey_canon _ m1]
      exact this
    simp only [writeHXFile, s0, s1, C57_elements_exact gs.tree0 num0, orAbort, Outcome.bind_ok, Outcome.bind_eq_ok] at w2
    obtain ⟨hx, w2, w3⟩ := w2
    obtain ⟨d1, d2⟩ := write_oprf w3
    have sc : SameBut 'c' fw fe := sameBut_of_except d2 (by
      simp only [List.mem_cons, List.not_mem_nil, or_false, forall_eq]
      rw [String.toList_append, List.getLast?_append_of_ne_nil _ (by decide)]; decide)
    have nn : ∀ n ∈ [f.dataDir ++ "p0/" ++ "elements.ec"].map canon,
        n ≠ canon (f.dataDir ++ "p1/" ++ "plaintext.tree") ∧ n ≠ canon (f.dataDir ++ "p0/" ++ "encrypted.tree") := by
      simp only [List.map_cons, List.map_nil, List.mem_cons, List.not_mem_nil, or_false, forall_eq]
      exact ⟨name_ne _ _ _ _ _ (by decide) (by decide) (by decide), name_ne _ _ _ _ _ (by decide) (by decide) (by decide)⟩
    refine ⟨gen, hs0, ?_, ?_, ?_, ?_, nz0, nz1, fun h0 => absurd h0 (by omega), fun _ => ⟨?_, fun h0 => ?_, fun h0 => ?_⟩⟩
    · exact (readDaily_same (by decide) sc _ f.days 1).trans ((readDaily_same (by decide) sb _ f.days 1).trans r0)
    · exact (readDaily_same (by decide) sc _ f.days 1).trans ((readDaily_same (by decide) sb _ f.days 1).trans r1)
    · exact (ogParty_same (by decide) (by decide) sc c f.outDir "p0" "p1").trans p0w
    · exact (ogParty_same (by decide) (by decide) sc c f.outDir "p1" "p0").trans p1w
    · refine ⟨f1, hx, b1.keep d2 (fun hm => (nn _ hm).1 rfl), b2.keep d2 (fun hm => (nn _ hm).2 rfl), d1 _ rfl,
        ⟨ρ.tree1, wf1, g1⟩, ?_⟩
      rw [← w2]
      exact writeHX_keys cu H ⟨g, q, x0, x1⟩ ⟨0, 0, x0, x1⟩ rfl rfl _
    · simp [h0]
    · simp only [h0, if_true, printedOg, initCount_spec _ (List.nodup_append.1 gen.nodup1).1]
  · rw [if_neg hst] at h
    simp only [Outcome.pure_eq, Outcome.ok.injEq] at h
    subst h
    refine ⟨gen, hs0, r0, r1, p0d, p1d, nz0, nz1, fun _ => ⟨rfl, rfl, fun n hn => ?_⟩, fun h0 => absurd h0 hst⟩
    refine (sv.2 n (by rw [hn]; decide)).trans (sk.2 n (fun hm => ?_))
    simp only [List.map_cons, List.map_nil, List.mem_cons, List.not_mem_nil, or_false] at hm
    rcases hm with rfl | rfl | rfl | rfl <;>
      (rw [canon_last, String.toList_append, List.getLast?_append_of_ne_nil _ (by decide)] at hn; revert hn; decide)

end Upsi.Main
