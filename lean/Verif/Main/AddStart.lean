import Verif.Main.GenFacts
import Verif.Main.TreeSizes
import Verif.Setup.ImportSum
/- What the programs of the addition-only protocols find after addition/setup.cc (helper lemmas for C74). -/
namespace Upsi.Main
open Upsi Upsi.Rec Upsi.ElGamal Upsi.Tree Upsi.Proto Upsi.Setup Upsi.Wire Upsi.Data

variable {G : Type} [AddCommGroup G] [DecidableEq G]

/-- Sizes the programs can handle: fewer than `2^30` elements per party, payloads of 31 bits, tree sizes of 31 bits, elements
of at most 64 bits that are smaller than the group order. -/
structure SizesOK (L B q stash node : Nat) (f : SetupFlags) : Prop where
  total : f.start + f.days * f.daily < 2 ^ 30
  maxPos : 0 < f.maxValue
  maxValue : f.maxValue < 2 ^ 31
  stash : stash < 2 ^ 31
  node : node < 2 ^ 31
  len : 0 < L
  bound : B ≤ 2 ^ 64
  order : B ≤ q

/-- The random choices of setup are as the program draws them: data (`DrawsOK`), path identifiers of 256 bits, one per initial
element, and padding elements in `[B, q)`. -/
structure SetupRand.OK (L B q : Nat) (f : SetupFlags) (ρ : SetupRand) : Prop where
  draws : DrawsOK L B f.days f.daily f.start (sharedSize f).toNat f.maxValue.toNat ρ.data
  hsh0 : ρ.tree0.hsh.length = f.start ∧ ∀ h ∈ ρ.tree0.hsh, h.length = 256
  hsh1 : ρ.tree1.hsh.length = f.start ∧ ∀ h ∈ ρ.tree1.hsh, h.length = 256
  pads0 : ∀ i j, B ≤ (ρ.tree0.pads i j).1 ∧ (ρ.tree0.pads i j).1 < q
  pads1 : ∀ i j, B ≤ ρ.tree1.pads i j ∧ ρ.tree1.pads i j < q

theorem party_same {ch : Char} (h1 : ch ≠ 'b') (h2 : ch ≠ 'y') {fs fs' : FS} (h : SameBut ch fs fs') (c : Codec G) (out p : String) :
    additionParty c out p fs' = additionParty c out p fs := by
  have e : ∀ (t : String) (x : Char), t.toList.getLast? = some x → ch ≠ x → (out ++ p ++ t).toList.getLast? ≠ some ch := by
    intro t x hx hne
    rw [String.toList_append, List.getLast?_append_of_ne_nil _ (by intro h0; rw [h0] at hx; simp at hx), hx]
    exact fun e => hne (Option.some.inj e).symm
  unfold additionParty
  rw [h.key PkProto.parse (e "/shared.pub" 'b' (by decide) h1), h.key SkProto.parse (e "/elgamal.key" 'y' (by decide) h2),
    h.key TkProto.parse (e "/paillier.key" 'y' (by decide) h2)]

theorem readKey_canon {N : Type} (parse : Rec.Bytes → N) {n n' : String} (h : canon n = canon n') (fs : FS) :
    readKey parse n fs = readKey parse n' fs := by
  unfold readKey readProtoFromFile openRead
  rw [h]

theorem getElGamal_of_party {c : Codec G} {out p p' : String} (hn : canon (out ++ p' ++ "shared.pub") = canon (out ++ p ++ "/shared.pub"))
    {fs : FS} {k : AddKeys G} (h : additionParty c out p fs = .ok k) :
    getElGamal c (out ++ p' ++ "shared.pub") fs = .ok k.pk := by
  simp only [additionParty, Outcome.bind_eq_ok, Outcome.pure_eq, Outcome.ok.injEq] at h
  obtain ⟨a, ha, b, hb, _, _, _, _, _, _, rfl⟩ := h
  have vo : ∀ {A : Type} {x : Outcome A} {y : A}, valueOf x = .ok y → x = .ok y := by
    intro A x y h; cases x <;> simp_all [valueOf]
  rw [getElGamal, readKey_canon _ hn, vo ha, Outcome.bind_ok, vo hb]

theorem sameBut_of_except {ch : Char} {fs fs' : FS} {names : List String} (h : SameExcept fs fs' names)
    (hn : ∀ n ∈ names, n.toList.getLast? = some ch) : SameBut ch fs fs' := by
  refine ⟨h.1, fun n hl => h.2 n (fun hm => ?_)⟩
  obtain ⟨m, hm', rfl⟩ := List.mem_map.1 hm
  rw [canon_last] at hl
  exact hl (hn m hm')

theorem tree_last (D p t : String) (h : t.toList.getLast? = some 'e') : (D ++ p ++ t).toList.getLast? = some 'e' := by
  rw [String.toList_append, List.getLast?_append_of_ne_nil _ (by intro h0; rw [h0] at h; simp at h), h]

theorem orAbort_ok {A : Type} {x : Outcome A} {y : A} (h : orAbort x = .ok y) : x = .ok y := by
  cases x <;> simp_all [orAbort]

/-- The sum over all common elements. -/
theorem GenFacts.sum_le {L B days daily start shared maxValue : Nat} {gs : GenSets}
    (gen : GenFacts L B days daily start shared maxValue gs) : gs.sum ≤ (shared : Int) * maxValue := by
  have hval : ∀ v ∈ allValues gs.tree0 gs.days0, 0 ≤ v ∧ v ≤ (maxValue : Int) := by
    intro v hv
    rcases List.mem_append.1 hv with hv | hv
    · have := gen.vals gs.tree0 (by simp) v hv; omega
    · obtain ⟨d, hd, hv⟩ := List.mem_flatMap.1 hv
      have := gen.vals d (by simp [hd]) v hv; omega
  have hle : ∀ l : List (Data.Bytes × Int), (∀ e ∈ l, e.2 ≤ (maxValue : Int)) →
      (l.map Prod.snd).sum ≤ (maxValue : Int) * l.length := by
    intro l
    induction l with
    | nil => intro _; simp
    | cons e l ih =>
      intro hl
      have h1 := ih (fun x hx => hl x (by simp [hx]))
      have h2 := hl e (by simp)
      simp only [List.map_cons, List.sum_cons, List.length_cons]
      push_cast
      rw [Int.mul_add]
      omega
  rw [gen.sum, sharedSum]
  have hz : ∀ e ∈ ((allElements gs.tree0 gs.days0).zip (allValues gs.tree0 gs.days0)).filter
      (fun e => e.1 ∈ allElements gs.tree1 gs.days1), e.2 ≤ (maxValue : Int) := fun e he =>
    (hval _ (List.of_mem_zip (List.mem_filter.1 he).1).2).2
  refine le_trans (hle _ hz) ?_
  have hlen : (((allElements gs.tree0 gs.days0).zip (allValues gs.tree0 gs.days0)).filter
      (fun e => e.1 ∈ allElements gs.tree1 gs.days1)).length ≤ shared := by
    rw [← gen.common]
    have : ∀ (es : List Data.Bytes) (vs : List Int) (p : Data.Bytes → Bool), ((es.zip vs).filter (fun e => p e.1)).length ≤ (es.filter p).length := by
      intro es
      induction es with
      | nil => intro vs p; simp
      | cons e es ih =>
        intro vs p
        cases vs with
        | nil => simp
        | cons v vs =>
          have := ih vs p
          simp only [List.zip_cons_cons, List.filter_cons]
          split <;> (try simp only [List.length_cons]) <;> omega
    exact this _ _ (fun e => decide (e ∈ allElements gs.tree1 gs.days1))
  rw [Int.mul_comm]
  exact Int.mul_le_mul_of_nonneg_right (by exact_mod_cast hlen) (by positivity)

/-- What the parties find. -/
structure FoundWith (Files : List (Nat × Int) → List Nat → TreeFiles → TreeFiles → List (Nat × Int) → List Nat → Prop) (c : Codec G)
    (L B : Nat) (f : SetupFlags) (o : SetupOut) (S : Setup G) (gs : GenSets) (k0 k1 : Paillier.TKey) : Prop where
  gen : GenFacts L B f.days f.daily f.start (sharedSize f).toNat f.maxValue.toNat gs
  shared : 0 ≤ sharedSize f
  sumSmall : gs.sum < 2 ^ 63
  daily0 : readDaily (f.dataDir ++ "p0/") o.fs f.days 1 = .ok gs.days0
  daily1 : readDaily (f.dataDir ++ "p1/") o.fs f.days 1 = .ok gs.days1
  keys0 : additionParty c f.outDir "p0" o.fs = .ok ⟨S.pk, S.sk0, k0⟩
  keys1 : additionParty c f.outDir "p1" o.fs = .ok ⟨S.pk, S.sk1, k1⟩
  fresh : f.start = 0 → o.lost0 = [] ∧ o.lost1 = [] ∧ o.printed = some (sharedSize f, gs.sum)
  init : 0 < f.start → (∃ f0 f1, Reads o.fs parsePTree (f.dataDir ++ "p0/" ++ "plaintext.tree") f0.plain ∧
      Reads o.fs parseETree (f.dataDir ++ "p1/" ++ "encrypted.tree") f0.enc ∧
      Reads o.fs parsePTree (f.dataDir ++ "p1/" ++ "plaintext.tree") f1.plain ∧
      Reads o.fs parseETree (f.dataDir ++ "p0/" ++ "encrypted.tree") f1.enc ∧
      Files (rows gs.tree0) (gs.tree1.elements.map digitsValue) f0 f1 o.lost0 o.lost1) ∧
    (f.expected = false → o.printed = none) ∧
    (f.expected = true → o.printed = some (sharedSize f - (initialMatches gs).length,
      gs.sum - int32 (((initialMatches gs).map Prod.snd).sum)))

/-- What the parties find after a setup without `--func=SS`. -/
abbrev Found (c : Codec G) (hashOf : Nat → List Bool) (L B stash node : Nat) (f : SetupFlags) (o : SetupOut) (S : Setup G) (gs : GenSets)
    (k0 k1 : Paillier.TKey) : Prop := FoundWith (SetupFiles S c hashOf B stash node) c L B f o S gs k0 k1

/-- Party zero's trees are made with `gen0`, which only has to produce trees that fit the files (`Gen0 S k0`). -/
theorem setup_found_with (c : Codec G) (g : G) (q : Nat) (hq : q.Prime) (hcard : Nat.card G = q) (hg : g ≠ 0) {hashOf : Nat → List Bool}
    (hh : ∀ e, (hashOf e).length = 256) {L B stash node : Nat} {f : SetupFlags} (hf : SizesOK L B q stash node f) {ρ : SetupRand}
    (hρ : ρ.OK L B q f) {gen0 : List (Nat × Int) → FS → Outcome (TreeFiles × List (Nat × Int))}
    {Gen0 : Setup G → Paillier.TKey → List (Nat × Int) → TreeFiles → List (Nat × Int) → Prop}
    (hgen : ∀ (S : Setup G) k0 k1 X fd t l, S.g = g → S.q = q → additionParty c f.outDir "p0" fd = .ok ⟨S.pk, S.sk0, k0⟩ →
      Paillier.thresholdKeys ρ.paillier.p ρ.paillier.q ρ.paillier.r1 ρ.paillier.r2 ρ.paillier.sk1 = .ok (k0, k1) →
      X.length = f.start → gen0 X fd = .ok (t, l) →
      (SizesFit t.plain.stashSize t.plain.nodeSize t.plain.actualSize t.plain.depth ∧ (∀ n ∈ t.plain.nodes, n.nodeSize < 2 ^ 31) ∧
        SizesFit t.enc.stashSize t.enc.nodeSize t.enc.actualSize t.enc.depth) ∧ Gen0 S k0 X t l)
    {fs : FS} {o : SetupOut} (h : (setupAddition c g q ρ.coin0 ρ.coin1 ρ.paillier f.outDir fs >>=
      fun fs => generateData c gen0 hashOf stash node f ρ fs) = .ok o) :
    ∃ (S : Setup G) (gs : GenSets) (k0 k1 : Paillier.TKey), S.g = g ∧ S.q = q ∧
      FoundWith (fun X Y f0 f1 l0 l1 => Gen0 S k0 X f0 l0 ∧
        ∃ ρ : TreeCoins Nat, ρ.WF id B S.q Y ∧ genAdd1 c hashOf S.pk stash node Y ρ = .ok (f1, l1)) c L B f o S gs k0 k1 ∧
      Curve.generatePrivateKey ρ.coin0 q = .ok S.sk0 ∧ Curve.generatePrivateKey ρ.coin1 q = .ok S.sk1 ∧
      Paillier.thresholdKeys ρ.paillier.p ρ.paillier.q ρ.paillier.r1 ρ.paillier.r2 ρ.paillier.sk1 = .ok (k0, k1) ∧
      ((allElements gs.tree0 gs.days0).filter (fun e => e ∈ allElements gs.tree1 gs.days1)).Perm ρ.data.shared ∧
      genAddOnly f.days f.daily f.start (sharedSize f).toNat f.maxValue.toNat ρ.data = .ok gs := by
  simp only [Outcome.bind_eq_ok] at h
  obtain ⟨fk, hk, h⟩ := h
  obtain ⟨x0, x1, k0, k1, hx0, hx1, hth, p0, p1, -⟩ := C55_addition c g q ρ.coin0 ρ.coin1 ρ.paillier f.outDir fs fk hk
  simp only [generateData, Outcome.bind_eq_ok] at h
  obtain ⟨gs, hgs, fd, hfd, h⟩ := h
  have hgs := orAbort_ok hgs
  have hmax : (f.maxValue % 2 ^ 32).toNat = f.maxValue.toNat := by have := hf.maxPos; have := hf.maxValue; omega
  rw [hmax] at hgs
  have htot := hf.total
  obtain ⟨hsh, hov, gen⟩ := gen_facts hρ.draws (by omega) hgs
  have hm31 : f.maxValue.toNat < 2 ^ 32 := by have := hf.maxValue; omega
  obtain ⟨sv, r0, r1⟩ := daily_roundtrip gen.len0 gen.len1 (gen.good0 hm31) gen.good1 hfd
  have hs0 : 0 ≤ sharedSize f := by unfold sharedSize; split <;> omega
  have hsum : gs.sum < 2 ^ 63 := by
    have hdiv : (sharedSize f).toNat * f.maxValue.toNat ≤ 2 ^ 63 - 1 := (Nat.le_div_iff_mul_le (by have := hf.maxPos; omega)).1 hov
    have : ((sharedSize f).toNat : Int) * (f.maxValue.toNat : Int) < 2 ^ 63 := by
      have h : (sharedSize f).toNat * f.maxValue.toNat < 2 ^ 63 := by omega
      exact_mod_cast h
    exact lt_of_le_of_lt gen.sum_le this
  refine ⟨⟨g, q, x0, x1, hq, hcard, hg⟩, gs, k0, k1, rfl, rfl, ?_, hx0, hx1, hth, gen_common hρ.draws (by omega) hgs, hgs⟩
  have p0d := (party_same (by decide) (by decide) sv c f.outDir "p0").trans p0
  have p1d := (party_same (by decide) (by decide) sv c f.outDir "p1").trans p1
  by_cases hst : f.start > 0
  · rw [if_pos hst] at h
    simp only [Outcome.bind_eq_ok] at h
    obtain ⟨⟨fe, l0, l1⟩, hw, h⟩ := h
    -- the trees
    have num0 : ∀ e ∈ gs.tree0.elements, Numeric e := fun e he => (gen.str0 gs.tree0 (by simp) e he).numeric hf.len hf.bound
    have num1 : ∀ e ∈ gs.tree1.elements, Numeric e := fun e he => (gen.str1 gs.tree1 (by simp) e he).numeric hf.len hf.bound
    obtain ⟨r, er, er'⟩ := pairs_rows gs.tree0 num0 (by rw [gen.t0.1, gen.t0.2]) (fun v hv => by
      have := (gen.vals gs.tree0 (by simp) v hv).1; omega)
    have n1 : canon (f.outDir ++ "p1/" ++ "shared.pub") = canon (f.outDir ++ "p1" ++ "/shared.pub") :=
      name_eq _ _ _ _ _ (by decide) (by decide) (by decide)
    simp only [writeInitial, er, orAbort, Outcome.bind_ok, er', C57_elements_exact gs.tree1 num1,
      Outcome.bind_eq_ok] at hw
    obtain ⟨⟨f0, lost0⟩, g0, fw, w0, pk1, hpk1, ⟨f1, lost1⟩, g1, fw', w1, hw⟩ := hw
    simp only [Outcome.pure_eq, Outcome.ok.injEq, Prod.mk.injEq] at hw
    obtain ⟨rfl, rfl, rfl⟩ := hw
    have hX0 : (rows gs.tree0).length = f.start := by
      rw [rows, List.length_zip, List.length_map, gen.t0.1, gen.t0.2, Nat.min_self]
    have hY0 : (gs.tree1.elements.map digitsValue).length = f.start := by rw [List.length_map, gen.t1.1]
    have wf1 : ρ.tree1.WF id B q (gs.tree1.elements.map digitsValue) := ⟨⟨by rw [hY0]; exact hρ.hsh1.1, hρ.hsh1.2⟩, hρ.pads1⟩
    obtain ⟨⟨z1, z2, z3⟩, z4⟩ := hgen ⟨g, q, x0, x1, hq, hcard, hg⟩ k0 k1 _ _ _ _ rfl rfl p0d hth hX0 g0
    obtain ⟨y1, y2, y3⟩ := generateTrees_sizes (fun e => hh _) (PostOK.id _) wf1.hsh (by rw [hY0]; omega) hf.stash hf.node g1
    obtain ⟨a1, a2, a3⟩ := writeTrees_spec z1 z2 z3 (D := f.dataDir) (Or.inl rfl) (Or.inr rfl) w0
    obtain ⟨b1, b2, b3⟩ := writeTrees_spec y1 y2 y3 (D := f.dataDir) (Or.inr rfl) (Or.inl rfl) w1
    have sa : SameBut 'e' fd fw := sameBut_of_except a3 (by
      simp only [List.mem_cons, List.not_mem_nil, or_false, forall_eq_or_imp, forall_eq]
      exact ⟨tree_last _ _ _ (by decide), tree_last _ _ _ (by decide)⟩)
    have sb : SameBut 'e' fw fw' := sameBut_of_except b3 (by
      simp only [List.mem_cons, List.not_mem_nil, or_false, forall_eq_or_imp, forall_eq]
      exact ⟨tree_last _ _ _ (by decide), tree_last _ _ _ (by decide)⟩)
    have p1w := (party_same (by decide) (by decide) sa c f.outDir "p1").trans p1d
    obtain rfl := Outcome.ok.inj (hpk1.symm.trans (getElGamal_of_party n1 p1w))
    have se := sa.trans sb
    have nn : ∀ n ∈ [f.dataDir ++ "p1/" ++ "plaintext.tree", f.dataDir ++ "p0/" ++ "encrypted.tree"].map canon,
        n ≠ canon (f.dataDir ++ "p0/" ++ "plaintext.tree") ∧ n ≠ canon (f.dataDir ++ "p1/" ++ "encrypted.tree") := by
      simp only [List.map_cons, List.map_nil, List.mem_cons, List.not_mem_nil, or_false, forall_eq_or_imp, forall_eq]
      exact ⟨⟨name_ne _ _ _ _ _ (by decide) (by decide) (by decide), name_ne _ _ _ _ _ (by decide) (by decide) (by decide)⟩,
        name_ne _ _ _ _ _ (by decide) (by decide) (by decide), name_ne _ _ _ _ _ (by decide) (by decide) (by decide)⟩
    have files : ∀ o : SetupOut, o.fs = fw' → o.lost0 = lost0 → o.lost1 = lost1 →
        (∃ f0 f1, Reads o.fs parsePTree (f.dataDir ++ "p0/" ++ "plaintext.tree") f0.plain ∧
        Reads o.fs parseETree (f.dataDir ++ "p1/" ++ "encrypted.tree") f0.enc ∧
        Reads o.fs parsePTree (f.dataDir ++ "p1/" ++ "plaintext.tree") f1.plain ∧
        Reads o.fs parseETree (f.dataDir ++ "p0/" ++ "encrypted.tree") f1.enc ∧
        Gen0 ⟨g, q, x0, x1, hq, hcard, hg⟩ k0 (rows gs.tree0) f0 o.lost0 ∧
        ∃ ρ : TreeCoins Nat, ρ.WF id B q (gs.tree1.elements.map digitsValue) ∧
          genAdd1 c hashOf (⟨g, q, x0, x1, hq, hcard, hg⟩ : Setup G).pk stash node (gs.tree1.elements.map digitsValue) ρ = .ok (f1, o.lost1)) := by
      intro o e1 e2 e3
      rw [e1, e2, e3]
      exact ⟨f0, f1, a1.keep b3 (fun hm => (nn _ hm).1 rfl), a2.keep b3 (fun hm => (nn _ hm).2 rfl), b1, b2,
        z4, ρ.tree1, wf1, g1⟩
    have p0e := (party_same (by decide) (by decide) se c f.outDir "p0").trans p0d
    have p1e := (party_same (by decide) (by decide) se c f.outDir "p1").trans p1d
    have d0e := (readDaily_same (by decide) se (f.dataDir ++ "p0/") f.days 1).trans r0
    have d1e := (readDaily_same (by decide) se (f.dataDir ++ "p1/") f.days 1).trans r1
    by_cases hx : f.expected = true
    · rw [if_pos hx] at h
      simp only [Outcome.bind_eq_ok] at h
      obtain ⟨⟨ca, sm⟩, hi, h⟩ := h
      split at h
      · simp only [Outcome.pure_eq, Outcome.ok.injEq] at h
        subst h
        have nd1 : gs.tree1.elements.Nodup := (List.nodup_append.1 gen.nodup1).1
        obtain ⟨i1, i2⟩ := initGo_spec gs.tree1.elements nd1 gs.tree0.elements gs.tree0.values 0 0 ca sm
          (by rw [int32_range 0 (by norm_num) (by norm_num)]; exact hi)
        refine ⟨gen, hs0, hsum, d0e, d1e, p0e, p1e, fun h0 => absurd h0 (by omega), fun _ => ⟨files _ rfl rfl rfl, fun h0 => ?_, fun _ => ?_⟩⟩
        · rw [hx] at h0; simp at h0
        · rw [i1, i2, Int.zero_add, Int.zero_add]; rfl
      · simp at h
    · rw [if_neg hx] at h
      simp only [Outcome.pure_eq, Outcome.ok.injEq] at h
      subst h
      exact ⟨gen, hs0, hsum, d0e, d1e, p0e, p1e, fun h0 => absurd h0 (by omega), fun _ => ⟨files _ rfl rfl rfl, fun _ => rfl, fun h0 => absurd h0 hx⟩⟩
  · rw [if_neg hst] at h
    simp only [Outcome.pure_eq, Outcome.ok.injEq] at h
    subst h
    exact ⟨gen, hs0, hsum, r0, r1, p0d, p1d, fun _ => ⟨rfl, rfl, rfl⟩, fun h0 => absurd h0 hst⟩

theorem setup_found (c : Codec G) (g : G) (q : Nat) (hq : q.Prime) (hcard : Nat.card G = q) (hg : g ≠ 0) {hashOf : Nat → List Bool}
    (hh : ∀ e, (hashOf e).length = 256) {L B stash node : Nat} {f : SetupFlags} (hf : SizesOK L B q stash node f) {ρ : SetupRand}
    (hρ : ρ.OK L B q f) {fs : FS} {o : SetupOut} (h : setupMain c g q hashOf stash node f ρ fs = .ok o) :
    ∃ (S : Setup G) (gs : GenSets) (k0 k1 : Paillier.TKey), S.g = g ∧ S.q = q ∧ Found c hashOf L B stash node f o S gs k0 k1 ∧
      Curve.generatePrivateKey ρ.coin0 q = .ok S.sk0 ∧ Curve.generatePrivateKey ρ.coin1 q = .ok S.sk1 ∧
      Paillier.thresholdKeys ρ.paillier.p ρ.paillier.q ρ.paillier.r1 ρ.paillier.r2 ρ.paillier.sk1 = .ok (k0, k1) ∧
      ((allElements gs.tree0 gs.days0).filter (fun e => e ∈ allElements gs.tree1 gs.days1)).Perm ρ.data.shared ∧
      genAddOnly f.days f.daily f.start (sharedSize f).toNat f.maxValue.toNat ρ.data = .ok gs := by
  obtain ⟨S, gs, k0, k1, e1, e2, F, r⟩ := setup_found_with c g q hq hcard hg hh hf hρ
    (gen0 := initialTrees0 c hashOf stash node f ρ)
    (Gen0 := fun S _ X t l => ∃ ρ : TreeCoins (Nat × Int), ρ.WF Prod.fst B S.q X ∧ genAdd0 c hashOf S.pk stash node X ρ = .ok (t, l))
    (fun S k0 k1 X fd t l e1 e2 hp _ hX h0 => by
      have n0 : canon (f.outDir ++ "p0/" ++ "shared.pub") = canon (f.outDir ++ "p0" ++ "/shared.pub") :=
        name_eq _ _ _ _ _ (by decide) (by decide) (by decide)
      rw [initialTrees0, getElGamal_of_party n0 hp, Outcome.bind_ok] at h0
      have wf0 : ρ.tree0.WF Prod.fst B S.q X := ⟨⟨by rw [hX]; exact hρ.hsh0.1, hρ.hsh0.2⟩, by rw [e2]; exact hρ.pads0⟩
      exact ⟨generateTrees_sizes (fun e => hh _) (PostOK.id _) wf0.hsh (by have := hf.total; rw [hX]; omega) hf.stash hf.node h0,
        ρ.tree0, wf0, h0⟩) h
  refine ⟨S, gs, k0, k1, e1, e2, ⟨F.gen, F.shared, F.sumSmall, F.daily0, F.daily1, F.keys0, F.keys1, F.fresh, fun hs => ?_⟩, r⟩
  obtain ⟨⟨f0, f1, r1, r2, r3, r4, r5, r6⟩, r7⟩ := F.init hs
  exact ⟨⟨f0, f1, r1, r2, r3, r4, r5, r6⟩, r7⟩

theorem paillier_of_party {c : Codec G} {out p p' : String} (hn : canon (out ++ p' ++ "paillier.key") = canon (out ++ p ++ "/paillier.key"))
    {fs : FS} {k : AddKeys G} (h : additionParty c out p fs = .ok k) :
    ∃ m, readKey TkProto.parse (out ++ p' ++ "paillier.key") fs = .ok m ∧ m.key = k.paillier := by
  simp only [additionParty, Outcome.bind_eq_ok, Outcome.pure_eq, Outcome.ok.injEq] at h
  obtain ⟨a, ha, b, hb, _, _, _, _, m, hm, rfl⟩ := h
  have vo : ∀ {A : Type} {x : Outcome A} {y : A}, valueOf x = .ok y → x = .ok y := by
    intro A x y h; cases x <;> simp_all [valueOf]
  exact ⟨m, by rw [readKey_canon _ hn, vo hm], rfl⟩

theorem setup_foundSS (c : Codec G) (g : G) (q : Nat) (hq : q.Prime) (hcard : Nat.card G = q) (hg : g ≠ 0) {hashOf : Nat → List Bool}
    (hh : ∀ e, (hashOf e).length = 256) {L B stash node : Nat} {f : SetupFlags} (hf : SizesOK L B q stash node f) {ρ : SetupRand}
    (hρ : ρ.OK L B q f) (mont : Int → Option Num.Mont) (x : Int) {fs : FS} {o : SetupOut}
    (h : setupMainSS c g q mont x hashOf stash node f ρ fs = .ok o) :
    ∃ (S : Setup G) (gs : GenSets) (k0 k1 : Paillier.TKey), S.g = g ∧ S.q = q ∧
      FoundWith (fun X Y f0 f1 l0 l1 => ∃ pub, Paillier.Public.new x k0.n 1 = .ok pub ∧
        SetupFilesSS S c mont ⟨k0, pub⟩ hashOf B stash node X Y f0 f1 l0 l1) c L B f o S gs k0 k1 ∧
      Paillier.thresholdKeys ρ.paillier.p ρ.paillier.q ρ.paillier.r1 ρ.paillier.r2 ρ.paillier.sk1 = .ok (k0, k1) ∧
      ((allElements gs.tree0 gs.days0).filter (fun e => e ∈ allElements gs.tree1 gs.days1)).Perm ρ.data.shared ∧
      genAddOnly f.days f.daily f.start (sharedSize f).toNat f.maxValue.toNat ρ.data = .ok gs := by
  obtain ⟨S, gs, k0, k1, e1, e2, F, -, -, r⟩ := setup_found_with c g q hq hcard hg hh hf hρ
    (gen0 := initialTrees0SS c mont x hashOf stash node f ρ)
    (Gen0 := fun S k0 X t l => ∃ pub, Paillier.Public.new x k0.n 1 = .ok pub ∧ ∃ ρ : TreeCoins (Nat × Int), ρ.WF Prod.fst B S.q X ∧
      genAdd0SS c mont ⟨k0, pub⟩ hashOf S.pk stash node X ρ = .ok (t, l))
    (fun S k0 k1 X fd t l e1 e2 hp _ hX h0 => by
      have n0 : canon (f.outDir ++ "p0/" ++ "shared.pub") = canon (f.outDir ++ "p0" ++ "/shared.pub") :=
        name_eq _ _ _ _ _ (by decide) (by decide) (by decide)
      have n1 : canon (f.outDir ++ "p0/" ++ "paillier.key") = canon (f.outDir ++ "p0" ++ "/paillier.key") :=
        name_eq _ _ _ _ _ (by decide) (by decide) (by decide)
      obtain ⟨m, hm, em⟩ := paillier_of_party n1 hp
      rw [initialTrees0SS, getElGamal_of_party n0 hp, Outcome.bind_ok, hm, Outcome.bind_ok, em] at h0
      simp only [Outcome.bind_eq_ok] at h0
      obtain ⟨pub, hpub, h0⟩ := h0
      have wf0 : ρ.tree0.WF Prod.fst B S.q X := ⟨⟨by rw [hX]; exact hρ.hsh0.1, hρ.hsh0.2⟩, by rw [e2]; exact hρ.pads0⟩
      exact ⟨generateTrees_sizes (fun e => hh _) (PostOK.id _) wf0.hsh (by have := hf.total; rw [hX]; omega) hf.stash hf.node h0,
        pub, hpub, ρ.tree0, wf0, h0⟩) h
  refine ⟨S, gs, k0, k1, e1, e2, ⟨F.gen, F.shared, F.sumSmall, F.daily0, F.daily1, F.keys0, F.keys1, F.fresh, fun hs => ?_⟩, r⟩
  obtain ⟨⟨f0, f1, r1, r2, r3, r4, ⟨pub, hpub, r5⟩, r6⟩, r7⟩ := F.init hs
  exact ⟨⟨f0, f1, r1, r2, r3, r4, pub, hpub, r5, r6⟩, r7⟩

end Upsi.Main
