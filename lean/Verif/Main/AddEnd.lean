import Verif.Main.AddStart
/-
C74: the programs addition/setup.cc and addition/run.cc together.  What the parties of a functionality report is what setup
printed as the expected result.
-/
namespace Upsi.Main
open Upsi Upsi.Rec Upsi.ElGamal Upsi.Tree Upsi.Proto Upsi.Setup Upsi.Wire Upsi.Data

variable {G : Type} [AddCommGroup G] [DecidableEq G]

/-- The coins of a day on which both parties add `daily` elements: path identifiers of 256 bits, padding elements in `[B, q)`,
a shuffle that permutes, masks that are not multiples of the group order. -/
structure DayCoinsOK (key : P → Nat) (B q daily : Nat) (ρ : Coins G P κ) : Prop where
  hsh0 : ρ.hsh0.length = daily ∧ ∀ h ∈ ρ.hsh0, h.length = 256
  hsh1 : ρ.hsh1.length = daily ∧ ∀ h ∈ ρ.hsh1, h.length = 256
  pads0 : ∀ i j, B ≤ key (ρ.pads0 i j) ∧ key (ρ.pads0 i j) < q
  pads1 : ∀ i j, B ≤ ρ.pads1 i j ∧ ρ.pads1 i j < q
  shuffle : ∀ l, (ρ.shuffle l).Perm l
  masks : ∀ i, ¬ (q : Int) ∣ ρ.masks i 0

/-- The flags of run.cc that go with those of setup.cc: the same directories and days, `--trees` iff there are initial sets. -/
def RunFlags.of (f : SetupFlags) : RunFlags := ⟨f.dataDir, f.outDir, f.days, decide (0 < f.start)⟩

/-! ### lists -/

theorem zip_flatMap_l {α β γ : Type} (p : α → List γ) : ∀ (xs : List α) (ys : List β), xs.length = ys.length →
    (xs.zip ys).flatMap (fun e => p e.1) = xs.flatMap p
  | [], ys, _ => by simp
  | x :: xs, [], h => by simp at h
  | x :: xs, y :: ys, h => by
    simp only [List.zip_cons_cons, List.flatMap_cons]
    rw [zip_flatMap_l p xs ys (by simpa using h)]

theorem zip_flatMap_r {α β γ : Type} (p : β → List γ) : ∀ (xs : List α) (ys : List β), xs.length = ys.length →
    (xs.zip ys).flatMap (fun e => p e.2) = ys.flatMap p
  | [], [], _ => by simp
  | [], y :: ys, h => by simp at h
  | x :: xs, [], h => by simp at h
  | x :: xs, y :: ys, h => by
    simp only [List.zip_cons_cons, List.flatMap_cons]
    rw [zip_flatMap_r p xs ys (by simpa using h)]

theorem mapIdx_flatMap {α β γ : Type} (g : Nat → α → β) (p : β → List γ) (q : α → List γ) (h : ∀ i a, p (g i a) = q a) :
    ∀ l : List α, (l.mapIdx g).flatMap p = l.flatMap q := by
  intro l
  induction l generalizing g with
  | nil => simp
  | cons a l ih =>
    rw [List.mapIdx_cons, List.flatMap_cons, List.flatMap_cons, h, ih (fun i => g (i + 1)) (fun i a => h (i + 1) a)]

omit [AddCommGroup G] [DecidableEq G] in
theorem allX_mkDays {xs : List (List P)} {ys : List (List Nat)} (h : xs.length = ys.length) (coins : Nat → Coins G P κ) :
    allX (mkDays xs ys coins) = xs.flatten := by
  unfold allX mkDays
  rw [mapIdx_flatMap (fun i p => (⟨p.1, p.2, coins i⟩ : DayIn G P κ)) _ (fun e : List P × List Nat => e.1) (fun _ _ => rfl), zip_flatMap_l (fun x => x) xs ys h]
  exact List.flatMap_id

omit [AddCommGroup G] [DecidableEq G] in
theorem allY_mkDays {xs : List (List P)} {ys : List (List Nat)} (h : xs.length = ys.length) (coins : Nat → Coins G P κ) :
    allY (mkDays xs ys coins) = ys.flatten := by
  unfold allY mkDays
  rw [mapIdx_flatMap (fun i p => (⟨p.1, p.2, coins i⟩ : DayIn G P κ)) _ (fun e : List P × List Nat => e.2) (fun _ _ => rfl), zip_flatMap_r (fun x => x) xs ys h]
  exact List.flatMap_id

omit [AddCommGroup G] [DecidableEq G] in
theorem mem_mkDays {xs : List (List P)} {ys : List (List Nat)} {coins : Nat → Coins G P κ} {d : DayIn G P κ}
    (h : d ∈ mkDays xs ys coins) : ∃ i, i < xs.length ∧ d.xs ∈ xs ∧ d.ys ∈ ys ∧ d.coins = coins i := by
  unfold mkDays at h
  obtain ⟨i, hi, e⟩ := List.mem_mapIdx.1 h
  have hm : ((xs.zip ys)[i]) ∈ xs.zip ys := List.getElem_mem hi
  obtain ⟨m1, m2⟩ := List.of_mem_zip (a := ((xs.zip ys)[i]).1) (b := ((xs.zip ys)[i]).2) hm
  subst e
  rw [List.length_zip] at hi
  exact ⟨i, by omega, m1, m2, rfl⟩

omit [AddCommGroup G] [DecidableEq G] in
theorem mkDays_length {xs : List (List P)} {ys : List (List Nat)} {coins : Nat → Coins G P κ} :
    (mkDays xs ys coins).length = min xs.length ys.length := by
  simp [mkDays]

theorem zip_flatten_rows : ∀ (t : Dataset) (ds : List Dataset), t.values.length = t.elements.length →
    (∀ d ∈ ds, d.values.length = d.elements.length) →
    rows t ++ (ds.map rows).flatten = ((allElements t ds).map digitsValue).zip (allValues t ds) := by
  intro t ds ht hd
  have : ∀ ds : List Dataset, (∀ d ∈ ds, d.values.length = d.elements.length) →
      (ds.map rows).flatten = ((ds.flatMap (·.elements)).map digitsValue).zip (ds.flatMap (·.values)) := by
    intro ds
    induction ds with
    | nil => intro _; rfl
    | cons d ds ih =>
      intro h
      rw [List.map_cons, List.flatten_cons, ih (fun x hx => h x (by simp [hx])), List.flatMap_cons, List.flatMap_cons,
        List.map_append, List.zip_append (by rw [List.length_map, h d (by simp)])]
      rfl
  rw [this ds hd, allElements, allValues, List.map_append, List.zip_append (by rw [List.length_map, ht])]
  rfl

theorem flatten_elems (t : Dataset) (ds : List Dataset) :
    t.elements.map digitsValue ++ (ds.map (fun d => d.elements.map digitsValue)).flatten = (allElements t ds).map digitsValue := by
  rw [allElements, List.map_append, List.map_flatMap, List.flatMap_def]

/-- Matching by number is matching by string. -/
theorem mem_values {L B : Nat} {e : Data.Bytes} {l : List Data.Bytes} (he : DigitString L B e) (hl : ∀ x ∈ l, DigitString L B x) :
    digitsValue e ∈ l.map digitsValue ↔ e ∈ l := by
  refine ⟨fun h => ?_, fun h => List.mem_map.2 ⟨e, h, rfl⟩⟩
  obtain ⟨x, hx, e'⟩ := List.mem_map.1 h
  rw [← digits_inj ((hl x hx).1.trans he.1.symm) (hl x hx).2.1 he.2.1 e']
  exact hx

theorem filter_values {L B : Nat} {a b : List Data.Bytes} (ha : ∀ x ∈ a, DigitString L B x) (hb : ∀ x ∈ b, DigitString L B x) :
    (a.map digitsValue).filter (fun x => x ∈ b.map digitsValue) = (a.filter (fun e => e ∈ b)).map digitsValue := by
  rw [List.filter_map]
  refine congrArg _ (List.filter_congr (fun x hx => ?_))
  exact decide_eq_decide.2 (mem_values (ha x hx) hb)

theorem filter_zip_values {L B : Nat} {a b : List Data.Bytes} (vs : List Int) (ha : ∀ x ∈ a, DigitString L B x)
    (hb : ∀ x ∈ b, DigitString L B x) :
    ((a.map digitsValue).zip vs).filter (fun p => p.1 ∈ b.map digitsValue) =
      ((a.zip vs).filter (fun e => e.1 ∈ b)).map (Prod.map digitsValue id) := by
  rw [List.zip_map_left, List.filter_map]
  refine congrArg _ (List.filter_congr (fun x hx => ?_))
  exact decide_eq_decide.2 (mem_values (ha _ (List.of_mem_zip hx).1) hb)

theorem sum_values (l : List (Data.Bytes × Int)) : valueSum (l.map (Prod.map digitsValue id)) = (l.map Prod.snd).sum := by
  unfold valueSum
  rw [List.map_map]
  rfl

theorem filter_zip_length {a : List Data.Bytes} {vs : List Int} (h : a.length = vs.length) (p : Data.Bytes → Bool) :
    ((a.zip vs).filter (fun e => p e.1)).length = (a.filter p).length := by
  induction a generalizing vs with
  | nil => simp
  | cons x a ih =>
    cases vs with
    | nil => simp at h
    | cons v vs =>
      have := ih (vs := vs) (by simpa using h)
      simp only [List.zip_cons_cons, List.filter_cons]
      split <;> simp [this]

/-! ### the facts about a generated history -/

section
variable {L B days daily start shared maxValue : Nat} {gs : GenSets}

theorem GenFacts.all0 (gen : GenFacts L B days daily start shared maxValue gs) : ∀ e ∈ allElements gs.tree0 gs.days0, DigitString L B e := by
  intro e he
  rcases List.mem_append.1 he with h | h
  · exact gen.str0 gs.tree0 (by simp) e h
  · obtain ⟨d, hd, h⟩ := List.mem_flatMap.1 h
    exact gen.str0 d (by simp [hd]) e h

theorem GenFacts.all1 (gen : GenFacts L B days daily start shared maxValue gs) : ∀ e ∈ allElements gs.tree1 gs.days1, DigitString L B e := by
  intro e he
  rcases List.mem_append.1 he with h | h
  · exact gen.str1 gs.tree1 (by simp) e h
  · obtain ⟨d, hd, h⟩ := List.mem_flatMap.1 h
    exact gen.str1 d (by simp [hd]) e h

theorem flatMap_length_const {α β : Type} (p : α → List β) (n : Nat) : ∀ l : List α, (∀ a ∈ l, (p a).length = n) →
    (l.flatMap p).length = l.length * n
  | [], _ => by simp
  | a :: l, h => by
    rw [List.flatMap_cons, List.length_append, h a (by simp), flatMap_length_const p n l (fun x hx => h x (by simp [hx])),
      List.length_cons, Nat.add_mul]
    omega

theorem GenFacts.total0 (gen : GenFacts L B days daily start shared maxValue gs) :
    (allElements gs.tree0 gs.days0).length = start + days * daily := by
  rw [allElements, List.length_append, gen.t0.1, flatMap_length_const _ daily _ (fun d hd => (gen.day0 d hd).1), gen.len0]

theorem GenFacts.total1 (gen : GenFacts L B days daily start shared maxValue gs) :
    (allElements gs.tree1 gs.days1).length = start + days * daily := by
  rw [allElements, List.length_append, gen.t1.1, flatMap_length_const _ daily _ (fun d hd => (gen.day1 d hd).1), gen.len1]

theorem GenFacts.totalV (gen : GenFacts L B days daily start shared maxValue gs) :
    (allValues gs.tree0 gs.days0).length = start + days * daily := by
  rw [allValues, List.length_append, gen.t0.2, flatMap_length_const _ daily _ (fun d hd => (gen.day0 d hd).2), gen.len0]

theorem GenFacts.valsAll (gen : GenFacts L B days daily start shared maxValue gs) :
    ∀ v ∈ allValues gs.tree0 gs.days0, 0 ≤ v ∧ v < maxValue := by
  intro v hv
  rcases List.mem_append.1 hv with h | h
  · exact gen.vals gs.tree0 (by simp) v h
  · obtain ⟨d, hd, h⟩ := List.mem_flatMap.1 h
    exact gen.vals d (by simp [hd]) v h

end

/-! ### both programs start -/

theorem readTrees_ok {f : SetupFlags} {fs : FS} {p : String} {a : PTree} {b : ETree}
    (h1 : Reads fs parsePTree (f.dataDir ++ p ++ "plaintext.tree") a) (h2 : Reads fs parseETree (f.dataDir ++ p ++ "encrypted.tree") b) :
    readTrees (RunFlags.of f) p fs = .ok ⟨a, b⟩ := by
  unfold readTrees
  have e1 : readKey parsePTree ((RunFlags.of f).dataDir ++ p ++ "plaintext.tree") fs = .ok a := h1
  have e2 : readKey parseETree ((RunFlags.of f).dataDir ++ p ++ "encrypted.tree") fs = .ok b := h2
  rw [e1, e2]
  rfl

section
variable {c : Codec G} {hashOf : Nat → List Bool} {L B q stash node : Nat} {f : SetupFlags} {o : SetupOut} {S : Setup G} {gs : GenSets}
  {k0 k1 : Paillier.TKey} {Files : List (Nat × Int) → List Nat → TreeFiles → TreeFiles → List (Nat × Int) → List Nat → Prop}

theorem FoundWith.num0 (F : FoundWith Files c L B f o S gs k0 k1) (hf : SizesOK L B q stash node f) :
    ∀ d ∈ gs.days0, ∀ e ∈ d.elements, Numeric e :=
  fun d hd e he => (F.gen.str0 d (by simp [hd]) e he).numeric hf.len hf.bound

theorem FoundWith.num1 (F : FoundWith Files c L B f o S gs k0 k1) (hf : SizesOK L B q stash node f) :
    ∀ d ∈ gs.days1, ∀ e ∈ d.elements, Numeric e :=
  fun d hd e he => (F.gen.str1 d (by simp [hd]) e he).numeric hf.len hf.bound

theorem FoundWith.map_fst (F : FoundWith Files c L B f o S gs k0 k1) :
    (rows gs.tree0).map Prod.fst = gs.tree0.elements.map digitsValue := by
  rw [rows, List.map_fst_zip (by rw [List.length_map, F.gen.t0.1, F.gen.t0.2])]

/-- Reading everything, for the functionalities without payloads. -/
theorem Found.start_nat (F : Found c hashOf L B stash node f o S gs k0 k1) (hh : ∀ e, (hashOf e).length = 256)
    (hf : SizesOK L B q stash node f) (l0 : o.lost0 = []) (l1 : o.lost1 = []) (cu : Codec G) :
    ∃ s0 s1, start c decNat (deserTreeCt c) loadElems stash node (RunFlags.of f) o.fs =
        .ok ⟨⟨S.pk, S.sk0, k0⟩, ⟨S.pk, S.sk1, k1⟩, gs.days0.map (fun d => d.elements.map digitsValue),
          gs.days1.map (fun d => d.elements.map digitsValue), s0, s1⟩ ∧
      Inv S (funcCA c) (fun _ _ => True) hashOf B (gs.tree0.elements.map digitsValue) (gs.tree1.elements.map digitsValue) s0 s1 ∧
      Inv S (funcPSI c cu) (fun p k => S.dec k = (p : Int) • S.g) hashOf B (gs.tree0.elements.map digitsValue)
        (gs.tree1.elements.map digitsValue) s0 s1 := by
  have T : ∃ s0 s1, startTrees c decNat (deserTreeCt c) stash node (RunFlags.of f) o.fs = .ok (s0, s1) ∧
      Inv S (funcCA c) (fun _ _ => True) hashOf B (gs.tree0.elements.map digitsValue) (gs.tree1.elements.map digitsValue) s0 s1 ∧
      Inv S (funcPSI c cu) (fun p k => S.dec k = (p : Int) • S.g) hashOf B (gs.tree0.elements.map digitsValue)
        (gs.tree1.elements.map digitsValue) s0 s1 := by
    by_cases hs : 0 < f.start
    · obtain ⟨⟨f0, f1, r1, r2, r3, r4, sf⟩, -⟩ := F.init hs
      have ht := hf.total
      obtain ⟨s0, s1, e, -, -, i1, i2⟩ := import_noPayload S hh sf
        (by rw [rows, List.length_zip, List.length_map, F.gen.t0.1]; omega) (by rw [List.length_map, F.gen.t1.1]; omega) cu
      rw [F.map_fst] at i1 i2
      rw [l0, l1] at e
      refine ⟨s0, s1, ?_, i1, i2⟩
      rw [startTrees, if_pos (show (RunFlags.of f).trees = true from decide_eq_true hs), readTrees_ok r1 r4, Outcome.bind_ok, readTrees_ok r3 r2, Outcome.bind_ok]
      exact e
    · have h0 : gs.tree0.elements = [] := List.length_eq_zero_iff.1 (by rw [F.gen.t0.1]; omega)
      have h1 : gs.tree1.elements = [] := List.length_eq_zero_iff.1 (by rw [F.gen.t1.1]; omega)
      rw [h0, h1]
      refine ⟨_, _, ?_, Inv.init S _ _ hashOf B stash node, Inv.init S _ _ hashOf B stash node⟩
      rw [startTrees, if_neg (by simpa [RunFlags.of] using hs)]
      rfl
  obtain ⟨s0, s1, e, i1, i2⟩ := T
  refine ⟨s0, s1, ?_, i1, i2⟩
  unfold start
  have d0 : readDaily ((RunFlags.of f).dataDir ++ "p0/") o.fs (RunFlags.of f).days 1 = .ok gs.days0 := F.daily0
  have d1 : readDaily ((RunFlags.of f).dataDir ++ "p1/") o.fs (RunFlags.of f).days 1 = .ok gs.days1 := F.daily1
  have p0 : additionParty c (RunFlags.of f).outDir "p0" o.fs = _ := F.keys0
  have p1 : additionParty c (RunFlags.of f).outDir "p1" o.fs = _ := F.keys1
  rw [d0, Outcome.bind_ok, d1, Outcome.bind_ok, p0, Outcome.bind_ok, p1, Outcome.bind_ok, e, Outcome.bind_ok]
  change Outcome.bind _ _ = _
  rw [loadElems_ok _ (F.num0 hf)]
  rw [loadElems_ok _ (F.num1 hf)]
  rfl

/-- The same for the functionality sum. -/
theorem Found.start_pairs (F : Found c hashOf L B stash node f o S gs k0 k1) (hh : ∀ e, (hashOf e).length = 256)
    (hf : SizesOK L B q stash node f) (l0 : o.lost0 = []) (l1 : o.lost1 = []) :
    ∃ s0 s1, start c decNatPair (deserElGamal c) loadPairs stash node (RunFlags.of f) o.fs =
        .ok ⟨⟨S.pk, S.sk0, k0⟩, ⟨S.pk, S.sk1, k1⟩, gs.days0.map rows,
          gs.days1.map (fun d => d.elements.map digitsValue), s0, s1⟩ ∧
      Inv S (funcSum c) (fun p k => S.dec k = p.2 • S.g) hashOf B (rows gs.tree0) (gs.tree1.elements.map digitsValue) s0 s1 := by
  have T : ∃ s0 s1, startTrees c decNatPair (deserElGamal c) stash node (RunFlags.of f) o.fs = .ok (s0, s1) ∧
      Inv S (funcSum c) (fun p k => S.dec k = p.2 • S.g) hashOf B (rows gs.tree0) (gs.tree1.elements.map digitsValue) s0 s1 := by
    by_cases hs : 0 < f.start
    · obtain ⟨⟨f0, f1, r1, r2, r3, r4, sf⟩, -⟩ := F.init hs
      have ht := hf.total
      obtain ⟨s0, s1, e, -, -, i1⟩ := import_elGamal S hh sf
        (by rw [rows, List.length_zip, List.length_map, F.gen.t0.1]; omega) (by rw [List.length_map, F.gen.t1.1]; omega)
      rw [l0, l1] at e
      refine ⟨s0, s1, ?_, i1⟩
      rw [startTrees, if_pos (show (RunFlags.of f).trees = true from decide_eq_true hs), readTrees_ok r1 r4, Outcome.bind_ok, readTrees_ok r3 r2, Outcome.bind_ok]
      exact e
    · have h0 : gs.tree0.elements = [] := List.length_eq_zero_iff.1 (by rw [F.gen.t0.1]; omega)
      have h1 : gs.tree1.elements = [] := List.length_eq_zero_iff.1 (by rw [F.gen.t1.1]; omega)
      rw [rows, h0, h1]
      refine ⟨_, _, ?_, Inv.init S _ _ hashOf B stash node⟩
      rw [startTrees, if_neg (by simpa [RunFlags.of] using hs)]
      rfl
  obtain ⟨s0, s1, e, i1⟩ := T
  refine ⟨s0, s1, ?_, i1⟩
  unfold start
  have d0 : readDaily ((RunFlags.of f).dataDir ++ "p0/") o.fs (RunFlags.of f).days 1 = .ok gs.days0 := F.daily0
  have d1 : readDaily ((RunFlags.of f).dataDir ++ "p1/") o.fs (RunFlags.of f).days 1 = .ok gs.days1 := F.daily1
  have p0 : additionParty c (RunFlags.of f).outDir "p0" o.fs = _ := F.keys0
  have p1 : additionParty c (RunFlags.of f).outDir "p1" o.fs = _ := F.keys1
  rw [d0, Outcome.bind_ok, d1, Outcome.bind_ok, p0, Outcome.bind_ok, p1, Outcome.bind_ok, e, Outcome.bind_ok]
  change Outcome.bind _ _ = _
  rw [loadPairs_ok _ (F.num0 hf) (fun d hd => by rw [(F.gen.day0 d hd).1, (F.gen.day0 d hd).2])
    (fun d hd v hv => by have := (F.gen.vals d (by simp [hd]) v hv).1; omega)]
  rw [loadElems_ok _ (F.num1 hf)]
  rfl

theorem FoundWith.adm (F : FoundWith Files c L B f o S gs k0 k1) (hf : SizesOK L B S.q stash node f) {key : P → Nat}
    {xs : List (List P)} {X0 : List P} {coins : Nat → Coins G P κ} (hlen : xs.length = f.days) (hx : ∀ x ∈ xs, x.length = f.daily)
    (hkeys : (X0 ++ xs.flatten).map key = (allElements gs.tree0 gs.days0).map digitsValue)
    (hc : ∀ i < f.days, DayCoinsOK key B S.q f.daily (coins i)) :
    AdmissibleFrom S key B X0 (gs.tree1.elements.map digitsValue)
      (mkDays xs (gs.days1.map (fun d => d.elements.map digitsValue)) coins) := by
  have hl : xs.length = (gs.days1.map (fun d => d.elements.map digitsValue)).length := by rw [hlen, List.length_map, F.gen.len1]
  have ht := hf.total
  refine ⟨hf.order, fun d hd => ?_, ?_, ?_, ?_, ?_⟩
  · obtain ⟨i, hi, m1, m2, e⟩ := mem_mkDays hd
    have C := hc i (by omega)
    rw [e]
    have ly : d.ys.length = f.daily := by
      obtain ⟨y, hy, e'⟩ := List.mem_map.1 m2
      rw [← e', List.length_map, (F.gen.day1 y hy).1]
    exact ⟨⟨C.hsh0.1.trans (hx _ m1).symm, C.hsh0.2⟩, ⟨C.hsh1.1.trans ly.symm, C.hsh1.2⟩, C.pads0, C.pads1, C.shuffle, C.masks⟩
  · rw [allX_mkDays hl]
    intro p hp
    have : key p ∈ (X0 ++ xs.flatten).map key := List.mem_map.2 ⟨p, hp, rfl⟩
    rw [hkeys] at this
    obtain ⟨e, he, h⟩ := List.mem_map.1 this
    rw [← h]
    exact (F.gen.all0 e he).2.2
  · rw [allY_mkDays hl, flatten_elems]
    intro y hy
    obtain ⟨e, he, h⟩ := List.mem_map.1 hy
    rw [← h]
    exact (F.gen.all1 e he).2.2
  · rw [allX_mkDays hl]
    have := congrArg List.length hkeys
    rw [List.length_map, List.length_map, F.gen.total0] at this
    omega
  · rw [allY_mkDays hl, flatten_elems, List.length_map, F.gen.total1]
    omega

/-- The printed cardinality is the number of common elements minus the initial ones. -/
theorem FoundWith.printed_ca (F : FoundWith Files c L B f o S gs k0 k1) {n m : Int} (hp : o.printed = some (n, m)) :
    n = sharedSize f - (initialMatches gs).length ∧
      m = gs.sum - int32 (((initialMatches gs).map Prod.snd).sum) := by
  by_cases hs : 0 < f.start
  · obtain ⟨-, hn, hy⟩ := F.init hs
    cases hx : f.expected with
    | false => rw [hn hx] at hp; simp at hp
    | true =>
      rw [hy hx] at hp
      simp only [Option.some.injEq, Prod.mk.injEq] at hp
      exact ⟨hp.1.symm, hp.2.symm⟩
  · obtain ⟨-, -, h⟩ := F.fresh (by omega)
    rw [h] at hp
    simp only [Option.some.injEq, Prod.mk.injEq] at hp
    have h0 : gs.tree0.elements = [] := List.length_eq_zero_iff.1 (by rw [F.gen.t0.1]; omega)
    have h1 : initialMatches gs = [] := by simp [initialMatches, h0]
    rw [h1]
    simp only [List.length_nil, List.map_nil, List.sum_nil]
    rw [int32_range 0 (by norm_num) (by norm_num)]
    omega

end

end Upsi.Main
