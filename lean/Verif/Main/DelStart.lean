import Verif.Main.DelFacts
import Verif.Main.AddStart
import Verif.Setup.ImportDel
/- What the programs of the protocols with deletions find after deletion/setup.cc (helper lemmas for C75). -/
namespace Upsi.Main
open Upsi Upsi.Rec Upsi.Tree Upsi.Tree.Props Upsi.Proto Upsi.Setup Upsi.Wire Upsi.Data Upsi.Num Upsi.Paillier

/-- Sizes the programs can handle: fewer than `2^30` elements per party, at least one day and one update a day, payloads of 31
bits, tree sizes of 31 bits, elements of at most 63 bits. -/
structure DelSizesOK (L B stash node : Nat) (f : DelSetupFlags) : Prop where
  total : f.start + f.days * f.daily < 2 ^ 30
  days : 0 < f.days
  daily : 0 < f.daily
  func : f.func = .CA ∨ f.func = .SUM ∨ f.func = .PSI
  maxValue : f.func = .SUM → 1 < f.maxValue ∧ f.maxValue < 2 ^ 31
  stash : stash < 2 ^ 31
  node : node < 2 ^ 31
  len : 0 < L
  bound : B ≤ 2 ^ 63

/-- The random choices of setup are as the program draws them: two pairs of primes suitable for Paillier keys, the data
(`DelDrawsOK`), path identifiers of 256 bits, one per initial element, and padding elements in `[B, n)`. -/
structure DelSetupRand.OK (L B : Nat) (f : DelSetupFlags) (ρ : DelSetupRand) : Prop where
  primes0 : Primes ρ.p0 ρ.q0 1
  primes1 : Primes ρ.p1 ρ.q1 1
  draws : DelDrawsOK L B f.days f.daily f.start f.maxValue f.func ρ.data
  hsh0 : ρ.tree0.hsh.length = f.start ∧ ∀ h ∈ ρ.tree0.hsh, h.length = 256
  hsh1 : ρ.tree1.hsh.length = f.start ∧ ∀ h ∈ ρ.tree1.hsh, h.length = 256
  pads0 : ∀ i j, B ≤ (ρ.tree0.pads i j).1 ∧ (ρ.tree0.pads i j).1 < ρ.p0 * ρ.q0
  pads1 : ∀ i j, B ≤ (ρ.tree1.pads i j).1 ∧ (ρ.tree1.pads i j).1 < ρ.p1 * ρ.q1

theorem deletionParty_same {ch : Char} (h1 : ch ≠ 'b') (h2 : ch ≠ 'y') {fs fs' : FS} (h : SameBut ch fs fs') (tries : Nat) (x : Int)
    (out p : String) : deletionParty tries x out p fs' = deletionParty tries x out p fs := by
  have e : ∀ (t : String) (x : Char), t.toList.getLast? = some x → ch ≠ x → (out ++ p ++ t).toList.getLast? ≠ some ch := by
    intro t x hx hne
    rw [String.toList_append, List.getLast?_append_of_ne_nil _ (by intro h0; rw [h0] at hx; simp at hx), hx]
    exact fun e => hne (Option.some.inj e).symm
  unfold deletionParty
  rw [h.key PrivProto.parse (e "/paillier.key" 'y' (by decide) h2), h.key PubProto.parse (e "/paillier.pub" 'b' (by decide) h1)]

/-- Rows that can be written and read. -/
theorem rows_files {L B : Nat} {val : Data.Bytes → Int} {l : List (Data.Bytes × Int)} (hr : RowsOK L B val l) (hL : 0 < L) (hB : B ≤ 2 ^ 63)
    (hv : ∀ r ∈ l, val r.1 < 2 ^ 63) :
    (Dataset.ofRows l).Good ∧ (∀ e ∈ (Dataset.ofRows l).elements, Numeric e) ∧
      (Dataset.ofRows l).values.length = (Dataset.ofRows l).elements.length ∧ ∀ v ∈ (Dataset.ofRows l).values, v ≠ -(2 ^ 63) := by
  have he : ∀ e ∈ (Dataset.ofRows l).elements, DigitString L B e := by
    intro e he
    obtain ⟨r, h, rfl⟩ := List.mem_map.1 he
    exact (hr r h).1
  have hb : ∀ v ∈ (Dataset.ofRows l).values, -(2 ^ 63) < v ∧ v < 2 ^ 63 := by
    intro v h
    obtain ⟨r, h', rfl⟩ := List.mem_map.1 h
    have h1 := (hr r h').2
    have h2 := hv r h'
    rcases h1.1 with e | e <;> omega
  have hl : (Dataset.ofRows l).values.length = (Dataset.ofRows l).elements.length := by simp [Dataset.ofRows]
  refine ⟨⟨fun e h => (he e h).clean, fun v h => ?_, Or.inr hl⟩, fun e h => (he e h).numeric hL (by omega), hl, fun v h => ?_⟩
  · have := hb v h; omega
  · have := hb v h; omega

theorem DelFacts.small {L B days daily start : Nat} {maxValue : Int} {func : Functionality} {g : GenSets}
    {t0 t1 : List (Data.Bytes × Int)} {ds0 ds1 : List (List (Data.Bytes × Int))} {val : Data.Bytes → Int}
    (h : DelFacts L B days daily start maxValue func g t0 t1 ds0 ds1 val) (hf : func = .CA ∨ func = .SUM ∨ func = .PSI)
    (hB : B ≤ 2 ^ 63) (hm : func = .SUM → maxValue < 2 ^ 31) : ∀ r ∈ t0 ++ ds0.flatten, val r.1 < 2 ^ 63 := by
  intro r hr
  rcases hf with e | e | e
  · rw [h.valCA e r hr]; norm_num
  · have := h.valSum e r hr; have := hm e; omega
  · rw [h.valPsi e r hr]
    have := (h.rows0 r hr).1.2.2
    omega

/-- What the parties find. -/
structure FoundDel (mont : Int → Option Mont) (tries : Nat) (hashOf : Nat → List Bool) (L B stash node : Nat) (f : DelSetupFlags)
    (ρ : DelSetupRand) (o : DelSetupOut) (g : GenSets) (t0 t1 : List (Data.Bytes × Int)) (ds0 ds1 : List (List (Data.Bytes × Int)))
    (val : Data.Bytes → Int) : Prop where
  facts : DelFacts L B f.days f.daily f.start f.maxValue f.func g t0 t1 ds0 ds1 val
  printed : o.printed = g.sum
  daily0 : readDaily (f.dataDir ++ "p0/") o.fs f.days 1 = .ok (ds0.map .ofRows)
  daily1 : readDaily (f.dataDir ++ "p1/") o.fs f.days 1 = .ok (ds1.map .ofRows)
  load0 : loadPairs (ds0.map .ofRows) = .ok (ds0.map numRows)
  load1 : loadPairs (ds1.map .ofRows) = .ok (ds1.map numRows)
  keys0 : ∀ x, deletionParty tries x f.outDir "p0" o.fs = do
      let priv ← Private.new tries ρ.p0 ρ.q0 1
      let pub ← Public.new x (ρ.p1 * ρ.q1) 1
      pure (priv, pub)
  keys1 : ∀ x, deletionParty tries x f.outDir "p1" o.fs = do
      let priv ← Private.new tries ρ.p1 ρ.q1 1
      let pub ← Public.new x (ρ.p0 * ρ.q0) 1
      pure (priv, pub)
  fresh : f.start = 0 → o.lost0 = [] ∧ o.lost1 = []
  init : 0 < f.start → ∃ f0 f1 sk0 sk1, Private.new tries ρ.p0 ρ.q0 1 = .ok sk0 ∧ Private.new tries ρ.p1 ρ.q1 1 = .ok sk1 ∧
      Reads o.fs parsePTree (f.dataDir ++ "p0/" ++ "plaintext.tree") f0.plain ∧
      Reads o.fs parseETree (f.dataDir ++ "p1/" ++ "encrypted.tree") f0.enc ∧
      Reads o.fs parsePTree (f.dataDir ++ "p1/" ++ "plaintext.tree") f1.plain ∧
      Reads o.fs parseETree (f.dataDir ++ "p0/" ++ "encrypted.tree") f1.enc ∧
      (∃ r : TreeCoins EP, r.WF Prod.fst B (ρ.p0 * ρ.q0) (numRows t0) ∧
        genDel mont sk0 hashOf stash node (numRows t0) r = .ok (f0, o.lost0)) ∧
      (∃ r : TreeCoins EP, r.WF Prod.fst B (ρ.p1 * ρ.q1) (numRows t1) ∧
        genDel mont sk1 hashOf stash node (numRows t1) r = .ok (f1, o.lost1))

/-- The private keys of both parties are readable after key generation. -/
theorem setupDeletion_keys {ml p0 q0 p1 q1 : Int} {out : String} {fs fs' : FS} (h : setupDeletion ml p0 q0 p1 q1 out fs = .ok fs') :
    ∃ a b : PrivProto, readKey PrivProto.parse (out ++ "p0/" ++ "paillier.key") fs' = .ok a ∧
      readKey PrivProto.parse (out ++ "p1/" ++ "paillier.key") fs' = .ok b ∧
      ((ofBytes a.p : Nat) : Int) = p0 ∧ ((ofBytes a.q : Nat) : Int) = q0 ∧ a.s = 1 ∧
      ((ofBytes b.p : Nat) : Int) = p1 ∧ ((ofBytes b.q : Nat) : Int) = q1 ∧ b.s = 1 := by
  simp only [setupDeletion, generatePaillierKeys, Outcome.bind_eq_ok] at h
  obtain ⟨k0, hk0, k1, hk1, f1, h1, f2, h2, f3, h3, h4⟩ := h
  obtain ⟨_, _, n0, s0, e0, g0, t0⟩ := paillierKeyPair_inv hk0
  obtain ⟨_, _, n1, s1, e1, g1, t1⟩ := paillierKeyPair_inv hk1
  have nn := fun (d f d' f' : String) a b e => name_ne out d f d' f' a b e
  obtain ⟨b1, b2⟩ := write_spec (PrivProto.parse_ser _ (by rw [t0]; norm_num)) h2
  obtain ⟨c1, c2⟩ := write_spec (PubProto.parse_ser _ (by rw [s1]; norm_num)) h3
  obtain ⟨d1, d2⟩ := write_spec (PrivProto.parse_ser _ (by rw [t1]; norm_num)) h4
  refine ⟨k0.2, k1.2, ?_, d1 _ rfl, e0, g0, t0, e1, g1, t1⟩
  refine ((b1 _ rfl).keep c2 ?_).keep d2 ?_ <;>
    simp only [List.map_cons, List.map_nil, List.mem_cons, List.not_mem_nil, or_false] <;>
    exact nn _ _ _ _ (by decide) (by decide) (by decide)

theorem pos_mod {a : Int} (h0 : 1 < a) (h1 : a < 2 ^ 31) : 1 < (a % 2 ^ 32).toNat := by omega

/-- The tree of one party. -/
theorem delTrees_spec {mont : Int → Option Mont} {tries : Nat} {hashOf : Nat → List Bool} (hh : ∀ e, (hashOf e).length = 256)
    {L B stash node start : Nat} (hst : stash < 2 ^ 31) (hno : node < 2 ^ 31) (hsz : start < 2 ^ 30) {P Q : Nat} {key : PrivProto}
    (e1 : ((ofBytes key.p : Nat) : Int) = P) (e2 : ((ofBytes key.q : Nat) : Int) = Q) (e3 : key.s = 1) {t : List (Data.Bytes × Int)}
    {val : Data.Bytes → Int} (hr : RowsOK L B val t) (hlen : t.length = start) (hL : 0 < L) (hB : B ≤ 2 ^ 63)
    (hv : ∀ r ∈ t, val r.1 < 2 ^ 63) {n : Nat} {ρ : TreeCoins EP} (hsh : ρ.hsh.length = start ∧ ∀ h ∈ ρ.hsh, h.length = 256)
    (hp : ∀ i j, B ≤ (ρ.pads i j).1 ∧ (ρ.pads i j).1 < n) {out k D p p' : String} (ip : IsParty p) (ip' : IsParty p') {fs fs' : FS}
    (hk : readKey PrivProto.parse (out ++ k ++ "paillier.key") fs = .ok key) {lost : List EP}
    (h : delTrees mont tries hashOf stash node (.ofRows t) (out ++ k) (D ++ p) (D ++ p') ρ fs = .ok (fs', lost)) :
    ∃ sk tf, Private.new tries P Q 1 = .ok sk ∧ Reads fs' parsePTree (D ++ p ++ "plaintext.tree") tf.plain ∧
      Reads fs' parseETree (D ++ p' ++ "encrypted.tree") tf.enc ∧
      SameExcept fs fs' [D ++ p ++ "plaintext.tree", D ++ p' ++ "encrypted.tree"] ∧
      ρ.WF Prod.fst B n (numRows t) ∧ genDel mont sk hashOf stash node (numRows t) ρ = .ok (tf, lost) := by
  obtain ⟨-, num, hl, hne⟩ := rows_files hr hL hB hv
  obtain ⟨r, er, er'⟩ := pairs_rows _ num hl hne
  simp only [delTrees, hk, Outcome.bind_ok, e1, e2, e3, er, orAbort, er', rows_ofRows, Outcome.bind_eq_ok, Outcome.pure_eq, Outcome.ok.injEq,
    Prod.exists, Prod.mk.injEq] at h
  obtain ⟨sk, hsk, tf, l, g, fw, w, rfl, rfl⟩ := h
  have hX : (numRows t).length = start := by rw [numRows, List.length_map, hlen]
  have wf : ρ.WF Prod.fst B n (numRows t) := ⟨⟨by rw [hX]; exact hsh.1, hsh.2⟩, hp⟩
  obtain ⟨z1, z2, z3⟩ := generateTrees_sizes (fun e : EP => hh _) (mergeBucket_post hashOf) wf.hsh (by rw [hX]; exact hsz) hst hno g
  obtain ⟨a1, a2, a3⟩ := writeTrees_spec z1 z2 z3 (D := D) ip ip' w
  exact ⟨sk, tf, hsk, a1, a2, a3, wf, g⟩

theorem del_found {mont : Int → Option Mont} {tries : Nat} {hashOf : Nat → List Bool} (hh : ∀ e, (hashOf e).length = 256)
    {L B stash node : Nat} {f : DelSetupFlags} (hf : DelSizesOK L B stash node f) {ρ : DelSetupRand} (hρ : ρ.OK L B f) {fs : FS}
    {o : DelSetupOut} (h : setupMainDel mont tries hashOf stash node f ρ fs = .ok o) :
    ∃ g t0 t1 ds0 ds1 val, genDeletionSets f.days f.daily f.start (f.maxValue % 2 ^ 32).toNat f.func ρ.data = .ok g ∧
      FoundDel mont tries hashOf L B stash node f ρ o g t0 t1 ds0 ds1 val := by
  simp only [setupMainDel, Outcome.bind_eq_ok] at h
  obtain ⟨fk, hk, h⟩ := h
  have k0 := fun x => (C55_deletion f.modLength ρ.p0 ρ.q0 ρ.p1 ρ.q1 f.outDir fs fk tries x hk).1
  have k1 := fun x => (C55_deletion f.modLength ρ.p0 ρ.q0 ρ.p1 ρ.q1 f.outDir fs fk tries x hk).2.1
  obtain ⟨a, b, ra, rb, a1, a2, a3, b1, b2, b3⟩ := setupDeletion_keys hk
  simp only [generateDataDel, Outcome.bind_eq_ok] at h
  obtain ⟨g, hg, fd, hfd, h⟩ := h
  have hg := orAbort_ok hg
  have htot := hf.total
  obtain ⟨t0, t1, ds0, ds1, val, F⟩ := del_facts hρ.draws hf.len hf.bound (by omega) hf.daily hf.days
    (fun e => pos_mod (hf.maxValue e).1 (hf.maxValue e).2) hf.func hg
  have sm := F.small hf.func hf.bound (fun e => (hf.maxValue e).2)
  have flat0 : ∀ d ∈ ds0, ∀ r ∈ d, r ∈ t0 ++ ds0.flatten := fun d hd r hr =>
    List.mem_append_right _ (List.mem_flatten.2 ⟨d, hd, hr⟩)
  have flat1 : ∀ d ∈ ds1, ∀ r ∈ d, r ∈ t1 ++ ds1.flatten := fun d hd r hr =>
    List.mem_append_right _ (List.mem_flatten.2 ⟨d, hd, hr⟩)
  have D0 := fun d hd => rows_files (F.rows0.mono (flat0 d hd)) hf.len hf.bound (fun r hr => sm r (flat0 d hd r hr))
  have D1 := fun d hd => rows_files (F.rows1.mono (flat1 d hd)) hf.len hf.bound (fun r hr => by norm_num)
  have mapm : ∀ {ds : List (List (Data.Bytes × Int))} {P : Dataset → Prop}, (∀ d ∈ ds, P (.ofRows d)) → ∀ x ∈ ds.map Dataset.ofRows, P x := by
    intro ds P h x hx
    obtain ⟨d, hd, rfl⟩ := List.mem_map.1 hx
    exact h d hd
  rw [F.days0, F.days1] at hfd
  obtain ⟨sv, r0, r1⟩ := daily_roundtrip (by rw [List.length_map, F.good0.dayCount]) (by rw [List.length_map, F.good1.dayCount])
    (mapm (fun d hd => (D0 d hd).1)) (mapm (fun d hd => (D1 d hd).1)) hfd
  have l0 := loadPairs_ok (ds0.map .ofRows) (mapm (fun d hd => (D0 d hd).2.1)) (mapm (fun d hd => (D0 d hd).2.2.1)) (mapm (fun d hd => (D0 d hd).2.2.2))
  have l1 := loadPairs_ok (ds1.map .ofRows) (mapm (fun d hd => (D1 d hd).2.1)) (mapm (fun d hd => (D1 d hd).2.2.1)) (mapm (fun d hd => (D1 d hd).2.2.2))
  have lr : ∀ ds : List (List (Data.Bytes × Int)), (ds.map Dataset.ofRows).map rows = ds.map numRows := by
    intro ds
    rw [List.map_map]
    exact List.map_congr_left (fun d _ => rows_ofRows d)
  rw [lr] at l0 l1
  have k0d := fun x => (deletionParty_same (by decide) (by decide) sv tries x f.outDir "p0").trans (k0 x)
  have k1d := fun x => (deletionParty_same (by decide) (by decide) sv tries x f.outDir "p1").trans (k1 x)
  have kl : ∀ p : String, (f.outDir ++ p ++ "paillier.key").toList.getLast? = some 'y' := by
    intro p
    rw [String.toList_append, List.getLast?_append_of_ne_nil _ (by decide)]
    decide
  have rad := (sv.key PrivProto.parse (name := f.outDir ++ "p0/" ++ "paillier.key") (by rw [kl]; decide)).trans ra
  have rbd := (sv.key PrivProto.parse (name := f.outDir ++ "p1/" ++ "paillier.key") (by rw [kl]; decide)).trans rb
  refine ⟨g, t0, t1, ds0, ds1, val, hg, ?_⟩
  by_cases hst : f.start > 0
  · rw [if_pos hst] at h
    simp only [Outcome.bind_eq_ok, Prod.exists, Outcome.pure_eq, Outcome.ok.injEq] at h
    obtain ⟨fe, lost0, w0, fw, lost1, w1, rfl⟩ := h
    rw [F.tree0] at w0
    rw [F.tree1] at w1
    have hss : f.start < 2 ^ 30 := by omega
    obtain ⟨sk0, tf0, c1, c2, c3, c4, c5, c6⟩ := delTrees_spec hh hf.stash hf.node hss a1 a2 a3 (F.rows0.mono (fun r hr => by simp [hr])) F.good0.startSize
      hf.len hf.bound (fun r hr => sm r (by simp [hr])) hρ.hsh0 hρ.pads0 (Or.inl rfl) (Or.inr rfl) rad w0
    have sa : SameBut 'e' fd fe := sameBut_of_except c4 (by
      simp only [List.mem_cons, List.not_mem_nil, or_false, forall_eq_or_imp, forall_eq]
      exact ⟨tree_last _ _ _ (by decide), tree_last _ _ _ (by decide)⟩)
    have rbe := (sa.key PrivProto.parse (name := f.outDir ++ "p1/" ++ "paillier.key") (by rw [kl]; decide)).trans rbd
    obtain ⟨sk1, tf1, d1, d2, d3, d4, d5, d6⟩ := delTrees_spec hh hf.stash hf.node hss b1 b2 b3 (F.rows1.mono (fun r hr => by simp [hr])) F.good1.startSize
      hf.len hf.bound (fun r hr => by norm_num) hρ.hsh1 hρ.pads1 (Or.inr rfl) (Or.inl rfl) rbe w1
    have sb : SameBut 'e' fe fw := sameBut_of_except d4 (by
      simp only [List.mem_cons, List.not_mem_nil, or_false, forall_eq_or_imp, forall_eq]
      exact ⟨tree_last _ _ _ (by decide), tree_last _ _ _ (by decide)⟩)
    have se := sa.trans sb
    have nn : ∀ n ∈ [f.dataDir ++ "p1/" ++ "plaintext.tree", f.dataDir ++ "p0/" ++ "encrypted.tree"].map canon,
        n ≠ canon (f.dataDir ++ "p0/" ++ "plaintext.tree") ∧ n ≠ canon (f.dataDir ++ "p1/" ++ "encrypted.tree") := by
      simp only [List.map_cons, List.map_nil, List.mem_cons, List.not_mem_nil, or_false, forall_eq_or_imp, forall_eq]
      exact ⟨⟨name_ne _ _ _ _ _ (by decide) (by decide) (by decide), name_ne _ _ _ _ _ (by decide) (by decide) (by decide)⟩,
        name_ne _ _ _ _ _ (by decide) (by decide) (by decide), name_ne _ _ _ _ _ (by decide) (by decide) (by decide)⟩
    exact ⟨F, rfl, (readDaily_same (by decide) se (f.dataDir ++ "p0/") f.days 1).trans r0,
      (readDaily_same (by decide) se (f.dataDir ++ "p1/") f.days 1).trans r1, l0, l1,
      fun x => (deletionParty_same (by decide) (by decide) se tries x f.outDir "p0").trans (k0d x),
      fun x => (deletionParty_same (by decide) (by decide) se tries x f.outDir "p1").trans (k1d x),
      fun h0 => absurd h0 (by omega), fun _ => ⟨tf0, tf1, sk0, sk1, c1, d1, c2.keep d4 (fun hm => (nn _ hm).1 rfl),
        c3.keep d4 (fun hm => (nn _ hm).2 rfl), d2, d3, ⟨ρ.tree0, c5, c6⟩, ⟨ρ.tree1, d5, d6⟩⟩⟩
  · rw [if_neg hst] at h
    simp only [Outcome.pure_eq, Outcome.ok.injEq] at h
    subst h
    exact ⟨F, rfl, r0, r1, l0, l1, k0d, k1d, fun _ => ⟨rfl, rfl⟩, fun h0 => absurd h0 hst⟩

/-- The flags of run.cc for the files of a setup: same directories and days, trees imported if there are initial elements. -/
def DelRunFlags.of (f : DelSetupFlags) (func : Functionality) : DelRunFlags :=
  ⟨f.dataDir, f.outDir, f.days, decide (0 < f.start), func⟩

/-- What the parties start from. -/
structure BegunDel (mont : Int → Option Mont) (hashOf : Nat → List Bool) (B : Nat) (ρ : DelSetupRand)
    (t0 t1 : List (Data.Bytes × Int)) (ds0 ds1 : List (List (Data.Bytes × Int))) (b : StartedDel) : Prop where
  keys : Keys ρ.p0 ρ.q0 ρ.p1 ρ.q1 mont b.k0 b.k1
  xs : b.xs = ds0.map numRows
  ys : b.ys = ds1.map numRows
  inv : DInv hashOf B (ρ.p0 * ρ.q0) (ρ.p1 * ρ.q1) (numRows t0) (numRows t1) b.s0 b.s1

theorem del_begun {mont : Int → Option Mont} (hm : MontOK mont) {tries : Nat} {hashOf : Nat → List Bool} (hh : ∀ e, (hashOf e).length = 256)
    {L B stash node : Nat} {f : DelSetupFlags} (hf : DelSizesOK L B stash node f) {ρ : DelSetupRand} (hρ : ρ.OK L B f)
    {o : DelSetupOut} {g : GenSets} {t0 t1 : List (Data.Bytes × Int)} {ds0 ds1 : List (List (Data.Bytes × Int))} {val : Data.Bytes → Int}
    (hF : FoundDel mont tries hashOf L B stash node f ρ o g t0 t1 ds0 ds1 val) (l0 : o.lost0 = []) (l1 : o.lost1 = []) {x0 x1 : Int}
    (hx0 : Int.gcd x0 ((ρ.p1 * ρ.q1 : Nat) : Int) = 1) (hx1 : Int.gcd x1 ((ρ.p0 * ρ.q0 : Nat) : Int) = 1) {accept : Functionality → Bool}
    {func : Functionality} {b : StartedDel} (h : startDel accept tries x0 x1 stash node (.of f func) o.fs = .ok b) :
    BegunDel mont hashOf B ρ t0 t1 ds0 ds1 b := by
  have htot := hf.total
  obtain ⟨rf, hrf⟩ : ∃ rf, rf = DelRunFlags.of f func := ⟨_, rfl⟩
  rw [← hrf] at h
  have q1 : rf.dataDir = f.dataDir := by rw [hrf]; rfl
  have q2 : rf.outDir = f.outDir := by rw [hrf]; rfl
  have q3 : rf.days = f.days := by rw [hrf]; rfl
  have q4 : rf.trees = decide (0 < f.start) := by rw [hrf]; rfl
  simp only [startDel, q1, q2, q3, hF.daily0, hF.daily1, Outcome.bind_ok] at h
  by_cases ha : accept rf.func = true
  · rw [if_pos ha] at h
    simp only [hF.keys0, hF.keys1, Outcome.bind_eq_ok, Prod.exists, Outcome.pure_eq, Outcome.ok.injEq, Prod.mk.injEq, hF.load0, hF.load1] at h
    obtain ⟨s0, s1, ht, _, _, ⟨sk0, c1, pk1, c2, rfl, rfl⟩, _, _, ⟨sk1, c3, pk0, c4, rfl, rfl⟩, xs, rfl, ys, rfl, rfl⟩ := h
    have hK : Keys ρ.p0 ρ.q0 ρ.p1 ρ.q1 mont ⟨sk0, pk1⟩ ⟨sk1, pk0⟩ := by
      obtain ⟨pk, e, ok⟩ := public_new hρ.primes1 x0 hx0
      obtain ⟨pk', e', ok'⟩ := public_new hρ.primes0 x1 hx1
      push_cast at e e'
      obtain rfl := Outcome.ok.inj (c2.symm.trans e)
      obtain rfl := Outcome.ok.inj (c4.symm.trans e')
      exact ⟨⟨hρ.primes0, hm, ok', private_new hρ.primes0 c1⟩, ⟨hρ.primes1, hm, ok, private_new hρ.primes1 c3⟩⟩
    refine ⟨hK, rfl, rfl, ?_⟩
    by_cases hst : 0 < f.start
    · obtain ⟨f0, f1, k0, k1, e0, e1, r1, r2, r3, r4, g0, g1⟩ := hF.init hst
      obtain rfl := Outcome.ok.inj (e0.symm.trans c1)
      obtain rfl := Outcome.ok.inj (e1.symm.trans c3)
      have hX : ∀ e ∈ numRows t0, e.1 < B := by
        intro e he
        obtain ⟨r, hr, rfl⟩ := List.mem_map.1 he
        exact (hF.facts.rows0 r (by simp [hr])).1.2.2
      have hY : ∀ e ∈ numRows t1, e.1 < B := by
        intro e he
        obtain ⟨r, hr, rfl⟩ := List.mem_map.1 he
        exact (hF.facts.rows1 r (by simp [hr])).1.2.2
      have hlX : (numRows t0).length < 2 ^ 30 := by rw [numRows, List.length_map, hF.facts.good0.startSize]; omega
      have hlY : (numRows t1).length < 2 ^ 30 := by rw [numRows, List.length_map, hF.facts.good1.startSize]; omega
      rw [l0] at g0
      rw [l1] at g1
      obtain ⟨u0, u1, hi, -, -, inv⟩ := importDel_inv hK hh (stash := stash) (node := node) (f0 := f0) (f1 := f1) (lost0 := []) (lost1 := []) ⟨g0, g1⟩ hX hY hlX hlY
      unfold Reads at r1 r2 r3 r4
      simp only [startDelTrees, q1, q4, hst, decide_true, if_true, readDelTrees, r1, r2, r3, r4, orAbort, Outcome.bind_ok, Outcome.pure_eq] at ht
      obtain ⟨rfl, rfl⟩ := Prod.mk.inj (Outcome.ok.inj (hi.symm.trans ht))
      exact inv
    · have e0 : t0 = [] := List.eq_nil_of_length_eq_zero (by rw [hF.facts.good0.startSize]; omega)
      have e1 : t1 = [] := List.eq_nil_of_length_eq_zero (by rw [hF.facts.good1.startSize]; omega)
      simp only [startDelTrees, q4, hst, decide_false, Bool.false_eq_true, if_false, Outcome.ok.injEq, Prod.mk.injEq] at ht
      rw [e0, e1, ← ht.1, ← ht.2]
      exact DInv.init hashOf B _ _ stash node
  · rw [if_neg ha] at h
    simp at h

end Upsi.Main
