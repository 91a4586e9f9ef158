import Verif.Main.MockMain
import Verif.Main.OgMain
/-
Property theorems C87: the files a run of the parties reads.
-/
namespace Upsi.Main
open Upsi Upsi.Rec Upsi.ElGamal Upsi.Tree Upsi.Proto Upsi.Setup Upsi.Wire Upsi.Num Upsi.Data

/-! ### specification: the names of the input files -/

/-- The names of a party's daily sets, day one to the last. -/
def dayNames (dir : String) (days : Nat) : List String := (List.range days).map (fun i => dir ++ toString (i + 1) ++ ".csv")

/-- The tree files of a party. -/
def treeNames (dir : String) : List String := [dir ++ "plaintext.tree", dir ++ "encrypted.tree"]

/-- The key files of a party of the addition-only protocols. -/
def additionKeyNames (out party : String) : List String :=
  [out ++ party ++ "/shared.pub", out ++ party ++ "/elgamal.key", out ++ party ++ "/paillier.key"]

/-- The key files of a party of the protocols with deletions. -/
def deletionKeyNames (out party : String) : List String := [out ++ party ++ "/paillier.key", out ++ party ++ "/paillier.pub"]

/-- The key files of a party of the original protocol: its own pair, and its peer's public key. -/
def originalKeyNames (out me other : String) : List String :=
  [out ++ me ++ "/elgamal.pub", out ++ other ++ "/elgamal.pub", out ++ me ++ "/elgamal.key"]

/-- The input files of the two parties of the addition-only protocols. -/
def additionInputs (f : RunFlags) : List String :=
  dayNames (f.dataDir ++ "p0/") f.days ++ dayNames (f.dataDir ++ "p1/") f.days ++
  additionKeyNames f.outDir "p0" ++ additionKeyNames f.outDir "p1" ++
  (if f.trees then treeNames (f.dataDir ++ "p0/") ++ treeNames (f.dataDir ++ "p1/") else [])

/-- The input files of the two parties of the protocols with deletions. -/
def deletionInputs (f : DelRunFlags) : List String :=
  dayNames (f.dataDir ++ "p0/") f.days ++ dayNames (f.dataDir ++ "p1/") f.days ++
  deletionKeyNames f.outDir "p0" ++ deletionKeyNames f.outDir "p1" ++
  (if f.trees then treeNames (f.dataDir ++ "p0/") ++ treeNames (f.dataDir ++ "p1/") else [])

/-- The input files of the two parties of the original protocol. -/
def originalInputs (f : RunFlags) : List String :=
  dayNames (f.dataDir ++ "p0/") f.days ++ dayNames (f.dataDir ++ "p1/") f.days ++
  originalKeyNames f.outDir "p0" "p1" ++ originalKeyNames f.outDir "p1" "p0" ++
  (if f.trees then [f.dataDir ++ "p0/encrypted.tree", f.dataDir ++ "p0/elements.ec", f.dataDir ++ "p1/plaintext.tree"] else [])

/-- The files of the list exist. -/
def Present (fs : FS) (names : List String) : Prop := ∀ n ∈ names, ∃ b, fs.data (canon n) = some b

/-- The files of the list are the same in both file systems. -/
def Same (fs fs' : FS) (names : List String) : Prop := ∀ n ∈ names, fs.data (canon n) = fs'.data (canon n)

theorem Present.append {fs : FS} {a b : List String} : Present fs (a ++ b) ↔ Present fs a ∧ Present fs b := by
  simp only [Present, List.mem_append, or_imp, forall_and]

theorem Same.append {fs fs' : FS} {a b : List String} : Same fs fs' (a ++ b) ↔ Same fs fs' a ∧ Same fs fs' b := by
  simp only [Same, List.mem_append, or_imp, forall_and]

theorem Present.cons {fs : FS} {a : String} {b : List String} :
    Present fs (a :: b) ↔ (∃ x, fs.data (canon a) = some x) ∧ Present fs b := by
  simp only [Present, List.mem_cons, forall_eq_or_imp]

theorem Same.cons {fs fs' : FS} {a : String} {b : List String} :
    Same fs fs' (a :: b) ↔ fs.data (canon a) = fs'.data (canon a) ∧ Same fs fs' b := by
  simp only [Same, List.mem_cons, forall_eq_or_imp]

theorem Present.nil {fs : FS} : Present fs [] := by simp [Present]

/-! ### single files -/

theorem readKey_present {M : Type} {parse : Rec.Bytes → M} {n : String} {fs : FS} {m : M} (h : readKey parse n fs = .ok m) :
    ∃ b, fs.data (canon n) = some b := by
  unfold readKey readProtoFromFile openRead at h
  cases hd : fs.data (canon n) with
  | some b => exact ⟨b, rfl⟩
  | none => rw [hd] at h; cases h

theorem readKey_congr {M : Type} (parse : Rec.Bytes → M) {n : String} {fs fs' : FS} (h : fs.data (canon n) = fs'.data (canon n)) :
    readKey parse n fs = readKey parse n fs' := by
  unfold readKey readProtoFromFile openRead
  rw [h]

theorem orAbort_present {M : Type} {parse : Rec.Bytes → M} {n : String} {fs : FS} {m : M} (h : orAbort (readKey parse n fs) = .ok m) :
    ∃ b, fs.data (canon n) = some b := by
  cases hk : readKey parse n fs with
  | ok x => exact readKey_present hk
  | _ => rw [hk] at h; cases h

theorem valueOf_present {M : Type} {parse : Rec.Bytes → M} {n : String} {fs : FS} {m : M} (h : valueOf (readKey parse n fs) = .ok m) :
    ∃ b, fs.data (canon n) = some b := by
  cases hk : readKey parse n fs with
  | ok x => exact readKey_present hk
  | _ => rw [hk] at h; cases h

theorem readDaily_present {dir : String} {fs : FS} : ∀ (n i : Nat) (d : List Dataset), readDaily dir fs n i = .ok d →
    ∀ j < n, ∃ b, fs.data (canon (dayFile dir (i + j))) = some b := by
  intro n
  induction n with
  | zero => intro i d _ j hj; omega
  | succ n ih =>
    intro i d h j hj
    simp only [readDaily, Outcome.bind_eq_ok, Outcome.pure_eq, Outcome.ok.injEq] at h
    obtain ⟨x, hx, r, hr, -⟩ := h
    rcases Nat.eq_zero_or_pos j with rfl | hp
    · unfold readDataset at hx
      rw [Nat.add_zero]
      cases hd : fs.data (canon (dayFile dir i)) with
      | some b => exact ⟨b, rfl⟩
      | none => rw [hd] at hx; cases hx
    · have := ih _ _ hr (j - 1) (by omega)
      rwa [show i + 1 + (j - 1) = i + j by omega] at this

theorem daily_present {dir : String} {fs : FS} {n : Nat} {d : List Dataset} (h : readDaily dir fs n 1 = .ok d) :
    Present fs (dayNames dir n) := by
  intro s hs
  simp only [dayNames, List.mem_map, List.mem_range] at hs
  obtain ⟨i, hi, rfl⟩ := hs
  have := readDaily_present n 1 d h i hi
  rwa [Nat.add_comm] at this

theorem readDaily_congr {dir : String} {fs fs' : FS} : ∀ (n i : Nat),
    (∀ j < n, fs.data (canon (dayFile dir (i + j))) = fs'.data (canon (dayFile dir (i + j)))) →
    readDaily dir fs n i = readDaily dir fs' n i := by
  intro n
  induction n with
  | zero => intro i _; rfl
  | succ n ih =>
    intro i h
    have h0 := h 0 (by omega)
    rw [Nat.add_zero] at h0
    rw [readDaily, readDaily, readDataset, readDataset, h0,
      ih (i + 1) (fun j hj => by rw [show i + 1 + j = i + (j + 1) by omega]; exact h _ (by omega))]

theorem daily_congr {dir : String} {fs fs' : FS} {n : Nat} (h : Same fs fs' (dayNames dir n)) :
    readDaily dir fs n 1 = readDaily dir fs' n 1 := by
  refine readDaily_congr n 1 (fun j hj => ?_)
  have := h (dir ++ toString (j + 1) ++ ".csv") (by simp only [dayNames, List.mem_map, List.mem_range]; exact ⟨j, hj, rfl⟩)
  rwa [Nat.add_comm]

/-! ### the parties' keys -/

theorem deletionParty_congr (tries : Nat) (x : Int) {out me : String} {fs fs' : FS} (h : Same fs fs' (deletionKeyNames out me)) :
    deletionParty tries x out me fs = deletionParty tries x out me fs' := by
  simp only [deletionKeyNames, Same.cons] at h
  obtain ⟨h1, h2, -⟩ := h
  unfold deletionParty
  rw [readKey_congr _ h1, readKey_congr _ h2]

variable {G P γ : Type} [AddCommGroup G] [DecidableEq G]

/-- **C87** (keys) Each party reads key files only in its own directory - in the original protocol also the
public key of its peer: with these files unchanged it starts in the same way, whatever else changes (the private key of
its peer, for one). -/
theorem C87_own_keys (c : Codec G) (out me other : String) (tries : Nat) (x : Int) (fs fs' : FS) :
    (Same fs fs' (additionKeyNames out me) → additionParty c out me fs = additionParty c out me fs') ∧
    (Same fs fs' (deletionKeyNames out me) → deletionParty tries x out me fs = deletionParty tries x out me fs') ∧
    (Same fs fs' (originalKeyNames out me other) → originalParty c out me other fs = originalParty c out me other fs') := by
  refine ⟨fun h => ?_, deletionParty_congr tries x, fun h => ?_⟩
  · simp only [additionKeyNames, Same.cons] at h
    obtain ⟨h1, h2, h3, -⟩ := h
    unfold additionParty
    rw [readKey_congr _ h1, readKey_congr _ h2, readKey_congr _ h3]
  · simp only [originalKeyNames, Same.cons] at h
    obtain ⟨h1, h2, h3, -⟩ := h
    unfold originalParty
    rw [readKey_congr _ h1, readKey_congr _ h2, readKey_congr _ h3]

theorem additionParty_present {c : Codec G} {out me : String} {fs : FS} {k : AddKeys G} (h : additionParty c out me fs = .ok k) :
    Present fs (additionKeyNames out me) := by
  simp only [additionParty, Outcome.bind_eq_ok] at h
  obtain ⟨_, h1, _, -, _, h2, _, -, _, h3, -⟩ := h
  simp only [additionKeyNames, Present.cons]
  exact ⟨valueOf_present h1, valueOf_present h2, valueOf_present h3, Present.nil⟩

theorem originalParty_present {c : Codec G} {out me other : String} {fs : FS} {k : OgKeysRead G}
    (h : originalParty c out me other fs = .ok k) : Present fs (originalKeyNames out me other) := by
  simp only [originalParty, Outcome.bind_eq_ok] at h
  obtain ⟨_, h1, _, -, _, h2, _, -, _, h3, -⟩ := h
  simp only [originalKeyNames, Present.cons]
  exact ⟨valueOf_present h1, valueOf_present h2, valueOf_present h3, Present.nil⟩

theorem deletionParty_present {tries : Nat} {x : Int} {out me : String} {fs : FS} {k : Paillier.Private × Paillier.Public}
    (h : deletionParty tries x out me fs = .ok k) : Present fs (deletionKeyNames out me) := by
  simp only [deletionParty, Outcome.bind_eq_ok] at h
  obtain ⟨_, h1, _, -, _, h2, -⟩ := h
  simp only [deletionKeyNames, Present.cons]
  exact ⟨valueOf_present h1, valueOf_present h2, Present.nil⟩

/-! ### addition-only -/

theorem readTrees_present {f : RunFlags} {p : String} {fs : FS} {t : TreeFiles} (h : readTrees f p fs = .ok t) :
    Present fs (treeNames (f.dataDir ++ p)) := by
  simp only [readTrees, Outcome.bind_eq_ok] at h
  obtain ⟨_, h1, _, h2, -⟩ := h
  simp only [treeNames, Present.cons]
  exact ⟨orAbort_present h1, orAbort_present h2, Present.nil⟩

theorem readTrees_congr {f : RunFlags} {p : String} {fs fs' : FS} (h : Same fs fs' (treeNames (f.dataDir ++ p))) :
    readTrees f p fs = readTrees f p fs' := by
  simp only [treeNames, Same.cons] at h
  unfold readTrees
  rw [readKey_congr _ h.1, readKey_congr _ h.2.1]

theorem start_present {c : Codec G} {dec : PElem → P} {deser : EncElem → Outcome γ} {load : List Dataset → Outcome (List (List P))}
    {stash node : Nat} {f : RunFlags} {fs : FS} {b : Started G P γ} (h : start c dec deser load stash node f fs = .ok b) :
    Present fs (additionInputs f) := by
  simp only [start, Outcome.bind_eq_ok] at h
  obtain ⟨_, h0, _, h1, _, h2, _, h3, _, h4, -⟩ := h
  simp only [additionInputs, Present.append]
  refine ⟨⟨⟨⟨daily_present h0, daily_present h1⟩, additionParty_present h2⟩, additionParty_present h3⟩, ?_⟩
  by_cases ht : f.trees
  · simp only [startTrees, ht, if_true, Outcome.bind_eq_ok] at h4
    obtain ⟨_, ha, _, hb, -⟩ := h4
    rw [if_pos ht, Present.append]
    exact ⟨readTrees_present ha, readTrees_present hb⟩
  · rw [if_neg ht]; exact Present.nil

theorem start_congr (c : Codec G) (dec : PElem → P) (deser : EncElem → Outcome γ) (load : List Dataset → Outcome (List (List P)))
    (stash node : Nat) {f : RunFlags} {fs fs' : FS} (h : Same fs fs' (additionInputs f)) :
    start c dec deser load stash node f fs = start c dec deser load stash node f fs' := by
  simp only [additionInputs, Same.append] at h
  obtain ⟨⟨⟨⟨h0, h1⟩, h2⟩, h3⟩, h4⟩ := h
  have ht : startTrees (P := P) (γ := γ) c dec deser stash node f fs = startTrees c dec deser stash node f fs' := by
    unfold startTrees
    by_cases ht : f.trees
    · rw [if_pos ht, if_pos ht]
      rw [if_pos ht, Same.append] at h4
      rw [readTrees_congr h4.1, readTrees_congr h4.2]
    · rw [if_neg ht, if_neg ht]
  unfold start
  rw [daily_congr h0, daily_congr h1, (C87_own_keys c f.outDir "p0" "" 0 0 fs fs').1 h2,
    (C87_own_keys c f.outDir "p1" "" 0 0 fs fs').1 h3, ht]

/-- **C87** (addition-only, every functionality) A run of the two parties that ends normally found every daily set
of both parties, every key file and - with `--trees` - every tree file: no missing file is taken for an empty one. -/
theorem C87_addition_files (c cu : Codec G) (limit : Nat) (mont : Int → Option Mont) (x0 x1 : Int) (hashOf : Nat → List Bool)
    (stash node : Nat) (f : RunFlags) (coinsCA : Nat → Coins G Nat Unit) (coinsPSI : Nat → Coins G Nat (Ct G))
    (coinsSum : Nat → Coins G (Nat × Int) (Ct G)) (coinsSS : Nat → Coins G (Nat × Int) Int) (fs : FS) :
    (∀ r, mainCA c hashOf stash node f coinsCA fs = .ok r → Present fs (additionInputs f)) ∧
    (∀ r, mainPSI c cu hashOf stash node f coinsPSI fs = .ok r → Present fs (additionInputs f)) ∧
    (∀ r, mainSum c limit hashOf stash node f coinsSum fs = .ok r → Present fs (additionInputs f)) ∧
    (∀ r, mainSS c mont x0 x1 hashOf stash node f coinsSS fs = .ok r → Present fs (additionInputs f)) := by
  refine ⟨fun r h => ?_, fun r h => ?_, fun r h => ?_, fun r h => ?_⟩ <;>
  · simp only [mainCA, mainPSI, mainSum, mainSS, Outcome.bind_eq_ok] at h
    obtain ⟨b, hb, -⟩ := h
    exact start_present hb

/-- **C87** (addition-only, every functionality) The whole run - result, byte counts, failures - depends on no other
file. -/
theorem C87_addition_no_other (c cu : Codec G) (limit : Nat) (mont : Int → Option Mont) (x0 x1 : Int) (hashOf : Nat → List Bool)
    (stash node : Nat) (f : RunFlags) (coinsCA : Nat → Coins G Nat Unit) (coinsPSI : Nat → Coins G Nat (Ct G))
    (coinsSum : Nat → Coins G (Nat × Int) (Ct G)) (coinsSS : Nat → Coins G (Nat × Int) Int) (fs fs' : FS)
    (h : Same fs fs' (additionInputs f)) :
    mainCA c hashOf stash node f coinsCA fs = mainCA c hashOf stash node f coinsCA fs' ∧
    mainPSI c cu hashOf stash node f coinsPSI fs = mainPSI c cu hashOf stash node f coinsPSI fs' ∧
    mainSum c limit hashOf stash node f coinsSum fs = mainSum c limit hashOf stash node f coinsSum fs' ∧
    mainSS c mont x0 x1 hashOf stash node f coinsSS fs = mainSS c mont x0 x1 hashOf stash node f coinsSS fs' := by
  refine ⟨?_, ?_, ?_, ?_⟩ <;>
  simp only [mainCA, mainPSI, mainSum, mainSS, start_congr _ _ _ _ _ _ h]

/-! ### with deletions -/

theorem readDelTrees_present {f : DelRunFlags} {p : String} {fs : FS} {t : TreeFiles} (h : readDelTrees f p fs = .ok t) :
    Present fs (treeNames (f.dataDir ++ p)) := by
  simp only [readDelTrees, Outcome.bind_eq_ok] at h
  obtain ⟨_, h1, _, h2, -⟩ := h
  simp only [treeNames, Present.cons]
  exact ⟨orAbort_present h1, orAbort_present h2, Present.nil⟩

theorem readDelTrees_congr {f : DelRunFlags} {p : String} {fs fs' : FS} (h : Same fs fs' (treeNames (f.dataDir ++ p))) :
    readDelTrees f p fs = readDelTrees f p fs' := by
  simp only [treeNames, Same.cons] at h
  unfold readDelTrees
  rw [readKey_congr _ h.1, readKey_congr _ h.2.1]

theorem startDel_present {accept : Functionality → Bool} {tries : Nat} {x0 x1 : Int} {stash node : Nat} {f : DelRunFlags} {fs : FS}
    {b : StartedDel} (h : startDel accept tries x0 x1 stash node f fs = .ok b) : Present fs (deletionInputs f) := by
  simp only [startDel, Outcome.bind_eq_ok] at h
  obtain ⟨_, h0, _, h1, h⟩ := h
  by_cases ha : accept f.func
  · rw [if_pos ha] at h
    simp only [Outcome.bind_eq_ok] at h
    obtain ⟨_, h4, _, h2, _, h3, -⟩ := h
    simp only [deletionInputs, Present.append]
    refine ⟨⟨⟨⟨daily_present h0, daily_present h1⟩, deletionParty_present h2⟩, deletionParty_present h3⟩, ?_⟩
    by_cases ht : f.trees
    · simp only [startDelTrees, ht, if_true, Outcome.bind_eq_ok] at h4
      obtain ⟨_, ha, _, hb, -⟩ := h4
      rw [if_pos ht, Present.append]
      exact ⟨readDelTrees_present ha, readDelTrees_present hb⟩
    · rw [if_neg ht]; exact Present.nil
  · rw [if_neg ha] at h; cases h

theorem startDel_congr (accept : Functionality → Bool) (tries : Nat) (x0 x1 : Int) (stash node : Nat) {f : DelRunFlags}
    {fs fs' : FS} (h : Same fs fs' (deletionInputs f)) :
    startDel accept tries x0 x1 stash node f fs = startDel accept tries x0 x1 stash node f fs' := by
  simp only [deletionInputs, Same.append] at h
  obtain ⟨⟨⟨⟨h0, h1⟩, h2⟩, h3⟩, h4⟩ := h
  have ht : startDelTrees stash node f fs = startDelTrees stash node f fs' := by
    unfold startDelTrees
    by_cases ht : f.trees
    · rw [if_pos ht, if_pos ht]
      rw [if_pos ht, Same.append] at h4
      rw [readDelTrees_congr h4.1, readDelTrees_congr h4.2]
    · rw [if_neg ht, if_neg ht]
  unfold startDel
  rw [daily_congr h0, daily_congr h1, deletionParty_congr tries x0 h2, deletionParty_congr tries x1 h3, ht]

/-- **C87** (protocols with deletions) A run that ends normally found every daily set of both parties, every key
file and - with `--import` - every tree file. -/
theorem C87_deletion_files (ro : List UInt8 → Nat) (mont : Int → Option Mont) (tries : Nat) (x0 x1 : Int) (hashOf : Nat → List Bool)
    (stash node : Nat) (f : DelRunFlags) (coins : Nat → DelCoins) (coinsPsi : Nat → DelPsiCoins) (fs : FS) :
    (∀ r, mainDel ro mont tries x0 x1 hashOf stash node f coins fs = .ok r → Present fs (deletionInputs f)) ∧
    (∀ r, mainDelPsi ro mont tries x0 x1 hashOf stash node f coinsPsi fs = .ok r → Present fs (deletionInputs f)) := by
  refine ⟨fun r h => ?_, fun r h => ?_⟩ <;>
  · simp only [mainDel, mainDelPsi, Outcome.bind_eq_ok] at h
    obtain ⟨b, hb, -⟩ := h
    exact startDel_present hb

/-- **C87** (protocols with deletions) The whole run depends on no other file. -/
theorem C87_deletion_no_other (ro : List UInt8 → Nat) (mont : Int → Option Mont) (tries : Nat) (x0 x1 : Int)
    (hashOf : Nat → List Bool) (stash node : Nat) (f : DelRunFlags) (coins : Nat → DelCoins) (coinsPsi : Nat → DelPsiCoins)
    (fs fs' : FS) (h : Same fs fs' (deletionInputs f)) :
    mainDel ro mont tries x0 x1 hashOf stash node f coins fs = mainDel ro mont tries x0 x1 hashOf stash node f coins fs' ∧
    mainDelPsi ro mont tries x0 x1 hashOf stash node f coinsPsi fs =
      mainDelPsi ro mont tries x0 x1 hashOf stash node f coinsPsi fs' := by
  constructor <;> simp only [mainDel, mainDelPsi, startDel_congr _ _ _ _ _ _ h]

/-! ### with random initial trees -/

/-- **C87** (`--start_size`) The same with random initial trees. -/
theorem C87_mock_files (c : Codec G) (ro : List UInt8 → Nat) (mont : Int → Option Mont) (tries : Nat) (x0 x1 : Int)
    (hashOf : Nat → List Bool) (stash node : Nat) (f : RunFlags) (g : DelRunFlags) (start0 start1 : Int) (m0 m1 : Mock.MockCoins)
    (coinsSS : Nat → Coins G (Nat × Int) Int) (coins : Nat → DelCoins) (coinsPsi : Nat → DelPsiCoins) (fs : FS) :
    (∀ r, mainSSMock c mont x0 x1 hashOf stash node f start0 start1 m0 m1 coinsSS fs = .ok r → Present fs (additionInputs f)) ∧
    (∀ r, mainDelMock ro mont tries x0 x1 hashOf stash node g start0 start1 m0 m1 coins fs = .ok r →
      Present fs (deletionInputs g)) ∧
    (∀ r, mainDelPsiMock ro mont tries x0 x1 hashOf stash node g start0 start1 m0 m1 coinsPsi fs = .ok r →
      Present fs (deletionInputs g)) := by
  have key : ∀ accept b, startDelMock accept mont tries x0 x1 hashOf stash node g start0 start1 m0 m1 fs = .ok b →
      Present fs (deletionInputs g) := by
    intro accept b h
    unfold startDelMock at h
    split at h
    · cases h
    · split at h
      · exact startDel_present h
      · simp only [Outcome.bind_eq_ok] at h
        obtain ⟨b, hb, -⟩ := h
        exact startDel_present hb
  refine ⟨fun r h => ?_, fun r h => ?_, fun r h => ?_⟩
  · unfold mainSSMock at h
    split at h
    · simp only [mainSS, Outcome.bind_eq_ok] at h
      obtain ⟨b, hb, -⟩ := h
      exact start_present hb
    · simp only [Outcome.bind_eq_ok] at h
      obtain ⟨b, hb, -⟩ := h
      exact start_present hb
  · simp only [mainDelMock, Outcome.bind_eq_ok] at h
    obtain ⟨b, hb, -⟩ := h
    exact key _ _ hb
  · simp only [mainDelPsiMock, Outcome.bind_eq_ok] at h
    obtain ⟨b, hb, -⟩ := h
    exact key _ _ hb

/-- **C87** (`--start_size`) The whole run depends on no other file. -/
theorem C87_mock_no_other (c : Codec G) (ro : List UInt8 → Nat) (mont : Int → Option Mont) (tries : Nat) (x0 x1 : Int)
    (hashOf : Nat → List Bool) (stash node : Nat) (f : RunFlags) (g : DelRunFlags) (start0 start1 : Int) (m0 m1 : Mock.MockCoins)
    (coinsSS : Nat → Coins G (Nat × Int) Int) (coins : Nat → DelCoins) (coinsPsi : Nat → DelPsiCoins) (fs fs' : FS) :
    (Same fs fs' (additionInputs f) → mainSSMock c mont x0 x1 hashOf stash node f start0 start1 m0 m1 coinsSS fs =
      mainSSMock c mont x0 x1 hashOf stash node f start0 start1 m0 m1 coinsSS fs') ∧
    (Same fs fs' (deletionInputs g) → mainDelMock ro mont tries x0 x1 hashOf stash node g start0 start1 m0 m1 coins fs =
      mainDelMock ro mont tries x0 x1 hashOf stash node g start0 start1 m0 m1 coins fs') ∧
    (Same fs fs' (deletionInputs g) → mainDelPsiMock ro mont tries x0 x1 hashOf stash node g start0 start1 m0 m1 coinsPsi fs =
      mainDelPsiMock ro mont tries x0 x1 hashOf stash node g start0 start1 m0 m1 coinsPsi fs') := by
  refine ⟨fun h => ?_, fun h => ?_, fun h => ?_⟩
  · simp only [mainSSMock, mainSS, start_congr _ _ _ _ _ _ h]
  · simp only [mainDelMock, startDelMock, startDel_congr _ _ _ _ _ _ h]
  · simp only [mainDelPsiMock, startDelMock, startDel_congr _ _ _ _ _ _ h]

/-! ### original -/

theorem startOg_present {c cu : Codec G} {stash node : Nat} {f : RunFlags} {fs : FS} {b : StartedOg G}
    (h : startOg c cu stash node f fs = .ok b) : Present fs (originalInputs f) := by
  simp only [startOg, Outcome.bind_eq_ok] at h
  obtain ⟨_, h0, _, h1, _, -, _, -, _, h2, _, h3, _, h4, -⟩ := h
  simp only [originalInputs, Present.append]
  refine ⟨⟨⟨⟨daily_present h0, daily_present h1⟩, originalParty_present h2⟩, originalParty_present h3⟩, ?_⟩
  by_cases ht : f.trees
  · simp only [startOgTrees, ht, if_true, Outcome.bind_eq_ok] at h4
    obtain ⟨_, ha, _, hb, _, hd, -⟩ := h4
    rw [if_pos ht]
    simp only [Present.cons]
    refine ⟨?_, ?_, ?_, Present.nil⟩
    · have := orAbort_present ha
      rwa [String.append_assoc] at this
    · have := orAbort_present hb
      rwa [String.append_assoc] at this
    · have := orAbort_present hd
      rwa [String.append_assoc] at this
  · rw [if_neg ht]; exact Present.nil

theorem startOg_congr (c cu : Codec G) (stash node : Nat) {f : RunFlags} {fs fs' : FS} (h : Same fs fs' (originalInputs f)) :
    startOg c cu stash node f fs = startOg c cu stash node f fs' := by
  simp only [originalInputs, Same.append] at h
  obtain ⟨⟨⟨⟨h0, h1⟩, h2⟩, h3⟩, h4⟩ := h
  have ht : startOgTrees c cu stash node f fs = startOgTrees c cu stash node f fs' := by
    unfold startOgTrees
    by_cases ht : f.trees
    · rw [if_pos ht, if_pos ht]
      rw [if_pos ht] at h4
      simp only [Same.cons] at h4
      obtain ⟨a, b, d, -⟩ := h4
      have a' : fs.data (canon (f.dataDir ++ "p0/" ++ "encrypted.tree")) = fs'.data (canon (f.dataDir ++ "p0/" ++ "encrypted.tree")) := by
        rw [String.append_assoc]; exact a
      have b' : fs.data (canon (f.dataDir ++ "p0/" ++ "elements.ec")) = fs'.data (canon (f.dataDir ++ "p0/" ++ "elements.ec")) := by
        rw [String.append_assoc]; exact b
      have d' : fs.data (canon (f.dataDir ++ "p1/" ++ "plaintext.tree")) = fs'.data (canon (f.dataDir ++ "p1/" ++ "plaintext.tree")) := by
        rw [String.append_assoc]; exact d
      rw [readKey_congr _ a', readKey_congr _ b', readKey_congr _ d']
    · rw [if_neg ht, if_neg ht]
  unfold startOg
  rw [daily_congr h0, daily_congr h1, (C87_own_keys c f.outDir "p0" "p1" 0 0 fs fs').2.2 h2,
    (C87_own_keys c f.outDir "p1" "p0" 0 0 fs fs').2.2 h3, ht]

/-- **C87** (original protocol) A run that ends normally found every daily set of both parties, every key file and -
with `--trees` - party zero's copy of the tree and its list of hashed elements, and party one's tree. -/
theorem C87_original_files (c cu : Codec G) (q : Nat) (H : Nat → G) (hashOf : Nat → List Bool) (stash node : Nat) (f : RunFlags)
    (coins : Nat → OgCoins G) (fs : FS) (r) (h : mainOg c cu q H hashOf stash node f coins fs = .ok r) :
    Present fs (originalInputs f) := by
  simp only [mainOg, Outcome.bind_eq_ok] at h
  obtain ⟨b, hb, -⟩ := h
  exact startOg_present hb

/-- **C87** (original protocol) The whole run depends on no other file. -/
theorem C87_original_no_other (c cu : Codec G) (q : Nat) (H : Nat → G) (hashOf : Nat → List Bool) (stash node : Nat) (f : RunFlags)
    (coins : Nat → OgCoins G) (fs fs' : FS) (h : Same fs fs' (originalInputs f)) :
    mainOg c cu q H hashOf stash node f coins fs = mainOg c cu q H hashOf stash node f coins fs' := by
  simp only [mainOg, startOg_congr _ _ _ _ h]

end Upsi.Main
