import Verif.Main.InputProps
import Verif.Main.AddEndProps
import Verif.Main.DelEndProps
import Verif.Main.OgEndProps
/-
Property theorems C88: the files the setup programs write.
-/
namespace Upsi.Main
open Upsi Upsi.Rec Upsi.ElGamal Upsi.Tree Upsi.Proto Upsi.Setup Upsi.Wire Upsi.Num Upsi.Data

/-! ### specification: the names of the output files -/

/-- The files of setup for the addition-only protocols. -/
def additionOutputs (f : SetupFlags) : List String :=
  (["p0", "p1"].flatMap fun p => [f.outDir ++ p ++ "/elgamal.pub", f.outDir ++ p ++ "/elgamal.key", f.outDir ++ p ++ "/shared.pub",
    f.outDir ++ p ++ "/paillier.key"]) ++
  dayNames (f.dataDir ++ "p0/") f.days ++ dayNames (f.dataDir ++ "p1/") f.days ++
  (if 0 < f.start then treeNames (f.dataDir ++ "p0/") ++ treeNames (f.dataDir ++ "p1/") else [])

/-- The files of setup for the protocols with deletions. -/
def deletionOutputs (f : DelSetupFlags) : List String :=
  (["p0", "p1"].flatMap fun p => [f.outDir ++ p ++ "/paillier.key", f.outDir ++ p ++ "/paillier.pub"]) ++
  dayNames (f.dataDir ++ "p0/") f.days ++ dayNames (f.dataDir ++ "p1/") f.days ++
  (if 0 < f.start then treeNames (f.dataDir ++ "p0/") ++ treeNames (f.dataDir ++ "p1/") else [])

/-- The files of setup for the original protocol. -/
def originalOutputs (f : SetupFlags) : List String :=
  (["p0", "p1"].flatMap fun p => [f.outDir ++ p ++ "/elgamal.pub", f.outDir ++ p ++ "/elgamal.key"]) ++
  dayNames (f.dataDir ++ "p0/") f.days ++ dayNames (f.dataDir ++ "p1/") f.days ++
  (if 0 < f.start then [f.dataDir ++ "p1/plaintext.tree", f.dataDir ++ "p0/encrypted.tree", f.dataDir ++ "p0/elements.ec"] else [])

/-- After the step the files of the list exist, and no other file has changed. -/
def Wrote (names : List String) (fs fs' : FS) : Prop :=
  Present fs' names ∧ ∀ n, n ∉ names.map canon → fs'.data n = fs.data n

theorem Wrote.refl (fs : FS) : Wrote [] fs fs := ⟨Present.nil, fun _ _ => rfl⟩

theorem Wrote.trans {a b : List String} {x y z : FS} (h : Wrote a x y) (h' : Wrote b y z) : Wrote (a ++ b) x z := by
  refine ⟨Present.append.2 ⟨fun n hn => ?_, h'.1⟩, fun n hn => ?_⟩
  · by_cases hb : canon n ∈ b.map canon
    · obtain ⟨m, hm, e⟩ := List.mem_map.1 hb
      rw [← e]
      exact h'.1 m hm
    · rw [h'.2 _ hb]
      exact h.1 n hn
  · rw [List.map_append, List.mem_append, not_or] at hn
    rw [h'.2 n hn.2, h.2 n hn.1]

/-- Only the set of canonical names counts. -/
theorem Wrote.same {a b : List String} {x y : FS} (h : Wrote a x y) (he : ∀ n, n ∈ b.map canon ↔ n ∈ a.map canon) : Wrote b x y := by
  refine ⟨fun n hn => ?_, fun n hn => h.2 n (fun h' => hn ((he n).2 h'))⟩
  obtain ⟨m, hm, e⟩ := List.mem_map.1 ((he _).1 (List.mem_map_of_mem hn))
  rw [← e]
  exact h.1 m hm

theorem writeKey_wrote {M : Type} {ser : M → Rec.Bytes} {m : M} {name : String} {fs fs' : FS} (h : writeKey ser m name fs = .ok fs') :
    Wrote [name] fs fs' := by
  obtain ⟨-, -, rfl⟩ := writeKey_ok h
  refine ⟨?_, fun n hn => ?_⟩
  · simp only [Present.cons]
    exact ⟨⟨_, by rw [FS.set]; exact if_pos rfl⟩, Present.nil⟩
  · rw [List.map_singleton, List.mem_singleton] at hn
    rw [FS.set]; exact if_neg hn

theorem writeDataset_wrote {d : Dataset} {name : String} {fs fs' : FS} (h : writeDataset d name fs = .ok fs') : Wrote [name] fs fs' := by
  unfold writeDataset at h
  split at h
  · simp only [Outcome.bind_eq_ok, Outcome.pure_eq, Outcome.ok.injEq] at h
    obtain ⟨b, -, rfl⟩ := h
    refine ⟨?_, fun n hn => ?_⟩
    · simp only [Present.cons]
      exact ⟨⟨_, by rw [FS.set]; exact if_pos rfl⟩, Present.nil⟩
    · rw [List.map_singleton, List.mem_singleton] at hn
      rw [FS.set]; exact if_neg hn
  · cases h

theorem writeTrees_wrote {t : TreeFiles} {a b : String} {fs fs' : FS} (h : writeTrees t a b fs = .ok fs') :
    Wrote [a ++ "plaintext.tree", b ++ "encrypted.tree"] fs fs' := by
  simp only [writeTrees, Outcome.bind_eq_ok] at h
  obtain ⟨_, h1, h2⟩ := h
  exact (writeKey_wrote h1).trans (writeKey_wrote h2)

/-- The names written by the loop over the days. -/
def loopNames (d0 d1 : String) (n i : Nat) : List String :=
  (List.range n).flatMap (fun j => [dayFile d0 (i + j + 1), dayFile d1 (i + j + 1)])

theorem writeDays_wrote {d0 d1 : String} {s0 s1 : List Dataset} : ∀ {n i : Nat} {fs fs' : FS},
    writeDays d0 d1 s0 s1 n i fs = .ok fs' → Wrote (loopNames d0 d1 n i) fs fs' := by
  intro n
  induction n with
  | zero => intro i fs fs' h; cases h; exact Wrote.refl _
  | succ n ih =>
    intro i fs fs' h
    simp only [writeDays, Outcome.bind_eq_ok] at h
    obtain ⟨_, -, _, h1, _, -, _, h2, h3⟩ := h
    have := ((writeDataset_wrote h1).trans (writeDataset_wrote h2)).trans (ih h3)
    have e : loopNames d0 d1 (n + 1) i = [dayFile d0 (i + 1)] ++ [dayFile d1 (i + 1)] ++ loopNames d0 d1 n (i + 1) := by
      unfold loopNames
      rw [List.range_succ_eq_map, List.flatMap_cons, List.flatMap_map]
      simp only [Nat.add_zero, List.cons_append, List.nil_append]
      congr 3
      funext j
      rw [show i + (j + 1) + 1 = i + 1 + j + 1 by omega]
    rw [e]
    exact this

theorem mem_loopNames (d0 d1 : String) (n : Nat) (s : String) :
    s ∈ loopNames d0 d1 n 0 ↔ s ∈ dayNames d0 n ++ dayNames d1 n := by
  simp only [loopNames, dayNames, dayFile, List.mem_flatMap, List.mem_append, List.mem_map, List.mem_range, List.mem_cons,
    List.not_mem_nil, or_false, Nat.zero_add]
  constructor
  · rintro ⟨j, hj, rfl | rfl⟩
    · exact Or.inl ⟨j, hj, rfl⟩
    · exact Or.inr ⟨j, hj, rfl⟩
  · rintro (⟨j, hj, rfl⟩ | ⟨j, hj, rfl⟩)
    · exact ⟨j, hj, Or.inl rfl⟩
    · exact ⟨j, hj, Or.inr rfl⟩

theorem days_wrote {d0 d1 : String} {s0 s1 : List Dataset} {n : Nat} {fs fs' : FS} (h : writeDays d0 d1 s0 s1 n 0 fs = .ok fs') :
    Wrote (dayNames d0 n ++ dayNames d1 n) fs fs' := by
  refine (writeDays_wrote h).same (fun s => ?_)
  simp only [List.mem_map, mem_loopNames]

section
variable {G : Type} [AddCommGroup G] [DecidableEq G]

theorem generateElGamalKeyPair_wrote {c : Codec G} {g : G} {order coin : Nat} {a b : String} {fs fs' : FS}
    (h : generateElGamalKeyPair c g order coin a b fs = .ok fs') : Wrote [a, b] fs fs' := by
  simp only [generateElGamalKeyPair, Outcome.bind_eq_ok] at h
  obtain ⟨_, -, _, -, _, -, _, h1, h2⟩ := h
  exact (writeKey_wrote h1).trans (writeKey_wrote h2)

theorem joint_wrote {c : Codec G} {l : List String} {a : String} {fs fs' : FS}
    (h : computeJointElGamalPublicKey c l a fs = .ok fs') : Wrote [a] fs fs' := by
  unfold computeJointElGamalPublicKey at h
  split at h
  · cases h
  · simp only [Outcome.bind_eq_ok] at h
    obtain ⟨_, -, _, -, _, -, h1⟩ := h
    exact writeKey_wrote h1

/-- Equal canonical names below a directory. -/
theorem canon_eq (out d f d' f' : String) (h : (d.toList ++ f.toList).head? = some 'p') (h' : (d'.toList ++ f'.toList).head? = some 'p')
    (e : squeeze (d.toList ++ f.toList) = squeeze (d'.toList ++ f'.toList)) : canon (out ++ d ++ f) = canon (out ++ d' ++ f') :=
  (canon_out_iff out d f d' f' h h').2 e

theorem setupAddition_wrote {c : Codec G} {g : G} {order c0 c1 : Nat} {k : TCoins} {out : String} {fs fs' : FS}
    (h : setupAddition c g order c0 c1 k out fs = .ok fs') :
    Wrote (["p0", "p1"].flatMap fun p => [out ++ p ++ "/elgamal.pub", out ++ p ++ "/elgamal.key", out ++ p ++ "/shared.pub",
      out ++ p ++ "/paillier.key"]) fs fs' := by
  simp only [setupAddition, generateThresholdKeys, Outcome.bind_eq_ok] at h
  obtain ⟨_, h1, _, h2, _, h3, _, h4, h5⟩ := h
  simp only [generateThresholdPaillierKeys, Outcome.bind_eq_ok] at h5
  obtain ⟨_, -, _, -, _, -, _, h5, h6⟩ := h5
  refine (((((generateElGamalKeyPair_wrote h1).trans (generateElGamalKeyPair_wrote h2)).trans (joint_wrote h3)).trans
    (joint_wrote h4)).trans ((writeKey_wrote h5).trans (writeKey_wrote h6))).same (fun s => ?_)
  simp only [List.flatMap_cons, List.flatMap_nil, List.append_nil, List.cons_append, List.nil_append, List.map_cons, List.map_nil,
    List.mem_cons, List.not_mem_nil, or_false,
    canon_eq out "p0/" "/elgamal.pub" "p0" "/elgamal.pub" (by decide) (by decide) (by decide),
    canon_eq out "p0/" "/elgamal.key" "p0" "/elgamal.key" (by decide) (by decide) (by decide),
    canon_eq out "p1/" "/elgamal.pub" "p1" "/elgamal.pub" (by decide) (by decide) (by decide),
    canon_eq out "p1/" "/elgamal.key" "p1" "/elgamal.key" (by decide) (by decide) (by decide),
    canon_eq out "p0/" "shared.pub" "p0" "/shared.pub" (by decide) (by decide) (by decide),
    canon_eq out "p1/" "shared.pub" "p1" "/shared.pub" (by decide) (by decide) (by decide),
    canon_eq out "p0/" "paillier.key" "p0" "/paillier.key" (by decide) (by decide) (by decide),
    canon_eq out "p1/" "paillier.key" "p1" "/paillier.key" (by decide) (by decide) (by decide)]
  constructor <;>
  · intro h
    rcases h with h | h | h | h | h | h | h | h <;> subst h <;> simp only [true_or, or_true]

theorem setupOriginal_wrote {c : Codec G} {g : G} {order c0 c1 : Nat} {out : String} {fs fs' : FS}
    (h : setupOriginal c g order c0 c1 out fs = .ok fs') :
    Wrote (["p0", "p1"].flatMap fun p => [out ++ p ++ "/elgamal.pub", out ++ p ++ "/elgamal.key"]) fs fs' := by
  simp only [setupOriginal, generateElGamalKeys, Outcome.bind_eq_ok] at h
  obtain ⟨_, h1, h2⟩ := h
  refine ((generateElGamalKeyPair_wrote h1).trans (generateElGamalKeyPair_wrote h2)).same (fun s => ?_)
  simp only [List.flatMap_cons, List.flatMap_nil, List.append_nil, List.cons_append, List.nil_append, List.map_cons, List.map_nil,
    List.mem_cons, List.not_mem_nil, or_false,
    canon_eq out "p0/" "/elgamal.pub" "p0" "/elgamal.pub" (by decide) (by decide) (by decide),
    canon_eq out "p0/" "/elgamal.key" "p0" "/elgamal.key" (by decide) (by decide) (by decide),
    canon_eq out "p1/" "/elgamal.pub" "p1" "/elgamal.pub" (by decide) (by decide) (by decide),
    canon_eq out "p1/" "/elgamal.key" "p1" "/elgamal.key" (by decide) (by decide) (by decide)]
end

theorem setupDeletion_wrote {len p0 q0 p1 q1 : Int} {out : String} {fs fs' : FS} (h : setupDeletion len p0 q0 p1 q1 out fs = .ok fs') :
    Wrote (["p0", "p1"].flatMap fun p => [out ++ p ++ "/paillier.key", out ++ p ++ "/paillier.pub"]) fs fs' := by
  simp only [setupDeletion, generatePaillierKeys, Outcome.bind_eq_ok] at h
  obtain ⟨_, -, _, -, _, h1, _, h2, _, h3, h4⟩ := h
  refine (((writeKey_wrote h1).trans (writeKey_wrote h2)).trans ((writeKey_wrote h3).trans (writeKey_wrote h4))).same (fun s => ?_)
  simp only [List.flatMap_cons, List.flatMap_nil, List.append_nil, List.cons_append, List.nil_append, List.map_cons, List.map_nil,
    List.mem_cons, List.not_mem_nil, or_false,
    canon_eq out "p0/" "paillier.key" "p0" "/paillier.key" (by decide) (by decide) (by decide),
    canon_eq out "p1/" "paillier.key" "p1" "/paillier.key" (by decide) (by decide) (by decide),
    canon_eq out "p0/" "paillier.pub" "p0" "/paillier.pub" (by decide) (by decide) (by decide),
    canon_eq out "p1/" "paillier.pub" "p1" "/paillier.pub" (by decide) (by decide) (by decide)]
  tauto

/-- Both parties' tree files. -/
theorem both_trees {d : String} {t0 t1 : TreeFiles} {x y z : FS} (h0 : writeTrees t0 (d ++ "p0/") (d ++ "p1/") x = .ok y)
    (h1 : writeTrees t1 (d ++ "p1/") (d ++ "p0/") y = .ok z) :
    Wrote (treeNames (d ++ "p0/") ++ treeNames (d ++ "p1/")) x z := by
  refine ((writeTrees_wrote h0).trans (writeTrees_wrote h1)).same (fun s => ?_)
  simp only [treeNames, List.cons_append, List.nil_append, List.map_cons, List.map_nil, List.mem_cons, List.not_mem_nil, or_false]
  tauto

/-! ### the programs -/

variable {G : Type} [AddCommGroup G] [DecidableEq G]

theorem generateData_wrote {c : Codec G} {gen0} {hashOf : Nat → List Bool} {stash node : Nat} {f : SetupFlags} {ρ : SetupRand}
    {fs : FS} {o : SetupOut} (h : generateData c gen0 hashOf stash node f ρ fs = .ok o) :
    Wrote (dayNames (f.dataDir ++ "p0/") f.days ++ dayNames (f.dataDir ++ "p1/") f.days ++
      (if 0 < f.start then treeNames (f.dataDir ++ "p0/") ++ treeNames (f.dataDir ++ "p1/") else [])) fs o.fs := by
  simp only [generateData, Outcome.bind_eq_ok] at h
  obtain ⟨g, -, fs1, hd, h⟩ := h
  refine (days_wrote hd).trans ?_
  by_cases hs : 0 < f.start
  · rw [if_pos hs] at h ⊢
    simp only [Outcome.bind_eq_ok] at h
    obtain ⟨⟨fs2, l0, l1⟩, hi, h⟩ := h
    have ho : o.fs = fs2 := by
      by_cases he : f.expected
      · simp only [he, if_true, Outcome.bind_eq_ok] at h
        obtain ⟨⟨ca, sum⟩, -, h⟩ := h
        split at h
        · simp only [Outcome.pure_eq, Outcome.ok.injEq] at h
          rw [← h]
        · cases h
      · simp only [he, Bool.false_eq_true, if_false, Outcome.pure_eq, Outcome.ok.injEq] at h
        rw [← h]
    simp only [writeInitial, Outcome.bind_eq_ok, Outcome.pure_eq, Outcome.ok.injEq, Prod.mk.injEq] at hi
    obtain ⟨_, -, ⟨_, _⟩, -, _, h0, _, -, _, -, ⟨_, _⟩, -, _, h1, rfl, -, -⟩ := hi
    rw [ho]
    exact both_trees h0 h1
  · rw [if_neg hs] at h ⊢
    simp only [Outcome.pure_eq, Outcome.ok.injEq] at h
    rw [← h]
    exact Wrote.refl _

/-- **C88** (addition-only) Setup that ends normally has written every key file, every daily set and - with initial sets -
every tree file, and no other file. -/
theorem C88_addition_outputs (c : Codec G) (g : G) (order : Nat) (hashOf : Nat → List Bool) (stash node : Nat) (f : SetupFlags)
    (ρ : SetupRand) (fs : FS) (o : SetupOut) (h : setupMain c g order hashOf stash node f ρ fs = .ok o) :
    Wrote (additionOutputs f) fs o.fs := by
  simp only [setupMain, Outcome.bind_eq_ok] at h
  obtain ⟨_, h1, h2⟩ := h
  unfold additionOutputs
  rw [List.append_assoc, List.append_assoc, ← List.append_assoc (dayNames _ _)]
  exact (setupAddition_wrote h1).trans (generateData_wrote h2)

/-- **C88** (secret sharing) The same. -/
theorem C88_ss_outputs (c : Codec G) (g : G) (order : Nat) (mont : Int → Option Num.Mont) (x : Int) (hashOf : Nat → List Bool)
    (stash node : Nat) (f : SetupFlags) (ρ : SetupRand) (fs : FS) (o : SetupOut)
    (h : setupMainSS c g order mont x hashOf stash node f ρ fs = .ok o) : Wrote (additionOutputs f) fs o.fs := by
  simp only [setupMainSS, Outcome.bind_eq_ok] at h
  obtain ⟨_, h1, h2⟩ := h
  unfold additionOutputs
  rw [List.append_assoc, List.append_assoc, ← List.append_assoc (dayNames _ _)]
  exact (setupAddition_wrote h1).trans (generateData_wrote h2)

/-- **C88** (with deletions) The same: Paillier key files, daily sets and tree files. -/
theorem C88_deletion_outputs (mont : Int → Option Mont) (tries : Nat) (hashOf : Nat → List Bool) (stash node : Nat)
    (f : DelSetupFlags) (ρ : DelSetupRand) (fs : FS) (o : DelSetupOut)
    (h : setupMainDel mont tries hashOf stash node f ρ fs = .ok o) : Wrote (deletionOutputs f) fs o.fs := by
  simp only [setupMainDel, generateDataDel, Outcome.bind_eq_ok] at h
  obtain ⟨_, h1, _, -, fs1, hd, h⟩ := h
  unfold deletionOutputs
  rw [List.append_assoc, List.append_assoc, ← List.append_assoc (dayNames _ _)]
  refine (setupDeletion_wrote h1).trans ((days_wrote hd).trans ?_)
  by_cases hs : 0 < f.start
  · rw [if_pos hs] at h ⊢
    simp only [delTrees, Outcome.bind_eq_ok, Outcome.pure_eq, Outcome.ok.injEq] at h
    obtain ⟨_, ⟨_, -, _, -, _, -, ⟨_, _⟩, -, _, h0, rfl⟩, _, ⟨_, -, _, -, _, -, ⟨_, _⟩, -, _, h2, rfl⟩, rfl⟩ := h
    exact both_trees h0 h2
  · rw [if_neg hs] at h ⊢
    simp only [Outcome.pure_eq, Outcome.ok.injEq] at h
    rw [← h]
    exact Wrote.refl _

/-- **C88** (original protocol) The same: ElGamal key files, daily sets and - with initial sets - party one's tree, party
zero's copy of it and its list of hashed elements. -/
theorem C88_original_outputs (c cu : Codec G) (g : G) (order : Nat) (H : Nat → G) (hashOf : Nat → List Bool) (stash node : Nat)
    (f : SetupFlags) (ρ : OgSetupRand) (fs : FS) (o : OgSetupOut)
    (h : setupMainOg c cu g order H hashOf stash node f ρ fs = .ok o) : Wrote (originalOutputs f) fs o.fs := by
  simp only [setupMainOg, generateDataOg, Outcome.bind_eq_ok] at h
  obtain ⟨_, h1, _, -, fs1, hd, h⟩ := h
  unfold originalOutputs
  rw [List.append_assoc, List.append_assoc, ← List.append_assoc (dayNames _ _)]
  refine (setupOriginal_wrote h1).trans ((days_wrote hd).trans ?_)
  by_cases hs : 0 < f.start
  · rw [if_pos hs] at h ⊢
    simp only [writeHXFile, Outcome.bind_eq_ok, Outcome.pure_eq, Outcome.ok.injEq] at h
    obtain ⟨_, -, _, -, ⟨_, _⟩, -, _, h0, _, ⟨_, -, _, -, _, -, _, -, h2⟩, rfl⟩ := h
    have := (writeTrees_wrote h0).trans (writeKey_wrote h2)
    simpa only [String.append_assoc, List.cons_append, List.nil_append,
      show ("p1/" ++ "plaintext.tree" : String) = "p1/plaintext.tree" by decide,
      show ("p0/" ++ "encrypted.tree" : String) = "p0/encrypted.tree" by decide,
      show ("p0/" ++ "elements.ec" : String) = "p0/elements.ec" by decide] using this
  · rw [if_neg hs] at h ⊢
    simp only [Outcome.pure_eq, Outcome.ok.injEq] at h
    rw [← h]
    exact Wrote.refl _

/-! ### together with C87 -/

/-- The input files of a run are output files of setup. -/
theorem inputs_subset (f : SetupFlags) (fd : DelSetupFlags) (func : Functionality) (days : Nat) :
    (days ≤ f.days → ∀ n ∈ additionInputs { RunFlags.of f with days := days }, n ∈ additionOutputs f) ∧
    (days ≤ fd.days → ∀ n ∈ deletionInputs { DelRunFlags.of fd func with days := days }, n ∈ deletionOutputs fd) ∧
    (days ≤ f.days → ∀ n ∈ originalInputs { RunFlags.of f with days := days }, n ∈ originalOutputs f) := by
  have hdays : ∀ {d : String} {a b : Nat}, a ≤ b → ∀ n ∈ dayNames d a, n ∈ dayNames d b := by
    intro d a b hab n hn
    simp only [dayNames, List.mem_map, List.mem_range] at hn ⊢
    obtain ⟨i, hi, rfl⟩ := hn
    exact ⟨i, by omega, rfl⟩
  refine ⟨fun hd n hn => ?_, fun hd n hn => ?_, fun hd n hn => ?_⟩
  · simp only [additionInputs, additionOutputs, List.mem_append, RunFlags.of] at hn ⊢
    rcases hn with (((hn | hn) | hn) | hn) | hn
    · exact Or.inl (Or.inl (Or.inr (hdays hd n hn)))
    · exact Or.inl (Or.inr (hdays hd n hn))
    · refine Or.inl (Or.inl (Or.inl ?_))
      simp only [additionKeyNames, List.mem_cons, List.not_mem_nil, or_false] at hn
      simp only [List.flatMap_cons, List.flatMap_nil, List.append_nil, List.cons_append, List.nil_append, List.mem_cons,
        List.not_mem_nil, or_false]
      tauto
    · refine Or.inl (Or.inl (Or.inl ?_))
      simp only [additionKeyNames, List.mem_cons, List.not_mem_nil, or_false] at hn
      simp only [List.flatMap_cons, List.flatMap_nil, List.append_nil, List.cons_append, List.nil_append, List.mem_cons,
        List.not_mem_nil, or_false]
      tauto
    · refine Or.inr ?_
      simpa using hn
  · simp only [deletionInputs, deletionOutputs, List.mem_append, DelRunFlags.of] at hn ⊢
    rcases hn with (((hn | hn) | hn) | hn) | hn
    · exact Or.inl (Or.inl (Or.inr (hdays hd n hn)))
    · exact Or.inl (Or.inr (hdays hd n hn))
    · refine Or.inl (Or.inl (Or.inl ?_))
      simp only [deletionKeyNames, List.mem_cons, List.not_mem_nil, or_false] at hn
      simp only [List.flatMap_cons, List.flatMap_nil, List.append_nil, List.cons_append, List.nil_append, List.mem_cons,
        List.not_mem_nil, or_false]
      tauto
    · refine Or.inl (Or.inl (Or.inl ?_))
      simp only [deletionKeyNames, List.mem_cons, List.not_mem_nil, or_false] at hn
      simp only [List.flatMap_cons, List.flatMap_nil, List.append_nil, List.cons_append, List.nil_append, List.mem_cons,
        List.not_mem_nil, or_false]
      tauto
    · refine Or.inr ?_
      simpa using hn
  · simp only [originalInputs, originalOutputs, List.mem_append, RunFlags.of] at hn ⊢
    rcases hn with (((hn | hn) | hn) | hn) | hn
    · exact Or.inl (Or.inl (Or.inr (hdays hd n hn)))
    · exact Or.inl (Or.inr (hdays hd n hn))
    · refine Or.inl (Or.inl (Or.inl ?_))
      simp only [originalKeyNames, List.mem_cons, List.not_mem_nil, or_false] at hn
      simp only [List.flatMap_cons, List.flatMap_nil, List.append_nil, List.cons_append, List.nil_append, List.mem_cons,
        List.not_mem_nil, or_false]
      tauto
    · refine Or.inl (Or.inl (Or.inl ?_))
      simp only [originalKeyNames, List.mem_cons, List.not_mem_nil, or_false] at hn
      simp only [List.flatMap_cons, List.flatMap_nil, List.append_nil, List.cons_append, List.nil_append, List.mem_cons,
        List.not_mem_nil, or_false]
      tauto
    · refine Or.inr ?_
      by_cases hs : 0 < f.start
      · simp only [hs, decide_true, if_true, List.mem_cons, List.not_mem_nil, or_false] at hn ⊢
        tauto
      · simp [hs] at hn

/-- **C88** After setup every input file of a run for as many days or fewer is there. -/
theorem C88_inputs_written (f : SetupFlags) (fd : DelSetupFlags) (func : Functionality) (days : Nat) (fs fs' : FS) :
    (days ≤ f.days → Wrote (additionOutputs f) fs fs' →
      Present fs' (additionInputs { RunFlags.of f with days := days })) ∧
    (days ≤ fd.days → Wrote (deletionOutputs fd) fs fs' →
      Present fs' (deletionInputs { DelRunFlags.of fd func with days := days })) ∧
    (days ≤ f.days → Wrote (originalOutputs f) fs fs' →
      Present fs' (originalInputs { RunFlags.of f with days := days })) := by
  obtain ⟨s1, s2, s3⟩ := inputs_subset f fd func days
  exact ⟨fun hd h n hn => h.1 n (s1 hd n hn), fun hd h n hn => h.1 n (s2 hd n hn), fun hd h n hn => h.1 n (s3 hd n hn)⟩

end Upsi.Main
