import Verif.Main.OutputProps
/-
Property theorems C89: setup does not depend on what was on the disk before.
-/
namespace Upsi.Main
open Upsi Upsi.Rec Upsi.ElGamal Upsi.Tree Upsi.Proto Upsi.Setup Upsi.Wire Upsi.Num Upsi.Data

/-! ### two executions side by side -/

/-- The same files can be written, and the listed files have the same contents. -/
def Agree (S : List String) (x y : FS) : Prop := x.writable = y.writable ∧ ∀ n ∈ S, x.data n = y.data n

/-- Both end normally with related results, or both fail in the same way. -/
def Twin {α : Type} (R : α → α → Prop) (a b : Outcome α) : Prop :=
  (∃ x y, a = .ok x ∧ b = .ok y ∧ R x y) ∨ (a = b ∧ ∀ x, a ≠ .ok x)

theorem Twin.ok {α : Type} {R : α → α → Prop} {x y : α} (h : R x y) : Twin R (.ok x) (.ok y) := Or.inl ⟨x, y, rfl, rfl, h⟩

theorem Twin.bind {α β : Type} {R : α → α → Prop} {R' : β → β → Prop} {a b : Outcome α} {f g : α → Outcome β} (h : Twin R a b)
    (hf : ∀ x y, R x y → Twin R' (f x) (g y)) : Twin R' (a.bind f) (b.bind g) := by
  rcases h with ⟨x, y, rfl, rfl, r⟩ | ⟨rfl, h⟩
  · exact hf x y r
  · cases a with
    | ok x => exact absurd rfl (h x)
    | err m => exact Or.inr ⟨rfl, fun x h => by cases h⟩
    | abort => exact Or.inr ⟨rfl, fun x h => by cases h⟩
    | ub => exact Or.inr ⟨rfl, fun x h => by cases h⟩

/-- A step that does not look at the disk. -/
theorem Twin.pure_bind {α β : Type} {R' : β → β → Prop} (a : Outcome α) {f g : α → Outcome β} (hf : ∀ x, Twin R' (f x) (g x)) :
    Twin R' (a.bind f) (a.bind g) := by
  cases a with
  | ok x => exact hf x
  | err m => exact Or.inr ⟨rfl, fun x h => by cases h⟩
  | abort => exact Or.inr ⟨rfl, fun x h => by cases h⟩
  | ub => exact Or.inr ⟨rfl, fun x h => by cases h⟩

theorem Twin.fail {α : Type} {R : α → α → Prop} {a : Outcome α} (h : ∀ x, a ≠ .ok x) : Twin R a a := Or.inr ⟨rfl, h⟩

theorem Twin.mono {α : Type} {R R' : α → α → Prop} {a b : Outcome α} (h : Twin R a b) (hr : ∀ x y, R x y → R' x y) : Twin R' a b := by
  rcases h with ⟨x, y, h1, h2, r⟩ | h
  · exact Or.inl ⟨x, y, h1, h2, hr _ _ r⟩
  · exact Or.inr h

theorem Agree.mono {S T : List String} {x y : FS} (h : Agree S x y) (hs : ∀ n ∈ T, n ∈ S) : Agree T x y :=
  ⟨h.1, fun n hn => h.2 n (hs n hn)⟩

theorem Agree.set {S : List String} {x y : FS} (h : Agree S x y) (n : String) (b : Rec.Bytes) : Agree (n :: S) (x.set n b) (y.set n b) := by
  refine ⟨h.1, fun m hm => ?_⟩
  simp only [FS.set]
  by_cases e : m = n
  · rw [if_pos e, if_pos e]
  · rw [if_neg e, if_neg e]
    exact h.2 m ((List.mem_cons.1 hm).resolve_left e)

theorem writeKey_twin {M : Type} (ser : M → Rec.Bytes) (m : M) (name : String) {S : List String} {x y : FS} (h : Agree S x y) :
    Twin (Agree (canon name :: S)) (writeKey ser m name x) (writeKey ser m name y) := by
  unfold writeKey writeProtoToFile writeRecordsToFile
  rw [← h.1]
  split
  · exact Twin.pure_bind _ (fun b => Twin.ok (h.set _ _))
  · exact Twin.fail (fun x hx => by cases hx)

theorem writeDataset_twin (d : Dataset) (name : String) {S : List String} {x y : FS} (h : Agree S x y) :
    Twin (Agree (canon name :: S)) (writeDataset d name x) (writeDataset d name y) := by
  unfold writeDataset
  rw [← h.1]
  split
  · exact Twin.pure_bind _ (fun b => Twin.ok (h.set _ _))
  · exact Twin.fail (fun x hx => by cases hx)

theorem readKey_agree {M : Type} (parse : Rec.Bytes → M) {name : String} {S : List String} {x y : FS} (h : Agree S x y)
    (hn : canon name ∈ S) : readKey parse name x = readKey parse name y :=
  readKey_congr parse (h.2 _ hn)

theorem writeTrees_twin (t : TreeFiles) (a b : String) {S : List String} {x y : FS} (h : Agree S x y) :
    Twin (Agree (canon (b ++ "encrypted.tree") :: canon (a ++ "plaintext.tree") :: S)) (writeTrees t a b x) (writeTrees t a b y) :=
  Twin.bind (writeKey_twin _ _ _ h) (fun _ _ h => writeKey_twin _ _ _ h)

theorem writeDays_twin (d0 d1 : String) (s0 s1 : List Dataset) : ∀ (n i : Nat) {S : List String} {x y : FS}, Agree S x y →
    Twin (Agree ((loopNames d0 d1 n i).map canon ++ S)) (writeDays d0 d1 s0 s1 n i x) (writeDays d0 d1 s0 s1 n i y) := by
  intro n
  induction n with
  | zero => intro i S x y h; exact Twin.ok h
  | succ n ih =>
    intro i S x y h
    unfold writeDays
    refine Twin.pure_bind _ (fun a => Twin.bind (writeDataset_twin _ _ h) (fun x y h => Twin.pure_bind _ (fun b =>
      Twin.bind (writeDataset_twin _ _ h) (fun x y h => (ih (i + 1) h).mono (fun x y h => h.mono (fun s hs => ?_))))))
    have e : loopNames d0 d1 (n + 1) i = [dayFile d0 (i + 1)] ++ [dayFile d1 (i + 1)] ++ loopNames d0 d1 n (i + 1) := by
      unfold loopNames
      rw [List.range_succ_eq_map, List.flatMap_cons, List.flatMap_map]
      simp only [Nat.add_zero, List.cons_append, List.nil_append]
      congr 3
      funext j
      rw [show i + (j + 1) + 1 = i + 1 + j + 1 by omega]
    rw [e] at hs
    simp only [List.map_append, List.map_cons, List.map_nil, List.mem_append, List.mem_cons, List.not_mem_nil, or_false] at hs ⊢
    tauto

theorem days_twin (d0 d1 : String) (s0 s1 : List Dataset) (n : Nat) {S : List String} {x y : FS} (h : Agree S x y) :
    Twin (Agree ((dayNames d0 n ++ dayNames d1 n).map canon ++ S)) (writeDays d0 d1 s0 s1 n 0 x) (writeDays d0 d1 s0 s1 n 0 y) := by
  refine (writeDays_twin d0 d1 s0 s1 n 0 h).mono (fun x y h => h.mono (fun s hs => ?_))
  rw [List.mem_append] at hs ⊢
  refine hs.imp_left (fun hs => ?_)
  obtain ⟨m, hm, rfl⟩ := List.mem_map.1 hs
  exact List.mem_map_of_mem ((mem_loopNames d0 d1 n m).2 hm)

section
variable {G : Type} [AddCommGroup G] [DecidableEq G]

theorem keyPair_twin (c : Codec G) (g : G) (order coin : Nat) (a b : String) {S : List String} {x y : FS} (h : Agree S x y) :
    Twin (Agree (canon b :: canon a :: S)) (generateElGamalKeyPair c g order coin a b x) (generateElGamalKeyPair c g order coin a b y) :=
  Twin.pure_bind _ (fun _ => Twin.pure_bind _ (fun _ => Twin.pure_bind _ (fun _ =>
    Twin.bind (writeKey_twin _ _ _ h) (fun _ _ h => writeKey_twin _ _ _ h))))

theorem readShares_agree (c : Codec G) {S : List String} {x y : FS} (h : Agree S x y) : ∀ (l : List String),
    (∀ n ∈ l, canon n ∈ S) → readShares c x l = readShares c y l := by
  intro l
  induction l with
  | nil => intro _; rfl
  | cons n l ih =>
    intro hl
    rw [readShares, readShares, ih (fun m hm => hl m (List.mem_cons_of_mem _ hm)), readKey_agree _ h (hl n (by simp))]

theorem joint_twin (c : Codec G) (l : List String) (a : String) {S : List String} {x y : FS} (h : Agree S x y)
    (hl : ∀ n ∈ l, canon n ∈ S) :
    Twin (Agree (canon a :: S)) (computeJointElGamalPublicKey c l a x) (computeJointElGamalPublicKey c l a y) := by
  unfold computeJointElGamalPublicKey
  split
  · exact Twin.fail (fun x hx => by cases hx)
  · rw [readShares_agree c h l hl]
    exact Twin.pure_bind _ (fun _ => Twin.pure_bind _ (fun _ => Twin.pure_bind _ (fun _ => writeKey_twin _ _ _ h)))

/-- The canonical names of the key files of the addition-only protocols. -/
theorem setupAddition_twin (c : Codec G) (g : G) (order c0 c1 : Nat) (k : TCoins) (out : String) {x y : FS} (h : Agree [] x y) :
    Twin (Agree ((["p0", "p1"].flatMap fun p => [out ++ p ++ "/elgamal.pub", out ++ p ++ "/elgamal.key", out ++ p ++ "/shared.pub",
      out ++ p ++ "/paillier.key"]).map canon)) (setupAddition c g order c0 c1 k out x) (setupAddition c g order c0 c1 k out y) := by
  have e0 := canon_eq out "p0/" "/elgamal.pub" "p0" "/elgamal.pub" (by decide) (by decide) (by decide)
  have e1 := canon_eq out "p0/" "/elgamal.key" "p0" "/elgamal.key" (by decide) (by decide) (by decide)
  have e2 := canon_eq out "p1/" "/elgamal.pub" "p1" "/elgamal.pub" (by decide) (by decide) (by decide)
  have e3 := canon_eq out "p1/" "/elgamal.key" "p1" "/elgamal.key" (by decide) (by decide) (by decide)
  have e4 := canon_eq out "p0/" "shared.pub" "p0" "/shared.pub" (by decide) (by decide) (by decide)
  have e5 := canon_eq out "p1/" "shared.pub" "p1" "/shared.pub" (by decide) (by decide) (by decide)
  have e6 := canon_eq out "p0/" "paillier.key" "p0" "/paillier.key" (by decide) (by decide) (by decide)
  have e7 := canon_eq out "p1/" "paillier.key" "p1" "/paillier.key" (by decide) (by decide) (by decide)
  have e8 := canon_eq out "p0/" "elgamal.pub" "p0" "/elgamal.pub" (by decide) (by decide) (by decide)
  have e9 := canon_eq out "p1/" "elgamal.pub" "p1" "/elgamal.pub" (by decide) (by decide) (by decide)
  unfold setupAddition generateThresholdKeys
  refine Twin.bind (keyPair_twin _ _ _ _ _ _ h) (fun x y h => Twin.bind (keyPair_twin _ _ _ _ _ _ h) (fun x y h =>
    Twin.bind (joint_twin _ _ _ h ?_) (fun x y h => Twin.bind (joint_twin _ _ _ h ?_) (fun x y h => ?_))))
  · intro n hn
    simp only [List.mem_cons, List.not_mem_nil, or_false] at hn
    rcases hn with rfl | rfl
    · rw [e8, ← e0]; simp only [List.mem_cons, true_or, or_true]
    · rw [e9, ← e2]; simp only [List.mem_cons, true_or, or_true]
  · intro n hn
    simp only [List.mem_cons, List.not_mem_nil, or_false] at hn
    rcases hn with rfl | rfl
    · rw [e8, ← e0]; simp only [List.mem_cons, true_or, or_true]
    · rw [e9, ← e2]; simp only [List.mem_cons, true_or, or_true]
  · unfold generateThresholdPaillierKeys
    refine Twin.pure_bind _ (fun _ => Twin.pure_bind _ (fun _ => Twin.pure_bind _ (fun _ =>
      (Twin.bind (writeKey_twin _ _ _ h) (fun _ _ h => writeKey_twin _ _ _ h)).mono (fun x y h => h.mono (fun s hs => ?_)))))
    simp only [List.flatMap_cons, List.flatMap_nil, List.append_nil, List.cons_append, List.nil_append, List.map_cons, List.map_nil,
      List.mem_cons, List.not_mem_nil, or_false] at hs
    rw [e0, e1, e2, e3, e4, e5, e6, e7]
    rcases hs with h | h | h | h | h | h | h | h <;> subst h <;> simp only [List.mem_cons, true_or, or_true]

theorem setupOriginal_twin (c : Codec G) (g : G) (order c0 c1 : Nat) (out : String) {x y : FS} (h : Agree [] x y) :
    Twin (Agree ((["p0", "p1"].flatMap fun p => [out ++ p ++ "/elgamal.pub", out ++ p ++ "/elgamal.key"]).map canon))
      (setupOriginal c g order c0 c1 out x) (setupOriginal c g order c0 c1 out y) := by
  have e0 := canon_eq out "p0/" "/elgamal.pub" "p0" "/elgamal.pub" (by decide) (by decide) (by decide)
  have e1 := canon_eq out "p0/" "/elgamal.key" "p0" "/elgamal.key" (by decide) (by decide) (by decide)
  have e2 := canon_eq out "p1/" "/elgamal.pub" "p1" "/elgamal.pub" (by decide) (by decide) (by decide)
  have e3 := canon_eq out "p1/" "/elgamal.key" "p1" "/elgamal.key" (by decide) (by decide) (by decide)
  unfold setupOriginal generateElGamalKeys
  refine (Twin.bind (keyPair_twin _ _ _ _ _ _ h) (fun x y h => keyPair_twin _ _ _ _ _ _ h)).mono (fun x y h => h.mono (fun s hs => ?_))
  simp only [List.flatMap_cons, List.flatMap_nil, List.append_nil, List.cons_append, List.nil_append, List.map_cons, List.map_nil,
    List.mem_cons, List.not_mem_nil, or_false] at hs
  rw [e0, e1, e2, e3]
  rcases hs with h | h | h | h <;> subst h <;> simp only [List.mem_cons, true_or, or_true]

/-- What `generateData` makes of party zero's initial set depends on the key files only. -/
theorem generateData_twin (c : Codec G) (gen0 : List (Nat × Int) → FS → Outcome (TreeFiles × List (Nat × Int)))
    (hashOf : Nat → List Bool) (stash node : Nat) (f : SetupFlags) (ρ : SetupRand) {S : List String} {x y : FS} (h : Agree S x y)
    (hk : canon (f.outDir ++ "p1" ++ "/shared.pub") ∈ S)
    (hg : ∀ v T x y, Agree T x y → (∀ s ∈ S, s ∈ T) → gen0 v x = gen0 v y) :
    Twin (fun o o' : SetupOut => o'.printed = o.printed ∧ o'.lost0 = o.lost0 ∧ o'.lost1 = o.lost1 ∧
      Agree (S ++ (dayNames (f.dataDir ++ "p0/") f.days ++ dayNames (f.dataDir ++ "p1/") f.days ++
      (if 0 < f.start then treeNames (f.dataDir ++ "p0/") ++ treeNames (f.dataDir ++ "p1/") else [])).map canon) o.fs o'.fs)
      (generateData c gen0 hashOf stash node f ρ x) (generateData c gen0 hashOf stash node f ρ y) := by
  have e5 := canon_eq f.outDir "p1/" "shared.pub" "p1" "/shared.pub" (by decide) (by decide) (by decide)
  unfold generateData
  refine Twin.pure_bind _ (fun g => Twin.bind (days_twin _ _ _ _ _ h) (fun x y h => ?_))
  by_cases hs : 0 < f.start
  · rw [if_pos hs, if_pos hs, if_pos hs]
    have key : Twin (fun a b : FS × List (Nat × Int) × List Nat => b.2 = a.2 ∧
        Agree (S ++ (dayNames (f.dataDir ++ "p0/") f.days ++ dayNames (f.dataDir ++ "p1/") f.days ++
        (treeNames (f.dataDir ++ "p0/") ++ treeNames (f.dataDir ++ "p1/"))).map canon) a.1 b.1)
        (writeInitial c gen0 hashOf stash node f ρ g x) (writeInitial c gen0 hashOf stash node f ρ g y) := by
      unfold writeInitial
      refine Twin.pure_bind _ (fun x0 => ?_)
      rw [hg _ _ x y h (fun s hs => List.mem_append_right _ hs)]
      refine Twin.pure_bind _ (fun t => Twin.bind (writeTrees_twin t.1 _ _ h) (fun x y h => Twin.pure_bind _ (fun y0 => ?_)))
      have : getElGamal c (f.outDir ++ "p1/" ++ "shared.pub") x = getElGamal c (f.outDir ++ "p1/" ++ "shared.pub") y := by
        unfold getElGamal
        rw [readKey_agree _ h (by
          rw [e5]; exact List.mem_cons_of_mem _ (List.mem_cons_of_mem _ (List.mem_append_right _ hk)))]
      rw [this]
      refine Twin.pure_bind _ (fun pk1 => Twin.pure_bind _ (fun t1 => Twin.bind (writeTrees_twin t1.1 _ _ h) (fun x y h =>
        Twin.ok ⟨rfl, h.mono (fun s hs => ?_)⟩)))
      simp only [treeNames, List.map_append, List.map_cons, List.map_nil, List.mem_append, List.mem_cons, List.not_mem_nil,
        or_false] at hs ⊢
      tauto
    refine Twin.bind key (fun a b hab => ?_)
    obtain ⟨a, a1, a2⟩ := a
    obtain ⟨b, b1, b2⟩ := b
    obtain ⟨e, hab⟩ := hab
    simp only [Prod.mk.injEq] at e
    obtain ⟨rfl, rfl⟩ := e
    by_cases he : f.expected
    · simp only [he, if_true]
      refine Twin.pure_bind _ (fun cs => ?_)
      split
      · exact Twin.ok ⟨rfl, rfl, rfl, hab⟩
      · exact Twin.fail (fun x hx => by cases hx)
    · simp only [he, Bool.false_eq_true, if_false]
      exact Twin.ok ⟨rfl, rfl, rfl, hab⟩
  · rw [if_neg hs, if_neg hs, if_neg hs]
    refine Twin.ok ⟨rfl, rfl, rfl, h.mono (fun s hs => ?_)⟩
    simp only [List.append_nil, List.mem_append] at hs ⊢
    exact hs.symm

/-- From two executions side by side to a statement about both. -/
theorem Twin.elim {α : Type} {R : α → α → Prop} {a b : Outcome α} (h : Twin R a b) :
    (∀ o, a = .ok o → ∃ o', b = .ok o' ∧ R o o') ∧ ((∀ o, a ≠ .ok o) → b = a) := by
  rcases h with ⟨x, y, rfl, rfl, r⟩ | ⟨rfl, h⟩
  · exact ⟨fun o ho => ⟨y, rfl, by cases ho; exact r⟩, fun h => absurd rfl (h x)⟩
  · exact ⟨fun o ho => absurd ho (h o), fun _ => rfl⟩

theorem Agree.same {l : List String} {x y : FS} (h : Agree (l.map canon) x y) : Same x y l :=
  fun _ hn => h.2 _ (List.mem_map_of_mem hn)

theorem nothing_agrees {x y : FS} (hw : x.writable = y.writable) : Agree [] x y := ⟨hw, by simp⟩

theorem mem_addition_keys (out p f : String) (hp : p = "p0" ∨ p = "p1") (hf : f = "/shared.pub" ∨ f = "/paillier.key") :
    canon (out ++ p ++ f) ∈ (["p0", "p1"].flatMap fun p => [out ++ p ++ "/elgamal.pub", out ++ p ++ "/elgamal.key",
      out ++ p ++ "/shared.pub", out ++ p ++ "/paillier.key"]).map canon := by
  refine List.mem_map_of_mem ?_
  simp only [List.flatMap_cons, List.flatMap_nil, List.append_nil, List.cons_append, List.nil_append, List.mem_cons,
    List.not_mem_nil, or_false]
  rcases hp with rfl | rfl <;> rcases hf with rfl | rfl <;> simp only [true_or, or_true]

/-- **C89** (addition-only) Whatever was on the disk before - an earlier setup, for one -, setup prints the same and writes
the same files, or fails in the same way; only the permission to write counts. -/
theorem C89_addition_fresh (c : Codec G) (g : G) (order : Nat) (hashOf : Nat → List Bool) (stash node : Nat) (f : SetupFlags)
    (ρ : SetupRand) (fs fs' : FS) (hw : fs.writable = fs'.writable) :
    (∀ o, setupMain c g order hashOf stash node f ρ fs = .ok o → ∃ o', setupMain c g order hashOf stash node f ρ fs' = .ok o' ∧
      o'.printed = o.printed ∧ o'.lost0 = o.lost0 ∧ o'.lost1 = o.lost1 ∧ Same o.fs o'.fs (additionOutputs f)) ∧
    ((∀ o, setupMain c g order hashOf stash node f ρ fs ≠ .ok o) →
      setupMain c g order hashOf stash node f ρ fs' = setupMain c g order hashOf stash node f ρ fs) := by
  refine Twin.elim ((Twin.bind (setupAddition_twin c g order ρ.coin0 ρ.coin1 ρ.paillier f.outDir (nothing_agrees hw))
    (fun x y h => generateData_twin c _ hashOf stash node f ρ h (mem_addition_keys _ _ _ (Or.inr rfl) (Or.inl rfl)) ?_)).mono ?_)
  · intro v T x y h hs
    unfold initialTrees0 getElGamal
    rw [readKey_agree _ h (by
      rw [canon_eq f.outDir "p0/" "shared.pub" "p0" "/shared.pub" (by decide) (by decide) (by decide)]
      exact hs _ (mem_addition_keys _ _ _ (Or.inl rfl) (Or.inl rfl)))]
  · rintro o o' ⟨h1, h2, h3, h4⟩
    refine ⟨h1, h2, h3, Agree.same ?_⟩
    unfold additionOutputs
    rw [List.append_assoc, List.append_assoc, ← List.append_assoc (dayNames _ _), List.map_append]
    exact h4

/-- **C89** (secret sharing) The same. -/
theorem C89_ss_fresh (c : Codec G) (g : G) (order : Nat) (mont : Int → Option Num.Mont) (xc : Int) (hashOf : Nat → List Bool)
    (stash node : Nat) (f : SetupFlags) (ρ : SetupRand) (fs fs' : FS) (hw : fs.writable = fs'.writable) :
    (∀ o, setupMainSS c g order mont xc hashOf stash node f ρ fs = .ok o →
      ∃ o', setupMainSS c g order mont xc hashOf stash node f ρ fs' = .ok o' ∧
      o'.printed = o.printed ∧ o'.lost0 = o.lost0 ∧ o'.lost1 = o.lost1 ∧ Same o.fs o'.fs (additionOutputs f)) ∧
    ((∀ o, setupMainSS c g order mont xc hashOf stash node f ρ fs ≠ .ok o) →
      setupMainSS c g order mont xc hashOf stash node f ρ fs' = setupMainSS c g order mont xc hashOf stash node f ρ fs) := by
  refine Twin.elim ((Twin.bind (setupAddition_twin c g order ρ.coin0 ρ.coin1 ρ.paillier f.outDir (nothing_agrees hw))
    (fun x y h => generateData_twin c _ hashOf stash node f ρ h (mem_addition_keys _ _ _ (Or.inr rfl) (Or.inl rfl)) ?_)).mono ?_)
  · intro v T x y h hs
    unfold initialTrees0SS getElGamal
    rw [readKey_agree _ h (by
      rw [canon_eq f.outDir "p0/" "shared.pub" "p0" "/shared.pub" (by decide) (by decide) (by decide)]
      exact hs _ (mem_addition_keys _ _ _ (Or.inl rfl) (Or.inl rfl))),
      readKey_agree _ h (by
      rw [canon_eq f.outDir "p0/" "paillier.key" "p0" "/paillier.key" (by decide) (by decide) (by decide)]
      exact hs _ (mem_addition_keys _ _ _ (Or.inl rfl) (Or.inr rfl)))]
  · rintro o o' ⟨h1, h2, h3, h4⟩
    refine ⟨h1, h2, h3, Agree.same ?_⟩
    unfold additionOutputs
    rw [List.append_assoc, List.append_assoc, ← List.append_assoc (dayNames _ _), List.map_append]
    exact h4

/-- **C89** (original protocol) The same. -/
theorem C89_original_fresh (c cu : Codec G) (g : G) (order : Nat) (H : Nat → G) (hashOf : Nat → List Bool) (stash node : Nat)
    (f : SetupFlags) (ρ : OgSetupRand) (fs fs' : FS) (hw : fs.writable = fs'.writable) :
    (∀ o, setupMainOg c cu g order H hashOf stash node f ρ fs = .ok o →
      ∃ o', setupMainOg c cu g order H hashOf stash node f ρ fs' = .ok o' ∧
      o'.printed = o.printed ∧ o'.lost1 = o.lost1 ∧ Same o.fs o'.fs (originalOutputs f)) ∧
    ((∀ o, setupMainOg c cu g order H hashOf stash node f ρ fs ≠ .ok o) →
      setupMainOg c cu g order H hashOf stash node f ρ fs' = setupMainOg c cu g order H hashOf stash node f ρ fs) := by
  have e1 := canon_eq f.outDir "p0/" "elgamal.key" "p0" "/elgamal.key" (by decide) (by decide) (by decide)
  have e2 := canon_eq f.outDir "p1/" "elgamal.pub" "p1" "/elgamal.pub" (by decide) (by decide) (by decide)
  have e3 := canon_eq f.outDir "p1/" "elgamal.key" "p1" "/elgamal.key" (by decide) (by decide) (by decide)
  refine Twin.elim (Twin.bind (setupOriginal_twin c g order ρ.coin0 ρ.coin1 f.outDir (nothing_agrees hw)) (fun x y h => ?_))
  unfold generateDataOg
  refine Twin.pure_bind _ (fun g => Twin.bind (days_twin _ _ _ _ _ h) (fun x y h => ?_))
  by_cases hs : 0 < f.start
  · rw [if_pos hs, if_pos hs]
    refine Twin.pure_bind _ (fun y0 => ?_)
    have m1 : canon (f.outDir ++ "p1" ++ "/elgamal.pub") ∈
        (["p0", "p1"].flatMap fun p => [f.outDir ++ p ++ "/elgamal.pub", f.outDir ++ p ++ "/elgamal.key"]).map canon :=
      List.mem_map_of_mem (by simp)
    have m2 : canon (f.outDir ++ "p0" ++ "/elgamal.key") ∈
        (["p0", "p1"].flatMap fun p => [f.outDir ++ p ++ "/elgamal.pub", f.outDir ++ p ++ "/elgamal.key"]).map canon :=
      List.mem_map_of_mem (by simp)
    have m3 : canon (f.outDir ++ "p1" ++ "/elgamal.key") ∈
        (["p0", "p1"].flatMap fun p => [f.outDir ++ p ++ "/elgamal.pub", f.outDir ++ p ++ "/elgamal.key"]).map canon :=
      List.mem_map_of_mem (by simp)
    have r1 : getElGamal c (f.outDir ++ "p1/" ++ "elgamal.pub") x = getElGamal c (f.outDir ++ "p1/" ++ "elgamal.pub") y := by
      unfold getElGamal
      rw [readKey_agree _ h (by rw [e2]; exact List.mem_append_right _ m1)]
    rw [r1]
    refine Twin.pure_bind _ (fun pk => Twin.pure_bind _ (fun t => Twin.bind (writeTrees_twin t.1 _ _ h) (fun x y h => ?_)))
    have r2 : readSk (f.outDir ++ "p0/" ++ "elgamal.key") x = readSk (f.outDir ++ "p0/" ++ "elgamal.key") y := by
      unfold readSk
      rw [readKey_agree _ h (by
        rw [e1]; exact List.mem_cons_of_mem _ (List.mem_cons_of_mem _ (List.mem_append_right _ m2)))]
    have r3 : readSk (f.outDir ++ "p1/" ++ "elgamal.key") x = readSk (f.outDir ++ "p1/" ++ "elgamal.key") y := by
      unfold readSk
      rw [readKey_agree _ h (by
        rw [e3]; exact List.mem_cons_of_mem _ (List.mem_cons_of_mem _ (List.mem_append_right _ m3)))]
    unfold writeHXFile
    rw [r2, r3]
    have key : Twin (Agree ((originalOutputs f).map canon))
        ((readSk (f.outDir ++ "p0/" ++ "elgamal.key") y).bind fun a => (readSk (f.outDir ++ "p1/" ++ "elgamal.key") y).bind fun b =>
          (orAbort g.tree0.elems).bind fun xs => (writeHX cu H ⟨0, 0, a, b⟩ xs).bind fun hx =>
          writeKey serOPRF (hx.map (fun p => (digits p.1, p.2))) (f.dataDir ++ "p0/" ++ "elements.ec") x)
        ((readSk (f.outDir ++ "p0/" ++ "elgamal.key") y).bind fun a => (readSk (f.outDir ++ "p1/" ++ "elgamal.key") y).bind fun b =>
          (orAbort g.tree0.elems).bind fun xs => (writeHX cu H ⟨0, 0, a, b⟩ xs).bind fun hx =>
          writeKey serOPRF (hx.map (fun p => (digits p.1, p.2))) (f.dataDir ++ "p0/" ++ "elements.ec") y) := by
      refine Twin.pure_bind _ (fun a => Twin.pure_bind _ (fun b => Twin.pure_bind _ (fun xs => Twin.pure_bind _ (fun hx =>
        (writeKey_twin _ _ _ h).mono (fun x y h => h.mono (fun s hm => ?_))))))
      unfold originalOutputs at hm
      rw [if_pos hs] at hm
      simp only [String.append_assoc, 
        show ("p1/" ++ "plaintext.tree" : String) = "p1/plaintext.tree" by decide,
        show ("p0/" ++ "encrypted.tree" : String) = "p0/encrypted.tree" by decide,
        show ("p0/" ++ "elements.ec" : String) = "p0/elements.ec" by decide]
      simp only [String.append_assoc, List.map_append, List.mem_append, List.map_cons, List.map_nil, List.mem_cons,
        List.not_mem_nil, or_false] at hm ⊢
      rcases hm with ((h | h) | h) | h | h | h
      · exact Or.inr (Or.inr (Or.inr (Or.inr h)))
      · exact Or.inr (Or.inr (Or.inr (Or.inl (Or.inl h))))
      · exact Or.inr (Or.inr (Or.inr (Or.inl (Or.inr h))))
      · exact Or.inr (Or.inr (Or.inl h))
      · exact Or.inr (Or.inl h)
      · exact Or.inl h
    exact Twin.bind key (fun x y h => Twin.ok ⟨rfl, rfl, Agree.same h⟩)
  · rw [if_neg hs, if_neg hs]
    refine Twin.ok ⟨rfl, rfl, Agree.same (h.mono (fun s hm => ?_))⟩
    unfold originalOutputs at hm
    rw [if_neg hs] at hm
    simp only [List.append_nil, List.map_append, List.mem_append] at hm ⊢
    tauto

end

theorem setupDeletion_twin (len p0 q0 p1 q1 : Int) (out : String) {x y : FS} (h : Agree [] x y) :
    Twin (Agree ((["p0", "p1"].flatMap fun p => [out ++ p ++ "/paillier.key", out ++ p ++ "/paillier.pub"]).map canon))
      (setupDeletion len p0 q0 p1 q1 out x) (setupDeletion len p0 q0 p1 q1 out y) := by
  have e0 := canon_eq out "p0/" "paillier.key" "p0" "/paillier.key" (by decide) (by decide) (by decide)
  have e1 := canon_eq out "p1/" "paillier.key" "p1" "/paillier.key" (by decide) (by decide) (by decide)
  have e2 := canon_eq out "p0/" "paillier.pub" "p0" "/paillier.pub" (by decide) (by decide) (by decide)
  have e3 := canon_eq out "p1/" "paillier.pub" "p1" "/paillier.pub" (by decide) (by decide) (by decide)
  unfold setupDeletion generatePaillierKeys
  refine Twin.pure_bind _ (fun k0 => Twin.pure_bind _ (fun k1 => Twin.bind (writeKey_twin _ _ _ h) (fun x y h =>
    Twin.bind (writeKey_twin _ _ _ h) (fun x y h => Twin.bind (writeKey_twin _ _ _ h) (fun x y h =>
    (writeKey_twin _ _ _ h).mono (fun x y h => h.mono (fun s hs => ?_)))))))
  simp only [List.flatMap_cons, List.flatMap_nil, List.append_nil, List.cons_append, List.nil_append, List.map_cons, List.map_nil,
    List.mem_cons, List.not_mem_nil, or_false] at hs
  rw [e0, e1, e2, e3]
  rcases hs with h | h | h | h <;> subst h <;> simp only [List.mem_cons, true_or, or_true]

theorem delTrees_twin (mont : Int → Option Mont) (tries : Nat) (hashOf : Nat → List Bool) (stash node : Nat) (d : Dataset)
    (keyDir a b : String) (ρ : TreeCoins EP) {S : List String} {x y : FS} (h : Agree S x y)
    (hk : canon (keyDir ++ "paillier.key") ∈ S) :
    Twin (fun u v : FS × List EP => v.2 = u.2 ∧
        Agree (canon (b ++ "encrypted.tree") :: canon (a ++ "plaintext.tree") :: S) u.1 v.1)
      (delTrees mont tries hashOf stash node d keyDir a b ρ x) (delTrees mont tries hashOf stash node d keyDir a b ρ y) := by
  unfold delTrees
  rw [readKey_agree _ h hk]
  exact Twin.pure_bind _ (fun _ => Twin.pure_bind _ (fun _ => Twin.pure_bind _ (fun _ => Twin.pure_bind _ (fun t =>
    Twin.bind (writeTrees_twin t.1 _ _ h) (fun x y h => Twin.ok ⟨rfl, h⟩)))))

/-- **C89** (with deletions) The same. -/
theorem C89_deletion_fresh (mont : Int → Option Mont) (tries : Nat) (hashOf : Nat → List Bool) (stash node : Nat)
    (f : DelSetupFlags) (ρ : DelSetupRand) (fs fs' : FS) (hw : fs.writable = fs'.writable) :
    (∀ o, setupMainDel mont tries hashOf stash node f ρ fs = .ok o →
      ∃ o', setupMainDel mont tries hashOf stash node f ρ fs' = .ok o' ∧
      o'.printed = o.printed ∧ o'.lost0 = o.lost0 ∧ o'.lost1 = o.lost1 ∧ Same o.fs o'.fs (deletionOutputs f)) ∧
    ((∀ o, setupMainDel mont tries hashOf stash node f ρ fs ≠ .ok o) →
      setupMainDel mont tries hashOf stash node f ρ fs' = setupMainDel mont tries hashOf stash node f ρ fs) := by
  have e0 := canon_eq f.outDir "p0/" "paillier.key" "p0" "/paillier.key" (by decide) (by decide) (by decide)
  have e1 := canon_eq f.outDir "p1/" "paillier.key" "p1" "/paillier.key" (by decide) (by decide) (by decide)
  refine Twin.elim (Twin.bind (setupDeletion_twin f.modLength ρ.p0 ρ.q0 ρ.p1 ρ.q1 f.outDir (nothing_agrees hw)) (fun x y h => ?_))
  unfold generateDataDel
  refine Twin.pure_bind _ (fun g => Twin.bind (days_twin _ _ _ _ _ h) (fun x y h => ?_))
  have m : ∀ p, p = "p0" ∨ p = "p1" → canon (f.outDir ++ p ++ "/paillier.key") ∈
      (["p0", "p1"].flatMap fun p => [f.outDir ++ p ++ "/paillier.key", f.outDir ++ p ++ "/paillier.pub"]).map canon := by
    intro p hp
    refine List.mem_map_of_mem ?_
    rcases hp with rfl | rfl <;> simp
  by_cases hs : 0 < f.start
  · rw [if_pos hs, if_pos hs]
    refine Twin.bind (delTrees_twin mont tries hashOf stash node _ _ _ _ _ h
      (by rw [e0]; exact List.mem_append_right _ (m _ (Or.inl rfl)))) (fun u v huv => ?_)
    obtain ⟨u, l⟩ := u
    obtain ⟨v, l'⟩ := v
    obtain ⟨hl, h⟩ := huv
    simp only at hl h
    subst hl
    refine Twin.bind (delTrees_twin mont tries hashOf stash node _ _ _ _ _ h
      (by rw [e1]; exact List.mem_cons_of_mem _ (List.mem_cons_of_mem _ (List.mem_append_right _ (m _ (Or.inr rfl)))))) (fun u v huv => ?_)
    obtain ⟨u, l⟩ := u
    obtain ⟨v, l'⟩ := v
    obtain ⟨hl, h⟩ := huv
    simp only at hl h
    subst hl
    refine Twin.ok ⟨rfl, rfl, rfl, Agree.same (h.mono (fun s hm => ?_))⟩
    unfold deletionOutputs at hm
    rw [if_pos hs] at hm
    simp only [treeNames, List.map_append, List.mem_append, List.map_cons, List.map_nil, List.mem_cons,
      List.not_mem_nil, or_false] at hm ⊢
    tauto
  · rw [if_neg hs, if_neg hs]
    refine Twin.ok ⟨rfl, rfl, rfl, Agree.same (h.mono (fun s hm => ?_))⟩
    unfold deletionOutputs at hm
    rw [if_neg hs] at hm
    simp only [List.append_nil, List.map_append, List.mem_append] at hm ⊢
    tauto

/-- **C89** (setup, then a run) After setups with the same random choices on two disks, the parties' runs - here
for as many days as generated, or fewer - agree completely: nothing that was on the disk before setup can influence them. -/
theorem C89_runs_agree {G : Type} [AddCommGroup G] [DecidableEq G] (c cu : Codec G) (limit : Nat) (mont : Int → Option Mont)
    (x0 x1 : Int) (hashOf : Nat → List Bool) (stash node : Nat) (f : SetupFlags) (days : Nat) (hd : days ≤ f.days)
    (coinsCA : Nat → Coins G Nat Unit) (coinsPSI : Nat → Coins G Nat (Ct G)) (coinsSum : Nat → Coins G (Nat × Int) (Ct G))
    (coinsSS : Nat → Coins G (Nat × Int) Int) (fd : DelSetupFlags) (func : Functionality) (daysDel : Nat) (hfd : daysDel ≤ fd.days)
    (ro : List UInt8 → Nat) (tries : Nat) (coins : Nat → DelCoins) (coinsPsi : Nat → DelPsiCoins) (q : Nat) (H : Nat → G)
    (coinsOg : Nat → OgCoins G) (fs fs' : FS) :
    let r : RunFlags := { RunFlags.of f with days := days }
    let rd : DelRunFlags := { DelRunFlags.of fd func with days := daysDel }
    (Same fs fs' (additionOutputs f) →
      mainCA c hashOf stash node r coinsCA fs = mainCA c hashOf stash node r coinsCA fs' ∧
      mainPSI c cu hashOf stash node r coinsPSI fs = mainPSI c cu hashOf stash node r coinsPSI fs' ∧
      mainSum c limit hashOf stash node r coinsSum fs = mainSum c limit hashOf stash node r coinsSum fs' ∧
      mainSS c mont x0 x1 hashOf stash node r coinsSS fs = mainSS c mont x0 x1 hashOf stash node r coinsSS fs') ∧
    (Same fs fs' (deletionOutputs fd) →
      mainDel ro mont tries x0 x1 hashOf stash node rd coins fs = mainDel ro mont tries x0 x1 hashOf stash node rd coins fs' ∧
      mainDelPsi ro mont tries x0 x1 hashOf stash node rd coinsPsi fs =
        mainDelPsi ro mont tries x0 x1 hashOf stash node rd coinsPsi fs') ∧
    (Same fs fs' (originalOutputs f) →
      mainOg c cu q H hashOf stash node r coinsOg fs = mainOg c cu q H hashOf stash node r coinsOg fs') := by
  intro r rd
  obtain ⟨s1, -, s3⟩ := inputs_subset f fd func days
  obtain ⟨-, s2, -⟩ := inputs_subset f fd func daysDel
  exact ⟨fun h => C87_addition_no_other c cu limit mont x0 x1 hashOf stash node r coinsCA coinsPSI coinsSum coinsSS fs fs'
      (fun n hn => h n (s1 hd n hn)),
    fun h => C87_deletion_no_other ro mont tries x0 x1 hashOf stash node rd coins coinsPsi fs fs' (fun n hn => h n (s2 hfd n hn)),
    fun h => C87_original_no_other c cu q H hashOf stash node r coinsOg fs fs' (fun n hn => h n (s3 hd n hn))⟩

end Upsi.Main
