import Verif.Proto.AddModel
import Verif.Tree.Props
import Verif.ElGamal.Props
import Mathlib.GroupTheory.OrderOfElement
/- Generic correctness of the candidate exchange (helper lemmas for C42-C45, C53). -/
namespace Upsi.Proto
open Upsi Upsi.ElGamal Upsi.Tree Upsi.Num

variable {α β γ κ P G : Type}

theorem forIdx_forall₂ {f : Nat → α → Outcome β} (l : List α) : ∀ (i : Nat) (bs : List β),
    forIdx f i l = .ok bs → List.Forall₂ (fun a b => ∃ k, f k a = .ok b) l bs := by
  induction l with
  | nil => intro i bs h; simp [forIdx] at h; subst h; exact .nil
  | cons a as ih =>
    intro i bs h
    simp only [forIdx, Outcome.bind_eq_ok, Outcome.pure_eq, Outcome.ok.injEq] at h
    obtain ⟨b, h1, bs', h2, rfl⟩ := h
    exact .cons ⟨i, h1⟩ (ih _ _ h2)

theorem forall₂_flatMap {R : α → β → Prop} {γ : Type} {S : γ → List β → Prop} {f : γ → List α}
    {l : List γ} {bs : List (List β)} (h : List.Forall₂ S l bs)
    (hS : ∀ c ∈ l, ∀ b, S c b → List.Forall₂ R (f c) b) :
    List.Forall₂ R (l.flatMap f) bs.flatten := by
  induction h with
  | nil => exact .nil
  | cons h1 _ ih =>
    simp only [List.flatMap_cons, List.flatten_cons]
    exact List.rel_append (hS _ (by simp) _ h1) (ih (fun c hc => hS c (by simp [hc])))

theorem forall₂_mono {R S : α → β → Prop} {l : List α} {m : List β} (h : List.Forall₂ R l m)
    (hRS : ∀ a ∈ l, ∀ b, R a b → S a b) : List.Forall₂ S l m := by
  induction h with
  | nil => exact .nil
  | cons h1 _ ih => exact .cons (hRS _ (by simp) _ h1) (ih (fun a ha => hRS a (by simp [ha])))

theorem forall₂_comp {R : α → β → Prop} {S : β → γ → Prop} {T : α → γ → Prop} {l : List α} {m : List β}
    {n : List γ} (h : List.Forall₂ R l m) (h' : List.Forall₂ S m n)
    (hT : ∀ a b c, R a b → S b c → T a c) : List.Forall₂ T l n := by
  induction h generalizing n with
  | nil => cases h'; exact .nil
  | cons h1 _ ih => cases h' with
    | cons h2 h3 => exact .cons (hT _ _ _ h1 h2) (ih h3)

theorem forall₂_mapIdx {R : α → β → Prop} {S : α → γ → Prop} {l : List α} {m : List β}
    (f : Nat → β → γ) (h : List.Forall₂ R l m) (hf : ∀ i a b, R a b → S a (f i b)) :
    List.Forall₂ S l (m.mapIdx f) := by
  induction h generalizing f with
  | nil => exact .nil
  | cons h1 _ ih =>
    rw [List.mapIdx_cons]
    exact .cons (hf 0 _ _ h1) (ih _ (fun i a b h => hf (i + 1) a b h))

theorem forall₂_filter {R : α → β → Prop} {S : α → β → Prop} {p : α → Bool} {q : β → Bool}
    {l : List α} {m : List β} (h : List.Forall₂ R l m)
    (hpq : ∀ a b, R a b → (p a = q b ∧ (p a = true → S a b))) :
    List.Forall₂ S (l.filter p) (m.filter q) := by
  induction h with
  | nil => exact .nil
  | cons h1 _ ih =>
    obtain ⟨h2, h3⟩ := hpq _ _ h1
    rw [List.filter_cons, List.filter_cons, ← h2]
    split
    · exact .cons (h3 ‹_›) ih
    · exact ih

/-! ### specification -/

/-- The entries of `X` that have a matching element in `Y`, each as often as it matches. -/
def matched (key : P → Nat) (X : List P) (Y : List Nat) : List P :=
  X.flatMap (fun p => List.replicate (Y.count (key p)) p)

theorem matched_append_left (key : P → Nat) (X X' : List P) (Y : List Nat) :
    matched key (X ++ X') Y = matched key X Y ++ matched key X' Y := by
  simp [matched]

theorem matched_append_right (key : P → Nat) (X : List P) (Y Y' : List Nat) :
    (matched key X (Y ++ Y')).Perm (matched key X Y ++ matched key X Y') := by
  induction X with
  | nil => simp [matched]
  | cons p X ih =>
    simp only [matched, List.flatMap_cons, List.count_append] at ih ⊢
    rw [List.replicate_add, List.append_assoc, List.append_assoc]
    refine List.Perm.append_left _ ?_
    refine (ih.append_left _).trans ?_
    exact List.perm_append_comm_assoc _ _ _

theorem matched_perm (key : P → Nat) {X X' : List P} {Y Y' : List Nat} (h : X.Perm X')
    (h' : Y.Perm Y') : (matched key X Y).Perm (matched key X' Y') := by
  have : matched key X Y = matched key X Y' := by
    simp only [matched]; congr 1; funext p; rw [h'.count_eq]
  rw [this]
  exact h.flatMap_right _

/-- Listing the matches from the other side gives the same entries. -/
theorem matched_comm (key : P → Nat) (X : List P) (Y : List Nat) :
    (Y.flatMap (fun y => X.filter (fun p => key p = y))).Perm (matched key X Y) := by
  induction Y with
  | nil => simp [matched]
  | cons y Y ih =>
    simp only [List.flatMap_cons]
    have h1 : (matched key X ([y] ++ Y)).Perm (matched key X [y] ++ matched key X Y) :=
      matched_append_right key X [y] Y
    refine ((ih.append_left _).trans ?_).trans h1.symm
    refine List.Perm.append_right _ ?_
    have : X.filter (fun p => key p = y) = matched key X [y] := by
      clear h1 ih
      induction X with
      | nil => rfl
      | cons p X ih =>
        simp only [matched, List.flatMap_cons, List.filter_cons] at ih ⊢
        rw [ih]
        by_cases h : key p = y
        · simp [h]
        · have : List.count (key p) [y] = 0 := by
            rw [List.count_eq_zero]; simpa using h
          simp [h, this]
    rw [this]

/-! ### requirements on a functionality -/

/-- The public parameters and key shares: a group of prime order `q` (CURVE_ID is
`NID_X9_62_prime256v1`, utils.h, whose group has prime order and cofactor 1), a generator and the
two ElGamal key shares. -/
structure Setup (G : Type) [AddCommGroup G] where
  g : G
  q : Nat
  sk0 : Int
  sk1 : Int
  hq : q.Prime
  hcard : Nat.card G = q
  hg0 : g ≠ 0

variable [AddCommGroup G] [DecidableEq G]

omit [DecidableEq G] in
theorem Setup.hg (S : Setup G) : addOrderOf S.g = S.q := by
  have h1 : addOrderOf S.g ∣ S.q := by rw [← S.hcard]; exact addOrderOf_dvd_natCard S.g
  rcases (Nat.dvd_prime S.hq).1 h1 with h | h
  · exact absurd (AddMonoid.addOrderOf_eq_one_iff.1 h) S.hg0
  · exact h

omit [DecidableEq G] in
theorem Setup.smul_zero_iff (S : Setup G) {k : Int} (hk : ¬ (S.q : Int) ∣ k) (m : G) :
    k • m = 0 ↔ m = 0 := by
  constructor
  · intro h
    by_contra hm
    have h1 : addOrderOf m ∣ S.q := by rw [← S.hcard]; exact addOrderOf_dvd_natCard m
    rcases (Nat.dvd_prime S.hq).1 h1 with h2 | h2
    · exact hm (AddMonoid.addOrderOf_eq_one_iff.1 h2)
    · exact hk ((zsmul_eq_zero_iff h2 k).1 h)
  · rintro rfl; simp

/-- The joint public key. -/
def Setup.pk (S : Setup G) : PK G := ⟨S.g, (S.sk0 + S.sk1) • S.g⟩

/-- Decryption under the joint key. -/
def Setup.dec (S : Setup G) (c : Ct G) : G := decrypt (S.sk0 + S.sk1) c

omit [DecidableEq G] in
theorem Setup.smul_eq_iff (S : Setup G) {a b : Nat} (ha : a < S.q) (hb : b < S.q) :
    (a : Int) • S.g - (b : Int) • S.g = 0 ↔ a = b := by
  rw [← sub_smul, zsmul_eq_zero_iff S.hg]
  constructor
  · rintro ⟨k, hk⟩
    have hlt : |((a : Int) - b)| < S.q := by rw [abs_lt]; omega
    have := Int.eq_zero_of_abs_lt_dvd ⟨k, hk⟩ hlt
    omega
  · rintro rfl; simp

/-- What a functionality must satisfy: `Pay p k` – `k` is a payload for entry `p` before masking;
`Pay' p k` – after masking and sending; `Good` – acceptable masks. -/
structure FuncOK (S : Setup G) (F : Func G P γ κ) (Pay Pay' : P → κ → Prop)
    (Good : Tape → Prop) : Prop where
  tree : ∀ t p w c, F.encTree S.pk t p = .ok w → F.deserTree w = .ok c →
    S.dec (F.first c) = (F.key p : Int) • S.g ∧ Pay p (F.second c)
  payload : ∀ t p k, F.payload S.pk t p = .ok k → Pay p k
  ser : ∀ c k w x, F.ser c k = .ok w → F.deser w = .ok x → x = (c, k)
  send : ∀ m t x w x', Good m → F.send S.pk S.sk1 t (F.mask m x) = .ok w → F.deser w = .ok x' →
    (decrypt S.sk0 x'.1 = 0 ↔ S.dec x.1 = 0) ∧
    (S.dec x.1 = 0 → ∀ p, Pay p x.2 → Pay' p x'.2)

/-- Well-formed coins of a day: `B` separates set elements from padding elements. -/
structure Coins.WF (S : Setup G) (key : P → Nat) (B : Nat) (Good : Tape → Prop) (xs : List P)
    (ys : List Nat) (ρ : Coins G P κ) : Prop where
  hsh0 : Batch.WF (xs, ρ.hsh0)
  hsh1 : Batch.WF (ys, ρ.hsh1)
  pads0 : ∀ i j, B ≤ key (ρ.pads0 i j) ∧ key (ρ.pads0 i j) < S.q
  pads1 : ∀ i j, B ≤ ρ.pads1 i j ∧ ρ.pads1 i j < S.q
  shuffle : ∀ l, (ρ.shuffle l).Perm l
  masks : ∀ i, Good (ρ.masks i)

/-- Invariant of the two parties' trees after `X` and `Y` have been inserted. -/
structure Inv (S : Setup G) (F : Func G P γ κ) (Pay : P → κ → Prop) (hashOf : Nat → List Bool)
    (B : Nat) (X : List P) (Y : List Nat) (s0 : St0 G P) (s1 : St1 γ) : Prop where
  wf0 : TWF (fun p => hashOf (F.key p)) s0.my
  wf1 : TWF hashOf s1.my
  size0 : s0.my.actualSize = X.length
  size1 : s1.my.actualSize = Y.length
  all0 : (s0.my.contents ++ s0.lost).Perm X
  all1 : (s1.my.contents ++ s1.lost).Perm Y
  mir0 : Mirror (fun p c => S.dec (F.first c) = (F.key p : Int) • S.g ∧ Pay p (F.second c))
    (fun p => B ≤ F.key p ∧ F.key p < S.q) s0.my s1.other
  mir1 : Mirror (fun (y : Nat) c => S.dec c = (y : Int) • S.g) (fun y => B ≤ y ∧ y < S.q)
    s1.my s0.other

theorem mirror_empty (Enc : α → β → Prop) (isPad : α → Prop) (s n s' n' : Nat) :
    Mirror Enc isPad (Tree.empty s n) (Tree.empty s' n') :=
  ⟨rfl, rfl, rfl, fun u => ⟨[], by simp, by
      match u with
      | 0 => exact List.Forall₂.nil
      | 1 => exact List.Forall₂.nil
      | u + 2 => exact List.Forall₂.nil⟩⟩

theorem Inv.init (S : Setup G) (F : Func G P γ κ) (Pay : P → κ → Prop) (hashOf : Nat → List Bool)
    (B stash node : Nat) :
    Inv S F Pay hashOf B [] [] (St0.init stash node) (St1.init stash node) where
  wf0 := empty_wf _ _ _
  wf1 := empty_wf _ _ _
  size0 := rfl
  size1 := rfl
  all0 := by simp [St0.init, Tree.contents, Tree.empty]
  all1 := by simp [St1.init, Tree.contents, Tree.empty]
  mir0 := mirror_empty _ _ _ _ _ _
  mir1 := mirror_empty _ _ _ _ _ _

theorem serializeCt_deser (c : Codec G) {x : Ct G} {p : CtProto} {y : Ct G}
    (h : serializeCt c x = .ok p) (h' : deserializeCt c p = .ok y) : y = x := by
  rcases (C29_wire c x) with ⟨h1, h2⟩
  by_cases hx : x.u ≠ 0 ∧ x.e ≠ 0
  · obtain ⟨p', hp, hd⟩ := h1 hx
    rw [h] at hp
    simp only [Outcome.ok.injEq] at hp
    subst hp
    rw [hd] at h'
    simpa using h'.symm
  · obtain ⟨m, hm⟩ := h2 (by tauto)
    rw [hm] at h
    simp at h

/-- Contents and ghost loss after a sender's update. -/
theorem sendUpdate_all {ω : Type} {hashOf : α → List Bool} (hh : ∀ e, 256 ≤ (hashOf e).length)
    {enc : Nat → Nat → α → Outcome ω} {pads : Nat → Nat → α} {s : Upsi.Tree.Tree α} (hs : TWF hashOf s)
    {es : List α} {hsh : List (List Bool)} (hb : Batch.WF (es, hsh))
    (htot : es.length + s.actualSize < 2 ^ 30) {x : SendResult α ω}
    (hx : sendUpdate hashOf id enc pads s es hsh = .ok x) :
    (x.tree.contents ++ x.lost).Perm (s.contents ++ es) := by
  simp only [sendUpdate, Outcome.bind_eq_ok, Outcome.pure_eq, Outcome.ok.injEq] at hx
  obtain ⟨ri, hri, ws, hws, rfl⟩ := hx
  obtain ⟨ri', k1, _, _, _, _, _, _, k8, _⟩ :=
    insertWith_spec (PostOK.id hashOf) hh (fun a => ({a} : Multiset α)) (fun _ => rfl) hs hb htot
  rw [hri] at k1
  simp only [Outcome.ok.injEq] at k1
  subst k1
  rw [wsum_singleton, wsum_singleton, wsum_singleton, wsum_singleton] at k8
  simpa using k8

end Upsi.Proto
