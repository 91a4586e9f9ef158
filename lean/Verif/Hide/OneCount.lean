import Verif.Hide.OneMain
import Verif.Proto.AddCore
/- The candidates of a day that are zero are the new pairs of equal elements (C80). -/
namespace Upsi.Hide
open Upsi Upsi.ElGamal Upsi.Tree Upsi.Num Upsi.Proto Upsi.View Upsi.Tree.Props

/-- The number of pairs of equal elements; the size of the intersection if neither list has an element twice. -/
def common (X Y : List Nat) : Nat := (X.map fun x => Y.count x).sum

theorem common_append_left (X X' Y : List Nat) : common (X ++ X') Y = common X Y + common X' Y := by simp [common]

theorem common_append_right (X Y Y' : List Nat) : common X (Y ++ Y') = common X Y + common X Y' := by
  induction X with
  | nil => rfl
  | cons x X ih => simp only [common, List.map_cons, List.sum_cons, List.count_append] at ih ⊢; omega

theorem common_comm (X Y : List Nat) : (Y.map fun y => X.count y).sum = common X Y := by
  induction X with
  | nil => simp [common]
  | cons x X ih =>
    have : (Y.map fun y => (x :: X).count y).sum = Y.count x + (Y.map fun y => X.count y).sum := by
      clear ih
      induction Y with
      | nil => rfl
      | cons y Y ihY =>
        simp only [List.map_cons, List.sum_cons, List.count_cons] at ihY ⊢
        rw [ihY]
        simp only [beq_iff_eq, eq_comm (a := x)]
        omega
    rw [this, ih]; rfl

theorem dvd_iff_eq {q a b : Nat} (ha : a < q) (hb : b < q) : ((q : Int) ∣ (a : Int) - b) ↔ a = b := by
  constructor
  · intro h
    have : (a : Int) - b = 0 := by
      apply Int.eq_zero_of_abs_lt_dvd h
      rw [abs_lt]; omega
    omega
  · rintro rfl; simp

theorem countP_forall₂ {α β : Type} {R : α → β → Prop} {p : α → Bool} {r : β → Bool} {a : List α} {b : List β} (h : List.Forall₂ R a b)
    (hp : ∀ x ∈ a, ∀ y, R x y → p x = r y) : a.countP p = b.countP r := by
  induction h with
  | nil => rfl
  | cons h1 _ ih =>
    rw [List.countP_cons, List.countP_cons, ih (fun x hx => hp x (by simp [hx])), hp _ (by simp) _ h1]

/-- How often an element is found on its path in a copy. -/
theorem path_count {β : Type} {hashOf : Nat → List Bool} (hh : ∀ e, (hashOf e).length = 256) {s : Upsi.Tree.Tree Nat} {r : Upsi.Tree.Tree (β × Int)} {B q : Nat}
    (hs : TWF hashOf s) (hm : Mirror (fun (a : Nat) (l : β × Int) => l.2 = (a : Int)) (fun p => B ≤ p ∧ p < q) s r) (hB : B ≤ q)
    (hc : ∀ a ∈ s.contents, a < B) {k : Nat} (hk : k < B) (hw : Whole r) :
    (pathOf r (hashOf k)).countP (fun l => decide ((q : Int) ∣ l.2 - k)) = s.contents.count k := by
  obtain ⟨l, k1, k2, k3⟩ := path_mirror (key := id) hh hs hm hB hc hk (hw.pathOf (hh k))
  rw [← countP_forall₂ (p := fun a => decide (a = k)) k1 (by
    intro a ha y hy
    have h1 : a < q := k2 a ha
    rw [hy]
    exact decide_eq_decide.2 (dvd_iff_eq h1 (by omega)).symm)]
  have := k3.length_eq
  simp only [id] at this
  rw [List.countP_eq_length_filter, this, List.count_eq_length_filter]
  congr 1

variable {G : Type} [AddCommGroup G] [DecidableEq G]

theorem countP_flatten_mapIdx {α β : Type} (f : Nat → α → List β) (p : β → Bool) (t : α → Nat) (l : List α)
    (h : ∀ i, ∀ a ∈ l, (f i a).countP p = t a) : (l.mapIdx f).flatten.countP p = (l.map t).sum := by
  rw [List.countP_flatten]
  congr 1
  refine List.ext_getElem (by simp) fun i hi hi' => ?_
  simp only [List.getElem_map, List.getElem_mapIdx]
  exact h _ _ (List.getElem_mem _)

theorem countP_mapIdx {α β : Type} (f : Nat → α → β) (p : β → Bool) (r : α → Bool) (l : List α) (h : ∀ i a, p (f i a) = r a) :
    (l.mapIdx f).countP p = l.countP r := by
  induction l generalizing f with
  | nil => rfl
  | cons a l ih =>
    rw [List.mapIdx_cons, List.countP_cons, List.countP_cons, ih (fun i => f (i + 1)) (fun i a => h _ _), h]

/-- The trees hold `X` and `Y`, and the copies mirror them. -/
structure Holds (hashOf : Nat → List Bool) (B q : Nat) (X Y : List Nat) (s : SymSt) : Prop where
  wf0 : TWF hashOf s.my0
  wf1 : TWF hashOf s.my1
  size0 : s.my0.actualSize = X.length
  size1 : s.my1.actualSize = Y.length
  all0 : s.my0.contents.Perm X
  all1 : s.my1.contents.Perm Y
  mir0 : Mirror (fun (a : Nat) (l : Int × Int) => l.2 = (a : Int)) (fun p => B ≤ p ∧ p < q) s.my0 s.copy0
  mir1 : Mirror (fun (a : Nat) (l : Slot × Int) => l.2 = (a : Int)) (fun p => B ≤ p ∧ p < q) s.my1 s.copy1

theorem Holds.init (hashOf : Nat → List Bool) (B q stash node : Nat) : Holds hashOf B q [] [] (SymSt.init stash node) where
  wf0 := empty_wf _ _ _
  wf1 := empty_wf _ _ _
  size0 := rfl
  size1 := rfl
  all0 := by simp [SymSt.init, Tree.contents, Tree.empty]
  all1 := by simp [SymSt.init, Tree.contents, Tree.empty]
  mir0 := mirror_empty _ _ _ _ _ _
  mir1 := mirror_empty _ _ _ _ _ _

/-- One side of a day that loses nothing. -/
theorem side_step {β : Type} {hashOf : Nat → List Bool} (hh : ∀ e, (hashOf e).length = 256) {B q : Nat} {t : Upsi.Tree.Tree Nat}
    {r r' : Upsi.Tree.Tree (β × Int)} {X es : List Nat} {hsh : List (List Bool)} {x : InsertResult Nat} {lab : Nat → Nat → β} {pads : Nat → Nat → Nat}
    (hwf : TWF hashOf t) (hsz : t.actualSize = X.length) (hall : t.contents.Perm X)
    (hm : Mirror (fun (a : Nat) (l : β × Int) => l.2 = (a : Int)) (fun p => B ≤ p ∧ p < q) t r)
    (hb : Batch.WF (es, hsh)) (htot : (X ++ es).length < 2 ^ 30) (hp : ∀ i j, B ≤ pads i j ∧ pads i j < q)
    (hi : insertWith hashOf id t es hsh = .ok x) (hcap : ∀ m ∈ x.update, m.elems.length ≤ m.cap) (hl : x.lost = [])
    (hr : recvUpdate .ok r ⟨hsh, labelNodes (fun i j (a : Nat) => (lab i j, (a : Int))) pads x.update⟩ = .ok r') :
    TWF hashOf x.tree ∧ x.tree.actualSize = (X ++ es).length ∧ x.tree.contents.Perm (X ++ es) ∧
      Mirror (fun (a : Nat) (l : β × Int) => l.2 = (a : Int)) (fun p => B ≤ p ∧ p < q) x.tree r' := by
  simp only [List.length_append] at htot
  have hh' : ∀ e, 256 ≤ (hashOf e).length := fun e => by rw [hh e]
  have hsend : sendUpdate hashOf id (fun i j (a : Nat) => .ok (lab i j, (a : Int))) pads t es hsh =
      .ok ⟨x.tree, ⟨hsh, labelNodes (fun i j (a : Nat) => (lab i j, (a : Int))) pads x.update⟩, x.lost⟩ := by
    rw [sendUpdate, hi, Outcome.bind_ok, encNodes_label (lab := fun i j (a : Nat) => (lab i j, (a : Int))) hcap, Outcome.bind_ok]; rfl
  obtain ⟨a1, a2, a3⟩ := mirror_step (PostOK.id _) hh' hp hwf hm hb (by rw [hsz]; omega) (fun i j a _ w c hw hc => by
    simp only [Outcome.ok.injEq] at hw hc
    subst hw; subst hc; rfl) hsend hr
  have a4 := sendUpdate_all hh' hwf hb (by rw [hsz]; omega) hsend
  rw [hl, List.append_nil] at a4
  exact ⟨a1, by rw [a2, hsz, List.length_append], a4.trans (hall.append_right _), a3⟩

/-- A history after which nothing was lost by either tree. -/
def NothingLost (hashOf : Nat → List Bool) (s : SymSt) (days : List (DayIn G Nat Unit)) : Prop :=
  (∃ r, runBatches hashOf id s.my0 (days.map fun d => (d.xs, d.coins.hsh0)) = .ok r ∧ r.lost = []) ∧
  ∃ r, runBatches hashOf id s.my1 (days.map fun d => (d.ys, d.coins.hsh1)) = .ok r ∧ r.lost = []

theorem runBatches_cons {hashOf : Nat → List Bool} {t : Upsi.Tree.Tree Nat} {b : Batch Nat} {bs : List (Batch Nat)} {x : InsertResult Nat}
    (hi : insertWith hashOf id t b.1 b.2 = .ok x) (h : ∃ r, runBatches hashOf id t (b :: bs) = .ok r ∧ r.lost = []) :
    x.lost = [] ∧ ∃ r, runBatches hashOf id x.tree bs = .ok r ∧ r.lost = [] := by
  obtain ⟨r, hr, hl⟩ := h
  rw [runBatches, hi, Outcome.bind_ok] at hr
  simp only [Outcome.bind_eq_ok, Outcome.pure_eq, Outcome.ok.injEq] at hr
  obtain ⟨r', hr', rfl⟩ := hr
  simp only [List.append_eq_nil_iff] at hl
  exact ⟨hl.1, r', hr', hl.2⟩

/-- The zero candidates of each day. -/
theorem symRuns_count {hashOf : Nat → List Bool} (hh : ∀ e, (hashOf e).length = 256) {B q : Nat} (hB : B ≤ q) {stash node : Nat} {Q : Slot → Prop}
    {n : Nat} {H0 H1 : List (List (List Bool))} {s : SymSt} {days : List (DayIn G Nat Unit)} {outs : List SymOut}
    (hR : SymRuns hashOf stash node Q n H0 H1 s days outs) : ∀ {X Y : List Nat}, Holds hashOf B q X Y s → NothingLost hashOf s days →
    (∀ d ∈ days, Batch.WF (d.xs, d.coins.hsh0) ∧ Batch.WF (d.ys, d.coins.hsh1) ∧ (∀ i j, B ≤ d.coins.pads0 i j ∧ d.coins.pads0 i j < q) ∧
      ∀ i j, B ≤ d.coins.pads1 i j ∧ d.coins.pads1 i j < q) →
    (∀ x ∈ X ++ allX days, x < B) → (∀ y ∈ Y ++ allY days, y < B) → (X ++ allX days).length < 2 ^ 30 → (Y ++ allY days).length < 2 ^ 30 →
    ∀ (m : Nat) o, outs[m]? = some o →
      o.cands.countP (fun y => decide ((q : Int) ∣ y.m)) + common (X ++ allX (days.take m)) (Y ++ allY (days.take m)) =
        common (X ++ allX (days.take (m + 1))) (Y ++ allY (days.take (m + 1))) := by
  induction hR with
  | nil => intro X Y _ _ _ _ _ _ _ m o h; simp at h
  | @cons n H0 H1 s s' d r0 r1 ds outs hI hD hI' hsz hR ih =>
    intro X Y hS hL hd hx hy t0 t1 m o ho
    have ex : allX (d :: ds) = d.xs ++ allX ds := rfl
    have ey : allY (d :: ds) = d.ys ++ allY ds := rfl
    rw [ex, ← List.append_assoc] at hx t0
    rw [ey, ← List.append_assoc] at hy t1
    obtain ⟨w0, w1, p0, p1⟩ := hd d (by simp)
    obtain ⟨l0, n0⟩ := runBatches_cons (b := (d.xs, d.coins.hsh0)) hD.ins0 hL.1
    obtain ⟨l1, n1⟩ := runBatches_cons (b := (d.ys, d.coins.hsh1)) hD.ins1 hL.2
    obtain ⟨a1, a2, a3, a4⟩ := side_step hh (lab := fun i j => d.coins.enc0 i j 0) hS.wf0 hS.size0 hS.all0 hS.mir0 w0
      (by rw [List.length_append] at t0; omega) p0 hD.ins0 hD.cap0 l0 hD.copy0
    obtain ⟨b1, b2, b3, b4⟩ := side_step hh (lab := fun i j => Slot.tree n i j 0) hS.wf1 hS.size1 hS.all1 hS.mir1 w1
      (by rw [List.length_append] at t1; omega) p1 hD.ins1 hD.cap1 l1 hD.copy1
    rw [← hD.tree0] at a1 a2 a3 a4 n0
    rw [← hD.tree1] at b1 b2 b3 b4 n1
    cases m with
    | zero =>
      simp only [List.getElem?_cons_zero, Option.some.injEq] at ho
      subst ho
      simp only [List.take_zero, List.take_succ_cons, List.countP_append]
      rw [show allX (d :: []) = d.xs by simp [allX], show allY (d :: []) = d.ys by simp [allY],
        show allX ([] : List (DayIn G Nat Unit)) = [] from rfl, show allY ([] : List (DayIn G Nat Unit)) = [] from rfl, List.append_nil, List.append_nil]
      have e1 : (symI hashOf s.copy1 d).flatten.countP (fun y => decide ((q : Int) ∣ y.m)) = common d.xs Y := by
        rw [symI, countP_flatten_mapIdx _ _ (fun x => Y.count x)]
        · rfl
        · intro i x hxm
          rw [countP_mapIdx _ _ (fun l => decide ((q : Int) ∣ l.2 - x)) _ (fun _ _ => rfl),
            path_count hh hS.wf1 hS.mir1 hB (fun a ha => hy a (by simp [hS.all1.subset ha])) (hx x (by simp [hxm])) (shaped_whole hI.sh1)]
          exact hS.all1.count_eq _
      have e2 : (symII hashOf n s'.copy0 d).flatten.countP (fun y => decide ((q : Int) ∣ y.m)) = common (X ++ d.xs) d.ys := by
        rw [symII, countP_flatten_mapIdx _ _ (fun y => (X ++ d.xs).count y)]
        · exact common_comm _ _
        · intro i y hym
          rw [List.countP_map]
          refine (path_count hh a1 a4 hB (fun a ha => hx a (by
            have := a3.subset ha
            exact List.mem_append_left _ this)) (hy y (by simp [hym])) (shaped_whole hI'.sh0)).trans (a3.count_eq _)
      rw [e1, e2, common_append_right (X ++ d.xs), common_append_left X d.xs Y]
      omega
    | succ m =>
      simp only [List.getElem?_cons_succ] at ho
      have := ih (X := X ++ d.xs) (Y := Y ++ d.ys) ⟨a1, b1, a2, b2, a3, b3, a4, b4⟩ ⟨n0, n1⟩ (fun e he => hd e (by simp [he])) hx hy t0 t1 m o ho
      simpa [allX, allY] using this

end Upsi.Hide
