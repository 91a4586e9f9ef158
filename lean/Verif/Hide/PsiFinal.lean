import Verif.Hide.PsiMain
import Verif.Hide.OneCount
/- What is left at the end is determined by the intersection (C82). -/
namespace Upsi.Hide
open Upsi Upsi.ElGamal Upsi.Tree Upsi.Num Upsi.Proto Upsi.View Upsi.Tree.Props

variable {G : Type} [AddCommGroup G] [DecidableEq G]

/-! ### the payloads of matches -/

/-- The plaintext of the payload of a match. -/
def fullKey (q : Nat) (y : Sym × Int × Int) : Option Int := if (q : Int) ∣ y.1.m then some y.2.2 else none

/-- The number of pairs of elements equal to `v`. -/
def pairsOf (v : Int) (X Y : List Nat) : Nat := (X.map fun x : Nat => (x : Int)).count v * (Y.map fun y : Nat => (y : Int)).count v

theorem pairsOf_nat (v : Nat) (X Y : List Nat) : pairsOf v X Y = X.count v * Y.count v := by
  have h : Function.Injective (fun x : Nat => (x : Int)) := fun a b h => by simpa using h
  rw [pairsOf, List.count_map_of_injective X (fun x : Nat => (x : Int)) h v, List.count_map_of_injective Y (fun x : Nat => (x : Int)) h v]

theorem sum_pairs (v : Int) (X Y : List Nat) : (X.map fun x : Nat => if (x : Int) = v then Y.count x else 0).sum = pairsOf v X Y := by
  have h : Function.Injective (fun x : Nat => (x : Int)) := fun a b h => by simpa using h
  induction X with
  | nil => simp [pairsOf]
  | cons x X ih =>
    simp only [pairsOf, List.map_cons, List.sum_cons, List.count_cons] at ih ⊢
    rw [ih]
    by_cases hx : (x : Int) = v
    · subst hx
      simp only [if_true, beq_self_eq_true]
      rw [List.count_map_of_injective Y (fun x : Nat => (x : Int)) h x]
      ring
    · simp [hx]

theorem pairsOf_step (v : Int) (X Y xs ys : List Nat) :
    pairsOf v xs Y + pairsOf v ys (X ++ xs) + pairsOf v X Y = pairsOf v (X ++ xs) (Y ++ ys) := by
  simp only [pairsOf, List.map_append, List.count_append]
  ring

/-- A match on a path is the element looked for. -/
theorem path_value {β : Type} {hashOf : Nat → List Bool} (hh : ∀ e, (hashOf e).length = 256) {s : Upsi.Tree.Tree Nat} {r : Upsi.Tree.Tree (β × Int)} {B q : Nat}
    (hs : TWF hashOf s) (hm : Mirror (fun (a : Nat) (l : β × Int) => l.2 = (a : Int)) (fun p => B ≤ p ∧ p < q) s r) (hB : B ≤ q)
    (hc : ∀ a ∈ s.contents, a < B) {k : Nat} (hk : k < B) (hw : Whole r) {l : β × Int} (hl : l ∈ pathOf r (hashOf k)) (hd : (q : Int) ∣ l.2 - k) : l.2 = k := by
  obtain ⟨as, k1, k2, -⟩ := path_mirror (key := id) hh hs hm hB hc hk (hw.pathOf (hh k))
  obtain ⟨a, ha, hal⟩ : ∃ a ∈ as, l.2 = (a : Int) := by
    clear k2
    generalize pathOf r (hashOf k) = path at k1 hl
    induction k1 with
    | nil => simp at hl
    | cons h1 _ ih =>
      rcases List.mem_cons.1 hl with rfl | hl
      · exact ⟨_, by simp, h1⟩
      · obtain ⟨a, ha, h⟩ := ih hl
        exact ⟨a, by simp [ha], h⟩
  rw [hal] at hd ⊢
  have hak : a = k := (dvd_iff_eq (k2 a ha) (by omega)).1 hd
  rw [hak]

theorem countP_and_const {α : Type} (p : α → Bool) (b : Prop) [Decidable b] (l : List α) : l.countP (fun a => p a && decide b) = if b then l.countP p else 0 := by
  by_cases h : b <;> simp [h]

/-- The matches of each day with a given payload are the new pairs of elements equal to it. -/
theorem fullRun_count {hashOf : Nat → List Bool} (hh : ∀ e, (hashOf e).length = 256) {B q : Nat} (hB : B ≤ q) {stash node : Nat} {Q : Slot → Prop}
    {n : Nat} {H0 H1 : List (List (List Bool))} {s : SymSt} {days : List (DayIn G Nat Unit)} {outs : List SymOut}
    (hR : SymRuns hashOf stash node Q n H0 H1 s days outs) : ∀ {X Y : List Nat}, Holds hashOf B q X Y s → NothingLost hashOf s days →
    (∀ d ∈ days, Batch.WF (d.xs, d.coins.hsh0) ∧ Batch.WF (d.ys, d.coins.hsh1) ∧ (∀ i j, B ≤ d.coins.pads0 i j ∧ d.coins.pads0 i j < q) ∧
      ∀ i j, B ≤ d.coins.pads1 i j ∧ d.coins.pads1 i j < q) →
    (∀ x ∈ X ++ allX days, x < B) → (∀ y ∈ Y ++ allY days, y < B) → (X ++ allX days).length < 2 ^ 30 → (Y ++ allY days).length < 2 ^ 30 →
    ∀ (m : Nat) l, (fullRun hashOf n s days)[m]? = some l → ∀ v : Int,
      l.countP (fun y => decide ((q : Int) ∣ y.1.m) && decide (y.2.2 = v)) + pairsOf v (X ++ allX (days.take m)) (Y ++ allY (days.take m)) =
        pairsOf v (X ++ allX (days.take (m + 1))) (Y ++ allY (days.take (m + 1))) := by
  induction hR with
  | nil => intro X Y _ _ _ _ _ _ _ m o h; simp [fullRun] at h
  | @cons n H0 H1 s s' d r0 r1 ds outs hI hD hI' hsz hR ih =>
    intro X Y hS hL hd hx hy t0 t1 m o ho v
    have ex : allX (d :: ds) = d.xs ++ allX ds := rfl
    have ey : allY (d :: ds) = d.ys ++ allY ds := rfl
    rw [ex, ← List.append_assoc] at hx t0
    rw [ey, ← List.append_assoc] at hy t1
    obtain ⟨w0, w1, p0, p1⟩ := hd d (by simp)
    obtain ⟨l0, n0⟩ := runBatches_cons (b := (d.xs, d.coins.hsh0)) hD.ins0 hL.1
    obtain ⟨l1, n1⟩ := runBatches_cons (b := (d.ys, d.coins.hsh1)) hD.ins1 hL.2
    obtain ⟨a1, a2, a3, a4⟩ := side_step hh (lab := fun i j => d.coins.enc0 i j 0) hS.wf0 hS.size0 hS.all0 hS.mir0 w0
      (by rw [List.length_append] at t0; omega) p0 hD.ins0 hD.cap0 l0 hD.copy0
    obtain ⟨b1, b2, b3, b4⟩ := side_step hh (lab := fun i j => Slot.tree n i j 0) hS.wf1 hS.size1 hS.all1 hS.mir1 w1
      (by rw [List.length_append] at t1; omega) p1 hD.ins1 hD.cap1 l1 hD.copy1
    rw [← hD.tree0] at a1 a2 a3 a4 n0
    rw [← hD.tree1] at b1 b2 b3 b4 n1
    rw [fullRun, hD.step] at ho
    simp only at ho
    cases m with
    | zero =>
      simp only [List.getElem?_cons_zero, Option.some.injEq] at ho
      subst ho
      simp only [List.take_zero, List.take_succ_cons, List.countP_append]
      rw [show allX (d :: []) = d.xs by simp [allX], show allY (d :: []) = d.ys by simp [allY],
        show allX ([] : List (DayIn G Nat Unit)) = [] from rfl, show allY ([] : List (DayIn G Nat Unit)) = [] from rfl, List.append_nil, List.append_nil]
      have e1 : (fullI hashOf s.copy1 d).flatten.countP (fun y => decide ((q : Int) ∣ y.1.m) && decide (y.2.2 = v)) = pairsOf v d.xs Y := by
        rw [fullI, countP_flatten_mapIdx _ _ (fun x : Nat => if (x : Int) = v then Y.count x else 0)]
        · exact sum_pairs _ _ _
        · intro i x hxm
          rw [countP_mapIdx _ _ (fun l => decide ((q : Int) ∣ l.2 - x) && decide ((x : Int) = v)) _ (fun _ _ => rfl), countP_and_const,
            path_count hh hS.wf1 hS.mir1 hB (fun a ha => hy a (by simp [hS.all1.subset ha])) (hx x (by simp [hxm])) (shaped_whole hI.sh1),
            hS.all1.count_eq _]
      have e2 : (fullII hashOf n s'.copy0 d).flatten.countP (fun y => decide ((q : Int) ∣ y.1.m) && decide (y.2.2 = v)) = pairsOf v d.ys (X ++ d.xs) := by
        have hcont : ∀ a ∈ s'.my0.contents, a < B := fun a ha => hx a (List.mem_append_left _ (a3.subset ha))
        rw [fullII, countP_flatten_mapIdx _ _ (fun y : Nat => if (y : Int) = v then (X ++ d.xs).count y else 0)]
        · exact sum_pairs _ _ _
        · intro i y hym
          have hyB : y < B := hy y (by simp [hym])
          rw [List.countP_map, List.countP_congr (q := fun l => decide ((q : Int) ∣ l.2 - y) && decide ((y : Int) = v)) (by
            intro l hl
            simp only [Function.comp, Bool.and_eq_true, decide_eq_true_eq]
            refine and_congr_right fun h => ?_
            rw [path_value hh a1 a4 hB hcont hyB (shaped_whole hI'.sh0) hl h]), countP_and_const,
            path_count hh a1 a4 hB hcont hyB (shaped_whole hI'.sh0), a3.count_eq _]
      rw [e1, e2, pairsOf_step]
    | succ m =>
      simp only [List.getElem?_cons_succ] at ho
      have := ih (X := X ++ d.xs) (Y := Y ++ d.ys) ⟨a1, b1, a2, b2, a3, b3, a4, b4⟩ ⟨n0, n1⟩ (fun e he => hd e (by simp [he])) hx hy t0 t1 m o ho v
      simpa [allX, allY] using this

/-- Two lists of candidates of the same length with the same matches have the same keys. -/
theorem keys_perm {q : Nat} {l l' : List (Sym × Int × Int)} (hlen : l.length = l'.length)
    (h : ∀ v : Int, l.countP (fun y => decide ((q : Int) ∣ y.1.m) && decide (y.2.2 = v)) = l'.countP (fun y => decide ((q : Int) ∣ y.1.m) && decide (y.2.2 = v))) :
    (l.map (fullKey q)).Perm (l'.map (fullKey q)) := by
  have hsome : ∀ (l : List (Sym × Int × Int)) (v : Int), (l.map (fullKey q)).count (some v) = l.countP (fun y => decide ((q : Int) ∣ y.1.m) && decide (y.2.2 = v)) := by
    intro l v
    rw [List.count_eq_countP, List.countP_map]
    congr 1
    funext y
    simp only [Function.comp, fullKey]
    by_cases hd : (q : Int) ∣ y.1.m <;> simp [hd, beq_eq_decide]
  -- the matches alone
  have hm : ((l.map (fullKey q)).filterMap (fun x => x)).Perm ((l'.map (fullKey q)).filterMap (fun x => x)) := by
    have hc : ∀ (k : List (Option Int)) (v : Int), (k.filterMap (fun x => x)).count v = k.count (some v) := by
      intro k v
      induction k with
      | nil => rfl
      | cons a k ih => cases a <;> simp [List.count_cons, ih]
    refine List.perm_iff_count.2 fun v => ?_
    rw [hc, hc, hsome, hsome, h]
  have hn : ∀ k : List (Option Int), k.count none + (k.filterMap (fun x => x)).length = k.length := by
    intro k
    induction k with
    | nil => rfl
    | cons a k ih => cases a <;> simp [List.count_cons] <;> omega
  refine List.perm_iff_count.2 fun o => ?_
  cases o with
  | some v => rw [hsome, hsome, h]
  | none =>
    have h1 := hn (l.map (fullKey q))
    have h2 := hn (l'.map (fullKey q))
    rw [List.length_map] at h1 h2
    have := hm.length_eq
    omega

/-! ### relabelling -/

/-- The key of candidate `i` of day `d`, before the shuffle. -/
def keyAt (q : Nat) (fulls : List (List (Sym × Int × Int))) (d i : Nat) : Option Int := (fulls[d]?.bind fun l => l[i]?).bind (fullKey q)

theorem keyOf_eq {N : Nat → Nat} {n q : Nat} {outs : List SymOut} {fulls : List (List (Sym × Int × Int))}
    (hfst : fulls.map (fun l => l.map Prod.fst) = outs.map SymOut.cands) (hl : fulls.length = n)
    (hN : ∀ (m : Nat) l, fulls[m]? = some l → l.length = N m) (σ : (d : Fin n) → Equiv.Perm (Fin (N d))) {j : Fin (placesMask N n).length}
    {d : Fin n} {k : Fin (N d)} (hj : (placesMask N n)[j] = .cand d k 0) : keyOf q outs fulls σ j = keyAt q fulls d (σ d k) := by
  have ho : fulls[(d : Nat)]? = some fulls[(d : Nat)] := List.getElem?_eq_getElem (by omega)
  have hc := hN _ _ ho
  have hlt : ((σ d k : Fin (N d)) : Nat) < fulls[(d : Nat)].length := by rw [hc]; exact (σ d k).2
  have hy : (shuffleOf σ d fulls[(d : Nat)])[(k : Nat)]? = some fulls[(d : Nat)][(σ d k : Nat)] := by
    rw [shuffleOf, dif_pos d.2, permuteBy, dif_pos hc, List.getElem?_ofFn, dif_pos k.2]
  rw [keyOf, matchOf, payOf, hj]
  simp only [symAt_full hfst ho hy, payAt_eq ho hy, decide_eq_true_eq]
  rw [keyAt, ho, Option.bind_some, List.getElem?_eq_getElem hlt, Option.bind_some, fullKey]

/-- Matches with the same payloads every day: the candidates can be moved onto each other. -/
theorem relabel_keys {N : Nat → Nat} {n q : Nat} {fulls fulls' : List (List (Sym × Int × Int))} (hl : fulls.length = n) (hl' : fulls'.length = n)
    (hN : ∀ (m : Nat) l, fulls[m]? = some l → l.length = N m) (hN' : ∀ (m : Nat) l, fulls'[m]? = some l → l.length = N m)
    (hz : ∀ (m : Nat) l l', fulls[m]? = some l → fulls'[m]? = some l' → (l.map (fullKey q)).Perm (l'.map (fullKey q))) :
    ∃ τ : (d : Fin n) → Equiv.Perm (Fin (N d)), ∀ (d : Fin n) (i : Fin (N d)), keyAt q fulls' d i = keyAt q fulls d (τ d i) := by
  have : ∀ d : Fin n, ∃ τ : Equiv.Perm (Fin (N d)), ∀ i : Fin (N d), keyAt q fulls' d i = keyAt q fulls d (τ i) := by
    intro d
    have ho : fulls[(d : Nat)]? = some fulls[(d : Nat)] := List.getElem?_eq_getElem (by omega)
    have ho' : fulls'[(d : Nat)]? = some fulls'[(d : Nat)] := List.getElem?_eq_getElem (by omega)
    have e : ∀ (fs : List (List (Sym × Int × Int))) (l : List (Sym × Int × Int)), fs[(d : Nat)]? = some l → l.length = N d →
        List.ofFn (fun i : Fin (N d) => keyAt q fs d i) = l.map (fullKey q) := by
      intro fs l ho hc
      refine List.ext_getElem (by simp [hc]) fun i h1 h2 => ?_
      have h3 : i < l.length := by simpa using h2
      rw [List.getElem_ofFn, List.getElem_map, keyAt, ho, Option.bind_some, List.getElem?_eq_getElem h3]
      rfl
    refine exists_relabel_of_perm (f := fun i : Fin (N d) => keyAt q fulls d i) (g := fun i : Fin (N d) => keyAt q fulls' d i) ?_
    rw [e _ _ ho (hN _ _ ho), e _ _ ho' (hN' _ _ ho')]
    exact hz _ _ _ ho ho'
  choose τ hτ using this
  exact ⟨τ, hτ⟩

section
variable {c cu : Codec G} {hashOf : Nat → List Bool} {g : G} {q : Nat} {sk0 : Int} {D : G → Transcript → Bool} {stash node : Nat}
  {U : List Slot} (hU : 0 < U.length) {N : Nat → Nat}

/-- The signs. -/
theorem posOf_eps' {days : List (DayIn G Nat Unit)} (hh : ∀ e, (hashOf e).length = 256) (hf : FitsBoth days) (hq : q.Prime) {n : Nat} (hn : days.length = n)
    (σ : (d : Fin n) → Equiv.Perm (Fin (N d))) (k : Fin (placesMask N n).length) :
    ¬ (q : Int) ∣ (posOf (symRun hashOf 0 (SymSt.init stash node) days) U hU σ k).eps := by
  subst hn
  exact posOf_eps hU hh hf hq σ k

/-- The experiment in the end. -/
def psiEnd (c cu : Codec G) (hashOf : Nat → List Bool) (g : G) (q : Nat) (sk0 : Int) (D : G → Transcript → Bool) (stash node : Nat)
    (days : List (DayIn G Nat (Ct G))) (U : List Slot) (hU : 0 < U.length) (N : Nat → Nat) (n : Nat) : ℚ :=
  avg (fun ω : Fin (q - 1) × (Fin U.length → Fin q) × ((d : Fin n) → Equiv.Perm (Fin (N d))) × (Fin U.length → Fin (q - 1)) × (Fin (placesMask N n).length → Fin (q - 1)) ×
      (Fin (placesMask N n).length → Fin (q - 1)) =>
    prob (fun x : (Fin (placesMask N n).length → Fin q) × (Fin (placesMask N n).length → Fin q) =>
      psiLast c cu hashOf g q sk0 D stash node days U hU N n ω.1 ω.2.1 (pointsOf g ω.2.2.2.1)
        (keyOf q (symRun hashOf 0 (SymSt.init stash node) (days.map cardDay)) (fullRun hashOf 0 (SymSt.init stash node) (days.map cardDay)) ω.2.2.1)
        (fun j => residue (ω.2.2.2.2.1 j)) ω.2.2.2.2.2 x.1 x.2))

theorem same_ids1 {days days' : List (DayIn G Nat (Ct G))} (hs : List.Forall₂ (fun d d' => SameZero (cardDay d) (cardDay d')) days days') :
    ids1 (days.map cardDay) = ids1 (days'.map cardDay) := by
  rw [ids1, ids1]
  induction hs with
  | nil => rfl
  | cons h _ ih => rw [List.map_cons, List.map_cons, List.map_cons, List.map_cons, ih, h.hsh1]

/-- In the end, the experiment uses nothing of party one's elements but the payloads of the matches. -/
theorem psi_same {days days' : List (DayIn G Nat (Ct G))} {n : Nat} (hs : List.Forall₂ (fun d d' => SameZero (cardDay d) (cardDay d')) days days')
    (τ : (d : Fin n) → Equiv.Perm (Fin (N d)))
    (h1 : ∀ (σ : (d : Fin n) → Equiv.Perm (Fin (N d))) (j : Fin (placesMask N n).length) (d : Fin n) (k : Fin (N d)), (placesMask N n)[j] = .cand d k 0 →
      keyOf q (symRun hashOf 0 (SymSt.init stash node) (days.map cardDay)) (fullRun hashOf 0 (SymSt.init stash node) (days.map cardDay)) σ j =
        keyAt q (fullRun hashOf 0 (SymSt.init stash node) (days.map cardDay)) d (σ d k))
    (h2 : ∀ (σ : (d : Fin n) → Equiv.Perm (Fin (N d))) (j : Fin (placesMask N n).length) (d : Fin n) (k : Fin (N d)), (placesMask N n)[j] = .cand d k 0 →
      keyOf q (symRun hashOf 0 (SymSt.init stash node) (days'.map cardDay)) (fullRun hashOf 0 (SymSt.init stash node) (days'.map cardDay)) σ j =
        keyAt q (fullRun hashOf 0 (SymSt.init stash node) (days'.map cardDay)) d (σ d k))
    (hτ : ∀ (d : Fin n) (i : Fin (N d)), keyAt q (fullRun hashOf 0 (SymSt.init stash node) (days'.map cardDay)) d i =
      keyAt q (fullRun hashOf 0 (SymSt.init stash node) (days.map cardDay)) d (τ d i)) :
    psiEnd c cu hashOf g q sk0 D stash node days U hU N n = psiEnd c cu hashOf g q sk0 D stash node days' U hU N n := by
  have hids := same_ids1 hs
  have hgame : ∀ k1 t w key ta α β z, psiLast c cu hashOf g q sk0 D stash node days U hU N n k1 t w key ta α β z =
      psiLast c cu hashOf g q sk0 D stash node days' U hU N n k1 t w key ta α β z := by
    intro k1 t w key ta α β z
    rw [psiLast, psiLast, psiPlay, psiPlay, hids]
    congr 1
    exact viewGiven_same hs _ _ _ _ _
  have hkey : ∀ (σ : (d : Fin n) → Equiv.Perm (Fin (N d))),
      keyOf q (symRun hashOf 0 (SymSt.init stash node) (days.map cardDay)) (fullRun hashOf 0 (SymSt.init stash node) (days.map cardDay)) (fun d => τ d * σ d) =
      keyOf q (symRun hashOf 0 (SymSt.init stash node) (days'.map cardDay)) (fullRun hashOf 0 (SymSt.init stash node) (days'.map cardDay)) σ := by
    intro σ
    funext j
    obtain ⟨d, hd, k, hk, hdk⟩ : ∃ d, d < n ∧ ∃ k, k < N d ∧ (placesMask N n)[j] = .cand d k 0 := by
      have : (placesMask N n)[j] ∈ placesMask N n := List.getElem_mem _
      simp only [placesMask, List.mem_flatMap, List.mem_map, List.mem_range] at this
      obtain ⟨d, hd, k, hk, h⟩ := this
      exact ⟨d, hd, k, hk, h.symm⟩
    rw [h1 _ j ⟨d, hd⟩ ⟨k, hk⟩ hdk, h2 _ j ⟨d, hd⟩ ⟨k, hk⟩ hdk, hτ]
    rfl
  let A := Fin (q - 1) × (Fin U.length → Fin q) × ((d : Fin n) → Equiv.Perm (Fin (N d))) × (Fin U.length → Fin (q - 1)) × (Fin (placesMask N n).length → Fin (q - 1)) ×
      (Fin (placesMask N n).length → Fin (q - 1))
  let f : (ds : List (DayIn G Nat (Ct G))) → A × (Fin (placesMask N n).length → Fin q) × (Fin (placesMask N n).length → Fin q) → Bool := fun ds x =>
    psiLast c cu hashOf g q sk0 D stash node ds U hU N n x.1.1 x.1.2.1 (pointsOf g x.1.2.2.2.1)
      (keyOf q (symRun hashOf 0 (SymSt.init stash node) (ds.map cardDay)) (fullRun hashOf 0 (SymSt.init stash node) (ds.map cardDay)) x.1.2.2.1)
      (fun j => residue (x.1.2.2.2.2.1 j)) x.1.2.2.2.2.2 x.2.1 x.2.2
  have hend : ∀ ds, psiEnd c cu hashOf g q sk0 D stash node ds U hU N n = prob (f ds) := fun ds => (prob_prod (f ds)).symm
  rw [hend, hend]
  let e : A × (Fin (placesMask N n).length → Fin q) × (Fin (placesMask N n).length → Fin q) ≃ A × (Fin (placesMask N n).length → Fin q) × (Fin (placesMask N n).length → Fin q) :=
    Equiv.prodCongr (Equiv.prodCongr (Equiv.refl _) (Equiv.prodCongr (Equiv.refl _) (Equiv.prodCongr (Equiv.piCongrRight fun d => Equiv.mulLeft (τ d)) (Equiv.refl _)))) (Equiv.refl _)
  refine (prob_equiv e (f days)).symm.trans ?_
  congr 1
  funext ⟨⟨k1, t, σ, r, ta, α⟩, β, z⟩
  show psiLast c cu hashOf g q sk0 D stash node days U hU N n k1 t (pointsOf g r) (keyOf q _ _ (fun d => τ d * σ d)) (fun j => residue (ta j)) α β z =
    psiLast c cu hashOf g q sk0 D stash node days' U hU N n k1 t (pointsOf g r) (keyOf q _ _ σ) (fun j => residue (ta j)) α β z
  rw [hgame, hkey]

/-- All three replacements. -/
theorem psi_bound (hh : ∀ e, (hashOf e).length = 256) (hq : q.Prime) (hg : (q : Int) • g = 0) {days : List (DayIn G Nat (Ct G))}
    (hf : FitsBoth (days.map cardDay)) (hUm : ∀ s ∈ placesOne stash node (ids1 (days.map cardDay)), s ∈ U) {n : Nat} (hn : days.length = n)
    (hN : ∀ m, m < n → N m = candsOf stash node hashOf (days.map cardDay) m) :
    |acceptsPsi c cu hashOf g q sk0 D stash node days U N n - psiEnd c cu hashOf g q sk0 D stash node days U hU N n| ≤
      hidingBoundPsi c cu hashOf g q sk0 D stash node days U hU N n + 2 * ((placesMask N n).length : ℚ) / q := by
  subst hn
  have : Nonempty (Fin q) := ⟨⟨0, hq.pos⟩⟩
  have b1 := psi_masked (c := c) (cu := cu) (hashOf := hashOf) (g := g) (q := q) (sk0 := sk0) (D := D) (N := N) (stash := stash) (node := node) (days := days) hU hq.pos hg hUm
  have c1 := hybridWith_bound (g := g) (q := q) (s := sk0) hq.one_lt (psiFirst c cu hashOf g q sk0 D stash node days U hU N days.length)
  have d1 := hybridMask_bound (g := g) hq hg
    (fun ω : Fin (q - 1) × (Fin U.length → Fin q) × ((d : Fin days.length) → Equiv.Perm (Fin (N d))) × (Fin (placesMask N days.length).length → Fin (q - 1)) =>
      posOf (symRun hashOf 0 (SymSt.init stash node) (days.map cardDay)) U hU ω.2.2.1)
    (fun ω k => posOf_eps' hU hh hf hq (by simp) ω.2.2.1 k)
    (psiSecond c cu hashOf g q sk0 D stash node days U hU N days.length)
  have b2 := psi_triples (c := c) (cu := cu) (hashOf := hashOf) (g := g) (q := q) (sk0 := sk0) (D := D) (N := N) (stash := stash) (node := node) (days := days) hU hq.pos (n := days.length)
  have e1 := hybridTriple_bound (g := g) (q := q) hq.one_lt (psiThird c cu hashOf g q sk0 D stash node days U hU N days.length)
  have e2 := psi_last (c := c) (cu := cu) (hashOf := hashOf) (g := g) (q := q) (sk0 := sk0) (D := D) (N := N) (stash := stash) (node := node) (days := days) hU hq hg (n := days.length)
  change |_ - psiEnd c cu hashOf g q sk0 D stash node days U hU N days.length| ≤ _ at e2
  rw [acceptsPsi_real hU hh hf hUm hN, hidingBoundPsi]
  rw [b1] at c1
  rw [b2] at d1
  rw [abs_le] at *
  constructor <;> linarith [c1.1, c1.2, d1.1, d1.2, e1.1, e1.2, e2.1, e2.2]

end

/-- All replacements: party zero's verdicts after two histories with the same intersection every day. -/
theorem hidesPsi {c cu : Codec G} {hashOf : Nat → List Bool} (hh : ∀ e, (hashOf e).length = 256) {g : G} {q : Nat} (hq : q.Prime) (hg : (q : Int) • g = 0)
    (sk0 : Int) (D : G → Transcript → Bool) {stash node : Nat} {days days' : List (DayIn G Nat (Ct G))}
    (hs : List.Forall₂ (fun d d' => SameZero (cardDay d) (cardDay d')) days days')
    (hf : FitsBoth (days.map cardDay)) (hf' : FitsBoth (days'.map cardDay)) {U : List Slot} (hU : 0 < U.length)
    (hUm : ∀ s ∈ placesOne stash node (ids1 (days.map cardDay)), s ∈ U)
    {N : Nat → Nat} (hN : ∀ m, m < days.length → N m = candsOf stash node hashOf (days.map cardDay) m)
    (hN' : ∀ m, m < days.length → N m = candsOf stash node hashOf (days'.map cardDay) m)
    (hz : ∀ (m : Nat) l l', (fullRun hashOf 0 (SymSt.init stash node) (days.map cardDay))[m]? = some l →
      (fullRun hashOf 0 (SymSt.init stash node) (days'.map cardDay))[m]? = some l' → ∀ v : Int,
      l.countP (fun y => decide ((q : Int) ∣ y.1.m) && decide (y.2.2 = v)) = l'.countP (fun y => decide ((q : Int) ∣ y.1.m) && decide (y.2.2 = v))) :
    |acceptsPsi c cu hashOf g q sk0 D stash node days U N days.length - acceptsPsi c cu hashOf g q sk0 D stash node days' U N days.length| ≤
      hidingBoundPsi c cu hashOf g q sk0 D stash node days U hU N days.length + hidingBoundPsi c cu hashOf g q sk0 D stash node days' U hU N days.length +
        4 * ((placesMask N days.length).length : ℚ) / q := by
  have hlen : days.length = days'.length := hs.length_eq
  have facts : ∀ {ds : List (DayIn G Nat (Ct G))}, FitsBoth (ds.map cardDay) → ds.length = days.length →
      (∀ m, m < days.length → N m = candsOf stash node hashOf (ds.map cardDay) m) →
      (fullRun hashOf 0 (SymSt.init stash node) (ds.map cardDay)).map (fun l => l.map Prod.fst) =
        (symRun hashOf 0 (SymSt.init stash node) (ds.map cardDay)).map SymOut.cands ∧
      (fullRun hashOf 0 (SymSt.init stash node) (ds.map cardDay)).length = days.length ∧
      ∀ (m : Nat) l, (fullRun hashOf 0 (SymSt.init stash node) (ds.map cardDay))[m]? = some l → l.length = N m := by
    intro ds hf hl hN
    have hF := oneFacts hh stash node hf
    have hfst := fullRun_fst hF.runs
    have hlen : (fullRun hashOf 0 (SymSt.init stash node) (ds.map cardDay)).length = days.length := by
      have := congrArg List.length hfst
      rw [List.length_map, List.length_map, hF.len, List.length_map] at this
      omega
    refine ⟨hfst, hlen, fun m l hlm => ?_⟩
    have hm : m < days.length := by have := (List.getElem?_eq_some_iff.1 hlm).1; omega
    have h := congrArg (fun x => x[m]?) hfst
    simp only [List.getElem?_map, hlm, Option.map_some] at h
    cases ho : (symRun hashOf 0 (SymSt.init stash node) (ds.map cardDay))[m]? with
    | none => rw [ho] at h; simp at h
    | some o =>
      rw [ho] at h
      simp only [Option.map_some, Option.some.injEq] at h
      rw [hN m hm, ← hF.cands m o ho, ← h, List.length_map]
  obtain ⟨f1, f2, f3⟩ := facts hf rfl hN
  obtain ⟨g1, g2, g3⟩ := facts hf' hlen.symm hN'
  obtain ⟨τ, hτ⟩ := relabel_keys (q := q) f2 g2 f3 g3 (fun m l l' hl hl' => keys_perm (by rw [f3 m l hl, g3 m l' hl']) (hz m l l' hl hl'))
  have hend := psi_same (c := c) (cu := cu) (hashOf := hashOf) (g := g) (q := q) (sk0 := sk0) (D := D) (stash := stash) (node := node) hU hs τ
    (fun σ j d k hj => keyOf_eq f1 f2 f3 σ hj) (fun σ j d k hj => keyOf_eq g1 g2 g3 σ hj) hτ
  have a1 := psi_bound (c := c) (cu := cu) (sk0 := sk0) (D := D) (stash := stash) (node := node) hU hh hq hg hf hUm rfl hN
  have a2 := psi_bound (c := c) (cu := cu) (sk0 := sk0) (D := D) (stash := stash) (node := node) hU hh hq hg hf' (same_ids1 hs ▸ hUm) hlen.symm hN'
  rw [← hend] at a2
  have e4 : (4 : ℚ) * ((placesMask N days.length).length : ℚ) / q = 2 * ((placesMask N days.length).length : ℚ) / q + 2 * ((placesMask N days.length).length : ℚ) / q := by ring
  rw [e4]
  rw [abs_le] at *
  constructor <;> linarith [a1.1, a1.2, a2.1, a2.2]

end Upsi.Hide
