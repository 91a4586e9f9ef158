import Verif.Hide.OneFacts
import Verif.Hide.Uniform
/- The two replacements, and what is left after them (C80). -/
namespace Upsi.Hide
open Upsi Upsi.ElGamal Upsi.Tree Upsi.Num Upsi.Proto Upsi.View Upsi.Tree.Props

theorem idxIn_mem {U : List Slot} (hU : 0 < U.length) {s : Slot} (h : s ∈ U) : U[idxIn U hU s] = s := by
  have hlt := List.idxOf_lt_length_iff.2 h
  simp only [idxIn, hlt, dif_pos]
  exact List.getElem_idxOf hlt

theorem coinOf_mem {q : Nat} {U : List Slot} (hU : 0 < U.length) (r : Fin U.length → Fin (q - 1)) {s : Slot} (h : s ∈ U) :
    coinOf U r s = maskOf (r (idxIn U hU s)) := by
  have hlt := List.idxOf_lt_length_iff.2 h
  simp only [coinOf, idxIn, hlt, dif_pos]

theorem shuffleOf_mem {N : Nat → Nat} {n : Nat} (σ : (d : Fin n) → Equiv.Perm (Fin (N d))) {α : Type} {d : Nat} {l : List α} {a : α}
    (h : a ∈ shuffleOf σ d l) : a ∈ l := by
  unfold shuffleOf at h
  by_cases hd : d < n
  · rw [dif_pos hd] at h
    exact (permuteBy_perm _ _).mem_iff.1 h
  · rwa [dif_neg hd] at h

variable {G : Type} [AddCommGroup G] [DecidableEq G]

section
variable {c : Codec G} {hashOf : Nat → List Bool} {g : G} {q : Nat} {sk0 : Int} {D : G → Transcript → Bool} {stash node : Nat}
  {days : List (DayIn G Nat Unit)} {U : List Slot} (hU : 0 < U.length) {N : Nat → Nat}

theorem symAt_eq {n : Nat} {outs : List SymOut} {σ : (d : Fin n) → Equiv.Perm (Fin (N d))} {m k : Nat} {o : SymOut} {y : Sym} (ho : outs[m]? = some o)
    (hy : (shuffleOf σ m o.cands)[k]? = some y) : symAt outs σ m k = y := by
  rw [symAt, ho, Option.bind_some, hy]; rfl

/-- The experiment is one on encryptions of zero. -/
theorem accepts0_real (hh : ∀ e, (hashOf e).length = 256) (hf : FitsBoth days)
    (hUm : ∀ s ∈ placesOne stash node (ids1 days), s ∈ U) (hN : ∀ m, m < days.length → N m = candsOf stash node hashOf days m) :
    accepts0 c hashOf g q sk0 D stash node days U N days.length =
      avg (fun ω => realGame g q sk0 (firstGame c hashOf g q sk0 D stash node days U hU N days.length ω)) := by
  have hF := oneFacts hh stash node hf
  set outs := symRun hashOf 0 (SymSt.init stash node) days with houts
  simp only [realGame]
  let f : ((Fin (placesMask N days.length).length → Fin (q - 1)) × ((d : Fin days.length) → Equiv.Perm (Fin (N d)))) ×
      Fin (q - 1) × (Fin U.length → Fin (q - 1)) → Bool := fun x =>
    firstGame c hashOf g q sk0 D stash node days U hU N days.length x.1 (maskOf x.2.1 • g) (zeros g sk0 (maskOf x.2.1 • g) x.2.2)
  refine Eq.trans ?_ (prob_prod f)
  let e : Fin (q - 1) × (Fin U.length → Fin (q - 1)) × (Fin (placesMask N days.length).length → Fin (q - 1)) × ((d : Fin days.length) → Equiv.Perm (Fin (N d))) ≃
      ((Fin (placesMask N days.length).length → Fin (q - 1)) × ((d : Fin days.length) → Equiv.Perm (Fin (N d)))) × Fin (q - 1) × (Fin U.length → Fin (q - 1)) :=
    { toFun := fun x => (x.2.2, x.1, x.2.1), invFun := fun y => (y.2.1, y.2.2, y.1), left_inv := fun _ => rfl, right_inv := fun _ => rfl }
  refine Eq.trans ?_ (prob_equiv e f)
  rw [accepts0]
  congr 1
  funext ⟨k, r, α, σ⟩
  show _ = firstGame c hashOf g q sk0 D stash node days U hU N days.length (α, σ) (maskOf k • g) (zeros g sk0 (maskOf k • g) r)
  rw [firstGame]
  congr 1
  refine view0_eq hh σ hF.runs ?_ [] _ _ rfl rfl rfl rfl
  intro m o ho
  rw [Nat.zero_add]
  have hm : m < days.length := by rw [← hF.len]; exact (List.getElem?_eq_some_iff.1 ho).1
  refine ⟨by rw [hN m hm, hF.cands m o ho], (hF.nodes m o ho).symm, fun i y hy => ?_, fun i j l a hl ha => ?_⟩
  · have hyb := (hF.base m o ho y (shuffleOf_mem σ (List.mem_of_getElem? hy))).1
    simp only [ctOne]
    rw [← houts, symAt_eq ho hy, ctSym, coinOf_mem hU r (hUm _ hyb)]
    simp only [encrypt, encryptPoint, exp, partialDecrypt, decrypt, joint, zeros, Ct.mk.injEq]
    exact ⟨by module, by module⟩
  · have hj : j < (sizesOf stash node (ids1 days) m).getD i 0 := by
      rw [← hF.nodes m o ho, List.getD_eq_getElem?_getD, List.getElem?_map, hl]
      exact (List.getElem?_eq_some_iff.1 ha).1
    have hmem := hUm _ (mem_placesOne_tree (stash := stash) (node := node) (ids := ids1 days) (by simpa [ids1] using hm) hj)
    have hp : plainAt outs (.tree m i j 0) = a.2 := by
      simp only [plainAt, ho, Option.bind_some, hl, ha, Option.map_some, Option.getD_some]
    show (⟨_, plainAt _ (.tree m i j 0) • g + _⟩ : Ct G) = _
    rw [← houts, hp, coinOf_mem hU r hmem]
    simp only [encrypt, encryptPoint, joint, zeros]

/-- The ciphertexts of the first experiment, without the plaintexts of the tree updates. -/
def ctFree {N : Nat → Nat} {n q : Nat} (g : G) (sk0 : Int) (outs : List SymOut) (U : List Slot) (hU : 0 < U.length)
    (α : Fin (placesMask N n).length → Fin (q - 1)) (σ : (d : Fin n) → Equiv.Perm (Fin (N d))) (z : Fin U.length → Ct G) : Slot → Ct G
  | .cand d k j => ctOne g sk0 outs U hU α σ z (.cand d k j)
  | s => z (idxIn U hU s)

/-- After the first replacement, the experiment is one on masked pairs. -/
theorem ideal_masked [Nonempty (Fin q)] (hq : 0 < q) (hg : (q : Int) • g = 0)
    (hUm : ∀ s ∈ placesOne stash node (ids1 days), s ∈ U) :
    avg (fun ω => idealGame g q sk0 (firstGame c hashOf g q sk0 D stash node days U hU N days.length ω)) =
      avg (fun ω : Fin (q - 1) × (Fin U.length → Fin q) × ((d : Fin days.length) → Equiv.Perm (Fin (N d))) =>
        hybridMask g q (posOf (symRun hashOf 0 (SymSt.init stash node) days) U hU ω.2.2)
          (secondGame c hashOf g q sk0 D stash node days U hU N days.length ω) 0) := by
  set outs := symRun hashOf 0 (SymSt.init stash node) days with houts
  let W : ((Fin (placesMask N days.length).length → Fin (q - 1)) × ((d : Fin days.length) → Equiv.Perm (Fin (N d)))) → G → (Fin U.length → Ct G) → Bool :=
    fun ω X z => D X (viewC c hashOf (joint g sk0 X) (sizesOf stash node (ids1 days)) N (ctFree g sk0 outs U hU ω.1 ω.2 z) 0 [] (St0.init stash node) days)
  have h1 : ∀ ω, idealGame g q sk0 (firstGame c hashOf g q sk0 D stash node days U hU N days.length ω) = idealGame g q sk0 (W ω) := by
    intro ω
    rw [← ideal_shift hq hg (W ω) (fun k => plainAt outs U[k])]
    congr 1
    funext X z
    simp only [firstGame, W]
    congr 1
    refine viewC_congr days 0 [] _ (fun m k hm hk => ?_) (fun m i j hm hj => ?_)
    · simp only [ctFree, ctOne]
      rfl
    · rw [Nat.zero_add] at hj ⊢
      have hmem := hUm _ (mem_placesOne_tree (stash := stash) (node := node) (ids := ids1 days) (by simpa [ids1] using hm) hj)
      simp only [ctFree, ctOne, idxIn_mem hU hmem]
      rfl
  rw [funext h1]
  simp only [idealGame, hybridMask]
  let A := ((Fin (placesMask N days.length).length → Fin (q - 1)) × ((d : Fin days.length) → Equiv.Perm (Fin (N d)))) ×
      Fin (q - 1) × (Fin U.length → Fin (q - 1)) × (Fin U.length → Fin q)
  let f : A → Bool := fun x => W x.1 (maskOf x.2.1 • g) (randoms g sk0 x.2.2.1 x.2.2.2)
  let f2 : (Fin (q - 1) × (Fin U.length → Fin q) × ((d : Fin days.length) → Equiv.Perm (Fin (N d)))) ×
      (Fin U.length → Fin (q - 1)) × (Fin (placesMask N days.length).length → Fin (q - 1)) × (Fin (placesMask N days.length).length → Fin q) → Bool := fun x =>
    secondGame c hashOf g q sk0 D stash node days U hU N days.length x.1 (pointsOf g x.2.1) (fun j =>
      if j.val < 0 then (posOf outs U hU x.1.2.2 j).random g q (maskOf (x.2.2.1 j)) (x.2.2.2 j)
      else (posOf outs U hU x.1.2.2 j).masked g (pointsOf g x.2.1) (maskOf (x.2.2.1 j)))
  refine (prob_prod f).symm.trans (Eq.trans ?_ (prob_prod f2))
  refine (prob_snd (B := Fin (placesMask N days.length).length → Fin q) f).symm.trans ?_
  let e : A × (Fin (placesMask N days.length).length → Fin q) ≃ (Fin (q - 1) × (Fin U.length → Fin q) × ((d : Fin days.length) → Equiv.Perm (Fin (N d)))) ×
      (Fin U.length → Fin (q - 1)) × (Fin (placesMask N days.length).length → Fin (q - 1)) × (Fin (placesMask N days.length).length → Fin q) :=
    { toFun := fun x => ((x.1.2.1, x.1.2.2.2, x.1.1.2), x.1.2.2.1, x.1.1.1, x.2)
      invFun := fun y => (((y.2.2.1, y.1.2.2), y.1.1, y.2.1, y.1.2.1), y.2.2.2)
      left_inv := fun _ => rfl, right_inv := fun _ => rfl }
  refine Eq.trans ?_ (prob_equiv e f2)
  congr 1
  funext ⟨⟨⟨α, σ⟩, k1, r, t⟩, τ⟩
  simp only [f, f2, e, W, Equiv.coe_fn_mk, secondGame]
  congr 1
  refine viewC_congr days 0 [] _ (fun m k hm hk => ?_) (fun m i j hm hj => ?_)
  · rw [Nat.zero_add] at hk ⊢
    have hmem := mem_placesMask hm hk
    have hlt := List.idxOf_lt_length_iff.2 hmem
    have hat : (placesMask N days.length)[(placesMask N days.length).idxOf (.cand m k 0)] = .cand m k 0 := List.getElem_idxOf hlt
    simp only [ctFree, ctOne, ctTwo, coinOf, hlt, dif_pos, Nat.not_lt_zero, if_false, posOf, Fin.getElem_fin, hat, Pos.masked, randoms, pointsOf, Ct.mk.injEq]
    exact ⟨trivial, by module⟩
  · simp only [ctFree, ctTwo, randoms, pointsOf]

/-- The signs. -/
theorem posOf_eps (hh : ∀ e, (hashOf e).length = 256) (hf : FitsBoth days) (hq : q.Prime) (σ : (d : Fin days.length) → Equiv.Perm (Fin (N d)))
    (k : Fin (placesMask N days.length).length) : ¬ (q : Int) ∣ (posOf (symRun hashOf 0 (SymSt.init stash node) days) U hU σ k).eps := by
  have hF := oneFacts hh stash node hf
  set outs := symRun hashOf 0 (SymSt.init stash node) days with houts
  have h1 : ∀ x : Int, (x = 1 ∨ x = -1) → ¬ (q : Int) ∣ x := by
    have h2 : ¬ (q : Int) ∣ 1 := fun h => by
      have := hq.one_lt
      have := Int.le_of_dvd (by decide) h
      omega
    rintro x (rfl | rfl)
    · exact h2
    · rwa [Int.dvd_neg]
  apply h1
  rw [posOf]
  split
  · rename_i d k _ _
    simp only [symAt]
    cases ho : outs[d]? with
    | none => exact Or.inl rfl
    | some o =>
      simp only [Option.bind_some]
      cases hy : (shuffleOf σ d o.cands)[k]? with
      | none => exact Or.inl rfl
      | some y =>
        exact (hF.base d o ho y (shuffleOf_mem σ (List.mem_of_getElem? hy))).2
  · exact Or.inl rfl

end

/-- Which candidates of a day are matches. -/
def zeroAt (q : Nat) (outs : List SymOut) (d i : Nat) : Bool := decide ((q : Int) ∣ ((outs[d]?.bind fun o => o.cands[i]?).getD ⟨.cand 0 0 0, 1, 0, 0⟩).m)

theorem symAt_zero {N : Nat → Nat} {n q : Nat} {outs : List SymOut} (hl : outs.length = n) (hN : ∀ (m : Nat) o, outs[m]? = some o → o.cands.length = N m)
    (σ : (d : Fin n) → Equiv.Perm (Fin (N d))) (d : Fin n) (k : Fin (N d)) :
    decide ((q : Int) ∣ (symAt outs σ d k).m) = zeroAt q outs d (σ d k) := by
  have ho : outs[(d : Nat)]? = some outs[(d : Nat)] := List.getElem?_eq_getElem (by omega)
  have hc := hN _ _ ho
  rw [symAt, zeroAt, ho, Option.bind_some, Option.bind_some, shuffleOf, dif_pos d.2, permuteBy, dif_pos hc]
  congr 4
  rw [List.getElem?_ofFn, dif_pos k.2, List.getElem?_eq_getElem]

/-- Equally many matches on every day: the matches can be moved onto each other. -/
theorem relabel_days {N : Nat → Nat} {n q : Nat} {outs outs' : List SymOut} (hl : outs.length = n) (hl' : outs'.length = n)
    (hN : ∀ (m : Nat) o, outs[m]? = some o → o.cands.length = N m) (hN' : ∀ (m : Nat) o, outs'[m]? = some o → o.cands.length = N m)
    (hz : ∀ (m : Nat) o o', outs[m]? = some o → outs'[m]? = some o' →
      o.cands.countP (fun y => decide ((q : Int) ∣ y.m)) = o'.cands.countP (fun y => decide ((q : Int) ∣ y.m))) :
    ∃ τ : (d : Fin n) → Equiv.Perm (Fin (N d)), ∀ (d : Fin n) (i : Fin (N d)), zeroAt q outs' d i = zeroAt q outs d (τ d i) := by
  have : ∀ d : Fin n, ∃ τ : Equiv.Perm (Fin (N d)), ∀ i : Fin (N d), zeroAt q outs' d i = zeroAt q outs d (τ i) := by
    intro d
    have ho : outs[(d : Nat)]? = some outs[(d : Nat)] := List.getElem?_eq_getElem (by omega)
    have ho' : outs'[(d : Nat)]? = some outs'[(d : Nat)] := List.getElem?_eq_getElem (by omega)
    have e : ∀ (os : List SymOut) (o : SymOut), os[(d : Nat)]? = some o → o.cands.length = N d →
        List.ofFn (fun i : Fin (N d) => zeroAt q os d i) = o.cands.map fun y => decide ((q : Int) ∣ y.m) := by
      intro os o ho hc
      refine List.ext_getElem (by simp [hc]) fun i h1 h2 => ?_
      have h3 : i < o.cands.length := by simpa using h2
      rw [List.getElem_ofFn, List.getElem_map, zeroAt, ho, Option.bind_some, List.getElem?_eq_getElem h3]
      rfl
    refine exists_relabel (f := fun i : Fin (N d) => zeroAt q outs d i) (g := fun i : Fin (N d) => zeroAt q outs' d i) fun b => ?_
    rw [card_ofFn, card_ofFn, e _ _ ho (hN _ _ ho), e _ _ ho' (hN' _ _ ho')]
    have hcnt := hz _ _ _ ho ho'
    have hlen : outs[(d : Nat)].cands.length = outs'[(d : Nat)].cands.length := by rw [hN _ _ ho, hN' _ _ ho']
    generalize outs[(d : Nat)].cands = l at *
    generalize outs'[(d : Nat)].cands = l' at *
    have ht : ∀ l : List Sym, (l.map fun y => decide ((q : Int) ∣ y.m)).count true = l.countP (fun y => decide ((q : Int) ∣ y.m)) := by
      intro l
      rw [List.count_eq_countP, List.countP_map]
      congr 1
      funext y
      simp
    have hff : ∀ l : List Sym, (l.map fun y => decide ((q : Int) ∣ y.m)).count false + l.countP (fun y => decide ((q : Int) ∣ y.m)) = l.length := by
      intro l
      induction l with
      | nil => rfl
      | cons y l ih =>
        by_cases h : (q : Int) ∣ y.m
        · simp [h] at ih ⊢; omega
        · simp [h] at ih ⊢; omega
    cases b with
    | true => rw [ht, ht, hcnt]
    | false => have := hff l; have := hff l'; omega
  choose τ hτ using this
  exact ⟨τ, hτ⟩

/-- After both replacements, the experiment uses nothing of party one's elements but the numbers of matches. -/
theorem final_same {c : Codec G} {hashOf : Nat → List Bool} {g : G} {q : Nat} {sk0 : Int} {D : G → Transcript → Bool} {stash node : Nat}
    {days days' : List (DayIn G Nat Unit)} {U : List Slot} (hU : 0 < U.length) {N : Nat → Nat} {n : Nat} (hs : List.Forall₂ SameZero days days')
    {outs outs' : List SymOut} (τ : (d : Fin n) → Equiv.Perm (Fin (N d)))
    (h1 : ∀ (σ : (d : Fin n) → Equiv.Perm (Fin (N d))) (d : Fin n) (k : Fin (N d)), decide ((q : Int) ∣ (symAt outs σ d k).m) = zeroAt q outs d (σ d k))
    (h2 : ∀ (σ : (d : Fin n) → Equiv.Perm (Fin (N d))) (d : Fin n) (k : Fin (N d)), decide ((q : Int) ∣ (symAt outs' σ d k).m) = zeroAt q outs' d (σ d k))
    (hτ : ∀ (d : Fin n) (i : Fin (N d)), zeroAt q outs' d i = zeroAt q outs d (τ d i)) :
    avg (fun ω : Fin (q - 1) × (Fin U.length → Fin q) × ((d : Fin n) → Equiv.Perm (Fin (N d))) =>
      hybridMask g q (posOf outs U hU ω.2.2) (secondGame c hashOf g q sk0 D stash node days U hU N n ω) (placesMask N n).length) =
    avg (fun ω : Fin (q - 1) × (Fin U.length → Fin q) × ((d : Fin n) → Equiv.Perm (Fin (N d))) =>
      hybridMask g q (posOf outs' U hU ω.2.2) (secondGame c hashOf g q sk0 D stash node days' U hU N n ω) (placesMask N n).length) := by
  have hids : ids1 days = ids1 days' := by
    rw [ids1, ids1]
    induction hs with
    | nil => rfl
    | cons h _ ih => rw [List.map_cons, List.map_cons, ih, h.hsh1]
  have hgame : ∀ ω w p, secondGame c hashOf g q sk0 D stash node days U hU N n ω w p = secondGame c hashOf g q sk0 D stash node days' U hU N n ω w p := by
    intro ω w p
    rw [secondGame, secondGame, hids]
    congr 1
    exact viewC_same hs _ _ _
  have hpos : ∀ (σ : (d : Fin n) → Equiv.Perm (Fin (N d))) (j : Fin (placesMask N n).length) (a : Int) (t : Nat),
      (posOf outs U hU (fun d => τ d * σ d) j).random g q a t = (posOf outs' U hU σ j).random g q a t := by
    intro σ j a t
    obtain ⟨d, hd, k, hk, hdk⟩ : ∃ d, d < n ∧ ∃ k, k < N d ∧ (placesMask N n)[j] = .cand d k 0 := by
      have : (placesMask N n)[j] ∈ placesMask N n := List.getElem_mem _
      simp only [placesMask, List.mem_flatMap, List.mem_map, List.mem_range] at this
      obtain ⟨d, hd, k, hk, h⟩ := this
      exact ⟨d, hd, k, hk, h.symm⟩
    have a1 := h1 (fun d => τ d * σ d) ⟨d, hd⟩ ⟨k, hk⟩
    have a2 := h2 σ ⟨d, hd⟩ ⟨k, hk⟩
    rw [hτ] at a2
    simp only [Equiv.Perm.mul_apply] at a1
    have a3 := a1.trans a2.symm
    simp only [decide_eq_decide] at a3
    simp only [Pos.random, posOf, hdk]
    congr 1
    by_cases h : (q : Int) ∣ (symAt outs' σ d k).m
    · rw [if_pos h, if_pos (a3.2 h)]
    · rw [if_neg h, if_neg (fun h' => h (a3.1 h'))]
  simp only [hybridMask, Fin.is_lt, if_true, hgame]
  let f : (Fin (q - 1) × (Fin U.length → Fin q) × ((d : Fin n) → Equiv.Perm (Fin (N d)))) ×
      (Fin U.length → Fin (q - 1)) × (Fin (placesMask N n).length → Fin (q - 1)) × (Fin (placesMask N n).length → Fin q) → Bool := fun x =>
    secondGame c hashOf g q sk0 D stash node days' U hU N n x.1 (pointsOf g x.2.1) (fun j =>
      (posOf outs U hU x.1.2.2 j).random g q (maskOf (x.2.2.1 j)) (x.2.2.2 j))
  let f' : (Fin (q - 1) × (Fin U.length → Fin q) × ((d : Fin n) → Equiv.Perm (Fin (N d)))) ×
      (Fin U.length → Fin (q - 1)) × (Fin (placesMask N n).length → Fin (q - 1)) × (Fin (placesMask N n).length → Fin q) → Bool := fun x =>
    secondGame c hashOf g q sk0 D stash node days' U hU N n x.1 (pointsOf g x.2.1) (fun j =>
      (posOf outs' U hU x.1.2.2 j).random g q (maskOf (x.2.2.1 j)) (x.2.2.2 j))
  refine (prob_prod f).symm.trans (Eq.trans ?_ (prob_prod f'))
  let e : (Fin (q - 1) × (Fin U.length → Fin q) × ((d : Fin n) → Equiv.Perm (Fin (N d)))) ×
      (Fin U.length → Fin (q - 1)) × (Fin (placesMask N n).length → Fin (q - 1)) × (Fin (placesMask N n).length → Fin q) ≃
      (Fin (q - 1) × (Fin U.length → Fin q) × ((d : Fin n) → Equiv.Perm (Fin (N d)))) ×
      (Fin U.length → Fin (q - 1)) × (Fin (placesMask N n).length → Fin (q - 1)) × (Fin (placesMask N n).length → Fin q) :=
    Equiv.prodCongr (Equiv.prodCongr (Equiv.refl _) (Equiv.prodCongr (Equiv.refl _) (Equiv.piCongrRight fun d => Equiv.mulLeft (τ d)))) (Equiv.refl _)
  refine (prob_equiv e f).symm.trans ?_
  congr 1
  funext ⟨⟨k1, t, σ⟩, r, α, ta⟩
  simp only [f, f']
  show secondGame c hashOf g q sk0 D stash node days' U hU N n (k1, t, fun d => τ d * σ d) _ _ = _
  have : (fun j => (posOf outs U hU (fun d => τ d * σ d) j).random g q (maskOf (α j)) (ta j)) =
      fun j => (posOf outs' U hU σ j).random g q (maskOf (α j)) (ta j) := by
    funext j; exact hpos σ j _ _
  show secondGame c hashOf g q sk0 D stash node days' U hU N n (k1, t, fun d => τ d * σ d) (pointsOf g r)
    (fun j => (posOf outs U hU (fun d => τ d * σ d) j).random g q (maskOf (α j)) (ta j)) = _
  rw [this]
  rfl

/-- Both replacements. -/
theorem one_bound {c : Codec G} {hashOf : Nat → List Bool} (hh : ∀ e, (hashOf e).length = 256) {g : G} {q : Nat} (hq : q.Prime) (hg : (q : Int) • g = 0)
    (sk0 : Int) (D : G → Transcript → Bool) {stash node : Nat} {days : List (DayIn G Nat Unit)} (hf : FitsBoth days) {U : List Slot} (hU : 0 < U.length)
    (hUm : ∀ s ∈ placesOne stash node (ids1 days), s ∈ U) {N : Nat → Nat} {n : Nat} (hn : days.length = n)
    (hN : ∀ m, m < n → N m = candsOf stash node hashOf days m) :
    |accepts0 c hashOf g q sk0 D stash node days U N n -
      avg (fun ω : Fin (q - 1) × (Fin U.length → Fin q) × ((d : Fin n) → Equiv.Perm (Fin (N d))) =>
        hybridMask g q (posOf (symRun hashOf 0 (SymSt.init stash node) days) U hU ω.2.2)
          (secondGame c hashOf g q sk0 D stash node days U hU N n ω) (placesMask N n).length)| ≤
      hidingBound0 c hashOf g q sk0 D stash node days U hU N n := by
  subst hn
  have : Nonempty (Fin q) := ⟨⟨0, hq.pos⟩⟩
  have b1 := ideal_masked (c := c) (hashOf := hashOf) (g := g) (q := q) (sk0 := sk0) (D := D) (N := N) hU hq.pos hg hUm
  have c1 := hybridWith_bound (g := g) (q := q) (s := sk0) hq.one_lt (firstGame c hashOf g q sk0 D stash node days U hU N days.length)
  have d1 := hybridMask_bound (g := g) hq hg (fun ω : Fin (q - 1) × (Fin U.length → Fin q) × ((d : Fin days.length) → Equiv.Perm (Fin (N d))) =>
    posOf (symRun hashOf 0 (SymSt.init stash node) days) U hU ω.2.2) (fun ω k => posOf_eps hU hh hf hq ω.2.2 k)
    (secondGame c hashOf g q sk0 D stash node days U hU N days.length)
  rw [accepts0_real hU hh hf hUm hN, hidingBound0]
  rw [b1] at c1
  rw [abs_le] at *
  constructor <;> linarith [c1.1, c1.2, d1.1, d1.2]

/-- Both replacements: party zero's verdicts after two histories with equally many matches every day. -/
theorem hides0 {c : Codec G} {hashOf : Nat → List Bool} (hh : ∀ e, (hashOf e).length = 256) {g : G} {q : Nat} (hq : q.Prime) (hg : (q : Int) • g = 0)
    (sk0 : Int) (D : G → Transcript → Bool) {stash node : Nat} {days days' : List (DayIn G Nat Unit)} (hs : List.Forall₂ SameZero days days')
    (hf : FitsBoth days) (hf' : FitsBoth days') {U : List Slot} (hU : 0 < U.length) (hUm : ∀ s ∈ placesOne stash node (ids1 days), s ∈ U)
    {N : Nat → Nat} (hN : ∀ m, m < days.length → N m = candsOf stash node hashOf days m)
    (hN' : ∀ m, m < days.length → N m = candsOf stash node hashOf days' m)
    (hz : ∀ (m : Nat) o o', (symRun hashOf 0 (SymSt.init stash node) days)[m]? = some o → (symRun hashOf 0 (SymSt.init stash node) days')[m]? = some o' →
      o.cands.countP (fun y => decide ((q : Int) ∣ y.m)) = o'.cands.countP (fun y => decide ((q : Int) ∣ y.m))) :
    |accepts0 c hashOf g q sk0 D stash node days U N days.length - accepts0 c hashOf g q sk0 D stash node days' U N days.length| ≤
      hidingBound0 c hashOf g q sk0 D stash node days U hU N days.length + hidingBound0 c hashOf g q sk0 D stash node days' U hU N days.length := by
  have hlen : days.length = days'.length := hs.length_eq
  have hids : ids1 days = ids1 days' := by
    rw [ids1, ids1]
    clear hz hlen hN hN' hUm hf hf'
    induction hs with
    | nil => rfl
    | cons h _ ih => rw [List.map_cons, List.map_cons, ih, h.hsh1]
  have : Nonempty (Fin q) := ⟨⟨0, hq.pos⟩⟩
  have hF := oneFacts hh stash node hf
  have hF' := oneFacts hh stash node hf'
  obtain ⟨τ, hτ⟩ := relabel_days (N := N) (n := days.length) (q := q) hF.len (hF'.len.trans hlen.symm)
    (fun m o ho => by
      have hm : m < days.length := by rw [← hF.len]; exact (List.getElem?_eq_some_iff.1 ho).1
      rw [hF.cands m o ho, hN m hm])
    (fun m o ho => by
      have hm : m < days.length := by rw [hlen, ← hF'.len]; exact (List.getElem?_eq_some_iff.1 ho).1
      rw [hF'.cands m o ho, hN' m hm]) hz
  have hfin := final_same (c := c) (hashOf := hashOf) (g := g) (sk0 := sk0) (D := D) (stash := stash) (node := node) hU (q := q) hs τ
    (symAt_zero hF.len (fun m o ho => by
      have hm : m < days.length := by rw [← hF.len]; exact (List.getElem?_eq_some_iff.1 ho).1
      rw [hF.cands m o ho, hN m hm]))
    (symAt_zero (hF'.len.trans hlen.symm) (fun m o ho => by
      have hm : m < days.length := by rw [hlen, ← hF'.len]; exact (List.getElem?_eq_some_iff.1 ho).1
      rw [hF'.cands m o ho, hN' m hm])) hτ
  have a1 := one_bound (c := c) hh hq hg sk0 D hf hU hUm rfl hN
  have a2 := one_bound (c := c) hh hq hg sk0 D hf' hU (hids ▸ hUm) hlen.symm hN'
  rw [← hfin] at a2
  rw [abs_le] at *
  constructor <;> linarith [a1.1, a1.2, a2.1, a2.2]

end Upsi.Hide
