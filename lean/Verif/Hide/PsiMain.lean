import Verif.Hide.PsiView
/- The three replacements, and what is left after them (C82). -/
namespace Upsi.Hide
open Upsi Upsi.ElGamal Upsi.Tree Upsi.Num Upsi.Proto Upsi.View Upsi.Tree.Props

variable {G : Type} [AddCommGroup G] [DecidableEq G]

section
variable {c cu : Codec G} {hashOf : Nat → List Bool} {g : G} {q : Nat} {sk0 : Int} {D : G → Transcript → Bool} {stash node : Nat}
  {days : List (DayIn G Nat (Ct G))} {U : List Slot} (hU : 0 < U.length) {N : Nat → Nat}

theorem payAt_eq {n : Nat} {fulls : List (List (Sym × Int × Int))} {σ : (d : Fin n) → Equiv.Perm (Fin (N d))} {m k : Nat} {l : List (Sym × Int × Int)}
    {y : Sym × Int × Int} (hl : fulls[m]? = some l) (hy : (shuffleOf σ m l)[k]? = some y) : payAt fulls σ m k = y.2 := by
  rw [payAt, hl, Option.bind_some, hy]; rfl

theorem symAt_full {n : Nat} {outs : List SymOut} {fulls : List (List (Sym × Int × Int))} (hf : fulls.map (fun l => l.map Prod.fst) = outs.map SymOut.cands)
    {σ : (d : Fin n) → Equiv.Perm (Fin (N d))} {m k : Nat} {l : List (Sym × Int × Int)}
    {y : Sym × Int × Int} (hl : fulls[m]? = some l) (hy : (shuffleOf σ m l)[k]? = some y) : symAt outs σ m k = y.1 := by
  have h := congrArg (fun x => x[m]?) hf
  simp only [List.getElem?_map, hl, Option.map_some] at h
  cases ho : outs[m]? with
  | none => rw [ho] at h; simp at h
  | some o =>
    rw [ho] at h
    simp only [Option.map_some, Option.some.injEq] at h
    refine symAt_eq ho ?_
    rw [← h, shuffleOf_map, List.getElem?_map, hy]; rfl

/-- The experiment is one on encryptions of zero. -/
theorem acceptsPsi_real (hh : ∀ e, (hashOf e).length = 256) (hf : FitsBoth (days.map cardDay))
    (hUm : ∀ s ∈ placesOne stash node (ids1 (days.map cardDay)), s ∈ U) (hN : ∀ m, m < days.length → N m = candsOf stash node hashOf (days.map cardDay) m) :
    acceptsPsi c cu hashOf g q sk0 D stash node days U N days.length =
      avg (fun ω => realGame g q sk0 (psiFirst c cu hashOf g q sk0 D stash node days U hU N days.length ω)) := by
  have hF := oneFacts hh stash node hf
  have hfst := fullRun_fst hF.runs
  set outs := symRun hashOf 0 (SymSt.init stash node) (days.map cardDay) with houts
  set fulls := fullRun hashOf 0 (SymSt.init stash node) (days.map cardDay) with hfulls
  simp only [realGame]
  let f : (((Fin (placesMask N days.length).length → Fin (q - 1)) × (Fin (placesMask N days.length).length → Fin (q - 1))) × ((d : Fin days.length) → Equiv.Perm (Fin (N d)))) ×
      Fin (q - 1) × (Fin U.length → Fin (q - 1)) → Bool := fun x =>
    psiFirst c cu hashOf g q sk0 D stash node days U hU N days.length x.1 (maskOf x.2.1 • g) (zeros g sk0 (maskOf x.2.1 • g) x.2.2)
  refine Eq.trans ?_ (prob_prod f)
  let e : Fin (q - 1) × (Fin U.length → Fin (q - 1)) × ((Fin (placesMask N days.length).length → Fin (q - 1)) × (Fin (placesMask N days.length).length → Fin (q - 1))) × ((d : Fin days.length) → Equiv.Perm (Fin (N d))) ≃
      (((Fin (placesMask N days.length).length → Fin (q - 1)) × (Fin (placesMask N days.length).length → Fin (q - 1))) × ((d : Fin days.length) → Equiv.Perm (Fin (N d)))) × Fin (q - 1) × (Fin U.length → Fin (q - 1)) :=
    { toFun := fun x => (x.2.2, x.1, x.2.1), invFun := fun y => (y.2.1, y.2.2, y.1), left_inv := fun _ => rfl, right_inv := fun _ => rfl }
  refine Eq.trans ?_ (prob_equiv e f)
  rw [acceptsPsi]
  congr 1
  funext ⟨k, r, ⟨α, β⟩, σ⟩
  show _ = psiFirst c cu hashOf g q sk0 D stash node days U hU N days.length ((α, β), σ) (maskOf k • g) (zeros g sk0 (maskOf k • g) r)
  rw [psiFirst]
  congr 1
  refine viewPsi_eq hh σ hF.runs days rfl ?_ [] _ _ _ _ rfl rfl rfl rfl
  intro m o l ho hl
  rw [Nat.zero_add]
  have hm : m < days.length := by have := (List.getElem?_eq_some_iff.1 ho).1; rw [hF.len, List.length_map] at this; exact this
  have hlo : l.map Prod.fst = o.cands := by
    have h := congrArg (fun x => x[m]?) hfst
    simp only [List.getElem?_map] at h
    change Option.map _ (fulls[m]?) = _ at h
    change fulls[m]? = _ at hl
    rw [hl, ho] at h
    simpa using h
  refine ⟨by rw [hN m hm, hF.cands m o ho], (hF.nodes m o ho).symm, fun i y hy => ?_, fun i j l a hl ha => ?_⟩
  · have hyb := (hF.base m o ho y.1 (by rw [← hlo]; exact List.mem_map_of_mem (shuffleOf_mem σ (List.mem_of_getElem? hy)))).1
    have hs := symAt_full hfst (σ := σ) hl hy
    have hp := payAt_eq (fulls := fulls) (σ := σ) hl hy
    constructor
    · simp only [ctPsiOne, ctOne, maskTwo]
      rw [hs, ctSym, coinOf_mem hU r (hUm _ hyb)]
      simp only [encrypt, encryptPoint, exp, partialDecrypt, decrypt, joint, zeros, Ct.mk.injEq]
      exact ⟨by module, by module⟩
    · simp only [ctPsiOne, maskTwo]
      rw [hs, hp, ctSym, coinOf_mem hU r (hUm _ hyb)]
      simp only [payCt, encrypt, encryptPoint, exp, mul, partialDecrypt, decrypt, joint, zeros, Ct.mk.injEq]
      exact ⟨by module, by module⟩
  · have hj : j < (sizesOf stash node (ids1 (days.map cardDay)) m).getD i 0 := by
      rw [← hF.nodes m o ho, List.getD_eq_getElem?_getD, List.getElem?_map, hl]
      exact (List.getElem?_eq_some_iff.1 ha).1
    have hmem := hUm _ (mem_placesOne_tree (stash := stash) (node := node) (ids := ids1 (days.map cardDay)) (by simpa [ids1] using hm) hj)
    have hpl : plainAt outs (.tree m i j 0) = a.2 := by
      simp only [plainAt, ho, Option.bind_some, hl, ha, Option.map_some, Option.getD_some]
    simp only [ctPsiOne, ctOne]
    rw [hpl, coinOf_mem hU r hmem]
    simp only [encrypt, encryptPoint, joint, zeros]

/-- The ciphertexts of the first experiment, without the plaintexts of the tree updates. -/
def ctPsiFree {N : Nat → Nat} {n q : Nat} (g : G) (sk0 : Int) (outs : List SymOut) (fulls : List (List (Sym × Int × Int))) (U : List Slot) (hU : 0 < U.length)
    (α β : Fin (placesMask N n).length → Fin (q - 1)) (σ : (d : Fin n) → Equiv.Perm (Fin (N d))) (z : Fin U.length → Ct G) : Slot → Ct G
  | .cand d k j => ctPsiOne g sk0 outs fulls U hU α β σ z (.cand d k j)
  | s => z (idxIn U hU s)

/-- After the first replacement, the experiment is one on masked pairs. -/
theorem psi_masked [Nonempty (Fin q)] (hq : 0 < q) (hg : (q : Int) • g = 0)
    (hUm : ∀ s ∈ placesOne stash node (ids1 (days.map cardDay)), s ∈ U) :
    avg (fun ω => idealGame g q sk0 (psiFirst c cu hashOf g q sk0 D stash node days U hU N days.length ω)) =
      avg (fun ω : Fin (q - 1) × (Fin U.length → Fin q) × ((d : Fin days.length) → Equiv.Perm (Fin (N d))) × (Fin (placesMask N days.length).length → Fin (q - 1)) =>
        hybridMask g q (posOf (symRun hashOf 0 (SymSt.init stash node) (days.map cardDay)) U hU ω.2.2.1)
          (psiSecond c cu hashOf g q sk0 D stash node days U hU N days.length ω) 0) := by
  set outs := symRun hashOf 0 (SymSt.init stash node) (days.map cardDay) with houts
  set fulls := fullRun hashOf 0 (SymSt.init stash node) (days.map cardDay) with hfulls
  let W : (((Fin (placesMask N days.length).length → Fin (q - 1)) × (Fin (placesMask N days.length).length → Fin (q - 1))) × ((d : Fin days.length) → Equiv.Perm (Fin (N d)))) →
      G → (Fin U.length → Ct G) → Bool :=
    fun ω X z => D X (viewGiven c cu hashOf (joint g sk0 X) sk0 (sizesOf stash node (ids1 (days.map cardDay))) N
      (ctPsiFree g sk0 outs fulls U hU ω.1.1 ω.1.2 ω.2 z) 0 [] (St0.init stash node) [] [] days)
  have h1 : ∀ ω, idealGame g q sk0 (psiFirst c cu hashOf g q sk0 D stash node days U hU N days.length ω) = idealGame g q sk0 (W ω) := by
    intro ω
    rw [← ideal_shift hq hg (W ω) (fun k => plainAt outs U[k])]
    congr 1
    funext X z
    simp only [psiFirst, W]
    congr 1
    refine viewGiven_congr days 0 [] _ _ _ (fun m k hm hk => ?_) (fun m i j hm hj => ?_)
    · simp only [ctPsiFree, ctPsiOne, ctOne]
      exact ⟨rfl, rfl⟩
    · rw [Nat.zero_add] at hj ⊢
      have hmem := hUm _ (mem_placesOne_tree (stash := stash) (node := node) (ids := ids1 (days.map cardDay)) (by simpa [ids1] using hm) hj)
      simp only [ctPsiFree, ctPsiOne, ctOne, idxIn_mem hU hmem]
      rfl
  rw [funext h1]
  simp only [idealGame, hybridMask]
  let A := (((Fin (placesMask N days.length).length → Fin (q - 1)) × (Fin (placesMask N days.length).length → Fin (q - 1))) × ((d : Fin days.length) → Equiv.Perm (Fin (N d)))) ×
      Fin (q - 1) × (Fin U.length → Fin (q - 1)) × (Fin U.length → Fin q)
  let f : A → Bool := fun x => W x.1 (maskOf x.2.1 • g) (randoms g sk0 x.2.2.1 x.2.2.2)
  let f2 : (Fin (q - 1) × (Fin U.length → Fin q) × ((d : Fin days.length) → Equiv.Perm (Fin (N d))) × (Fin (placesMask N days.length).length → Fin (q - 1))) ×
      (Fin U.length → Fin (q - 1)) × (Fin (placesMask N days.length).length → Fin (q - 1)) × (Fin (placesMask N days.length).length → Fin q) → Bool := fun x =>
    psiSecond c cu hashOf g q sk0 D stash node days U hU N days.length x.1 (pointsOf g x.2.1) (fun j =>
      if j.val < 0 then (posOf outs U hU x.1.2.2.1 j).random g q (maskOf (x.2.2.1 j)) (x.2.2.2 j)
      else (posOf outs U hU x.1.2.2.1 j).masked g (pointsOf g x.2.1) (maskOf (x.2.2.1 j)))
  refine (prob_prod f).symm.trans (Eq.trans ?_ (prob_prod f2))
  refine (prob_snd (B := Fin (placesMask N days.length).length → Fin q) f).symm.trans ?_
  let e : A × (Fin (placesMask N days.length).length → Fin q) ≃
      (Fin (q - 1) × (Fin U.length → Fin q) × ((d : Fin days.length) → Equiv.Perm (Fin (N d))) × (Fin (placesMask N days.length).length → Fin (q - 1))) ×
      (Fin U.length → Fin (q - 1)) × (Fin (placesMask N days.length).length → Fin (q - 1)) × (Fin (placesMask N days.length).length → Fin q) :=
    { toFun := fun x => ((x.1.2.1, x.1.2.2.2, x.1.1.2, x.1.1.1.2), x.1.2.2.1, x.1.1.1.1, x.2)
      invFun := fun y => ((((y.2.2.1, y.1.2.2.2), y.1.2.2.1), y.1.1, y.2.1, y.1.2.1), y.2.2.2)
      left_inv := fun _ => rfl, right_inv := fun _ => rfl }
  refine Eq.trans ?_ (prob_equiv e f2)
  congr 1
  funext ⟨⟨⟨⟨α, β⟩, σ⟩, k1, r, t⟩, τ⟩
  simp only [f, f2, e, W, Equiv.coe_fn_mk, psiSecond, psiPlay]
  congr 1
  refine viewGiven_congr days 0 [] _ _ _ (fun m k hm hk => ?_) (fun m i j hm hj => ?_)
  · rw [Nat.zero_add] at hk ⊢
    have hmem := mem_placesMask hm hk
    have hlt := List.idxOf_lt_length_iff.2 hmem
    have hat : (placesMask N days.length)[(placesMask N days.length).idxOf (.cand m k 0)] = .cand m k 0 := List.getElem_idxOf hlt
    constructor
    · simp only [ctPsiFree, ctPsiOne, ctOne, ctPsiTwo, coinOf, hlt, dif_pos, Nat.not_lt_zero, if_false, if_true, posOf, Fin.getElem_fin, hat, Pos.masked, randoms, pointsOf, Ct.mk.injEq]
      exact ⟨trivial, by module⟩
    · simp only [ctPsiFree, ctPsiOne, ctPsiTwo, coinOf, hlt, dif_pos, Nat.not_lt_zero, if_false, one_ne_zero, posOf, payOf, Fin.getElem_fin, hat, Pos.masked, randoms, pointsOf]
      rfl
  · simp only [ctPsiFree, ctPsiTwo, randoms, pointsOf]

theorem posOf_match {n : Nat} (outs : List SymOut) (σ : (d : Fin n) → Equiv.Perm (Fin (N d))) (j : Fin (placesMask N n).length) (a : Int) (t : Nat) :
    (posOf outs U hU σ j).random g q a t = ((t : Int) • g, if matchOf q outs σ j then 0 else a • g) := by
  obtain ⟨d, k, hdk⟩ : ∃ d k, (placesMask N n)[j] = .cand d k 0 := by
    have : (placesMask N n)[j] ∈ placesMask N n := List.getElem_mem _
    simp only [placesMask, List.mem_flatMap, List.mem_map, List.mem_range] at this
    obtain ⟨d, -, k, -, h⟩ := this
    exact ⟨d, k, h.symm⟩
  simp only [Pos.random, posOf, matchOf, hdk, decide_eq_true_eq]

/-- After the second replacement, the experiment is one on triples. -/
theorem psi_triples (hq : 0 < q) {n : Nat} :
    avg (fun ω : Fin (q - 1) × (Fin U.length → Fin q) × ((d : Fin n) → Equiv.Perm (Fin (N d))) × (Fin (placesMask N n).length → Fin (q - 1)) =>
        hybridMask g q (posOf (symRun hashOf 0 (SymSt.init stash node) (days.map cardDay)) U hU ω.2.2.1)
          (psiSecond c cu hashOf g q sk0 D stash node days U hU N n ω) (placesMask N n).length) =
      hybridTriple g q (psiThird c cu hashOf g q sk0 D stash node days U hU N n) 0 := by
  rw [hybridTriple_zero hq]
  set outs := symRun hashOf 0 (SymSt.init stash node) (days.map cardDay) with houts
  simp only [hybridMask, Fin.is_lt, if_true]
  let f : (Fin (q - 1) × (Fin U.length → Fin q) × ((d : Fin n) → Equiv.Perm (Fin (N d))) × (Fin (placesMask N n).length → Fin (q - 1))) ×
      (Fin U.length → Fin (q - 1)) × (Fin (placesMask N n).length → Fin (q - 1)) × (Fin (placesMask N n).length → Fin q) → Bool := fun x =>
    psiSecond c cu hashOf g q sk0 D stash node days U hU N n x.1 (pointsOf g x.2.1) (fun j =>
      (posOf outs U hU x.1.2.2.1 j).random g q (maskOf (x.2.2.1 j)) (x.2.2.2 j))
  refine (prob_prod f).symm.trans ?_
  let e : (Fin (q - 1) × (Fin U.length → Fin q) × ((d : Fin n) → Equiv.Perm (Fin (N d))) × (Fin (placesMask N n).length → Fin (q - 1))) ×
      (Fin U.length → Fin (q - 1)) × (Fin (placesMask N n).length → Fin (q - 1)) × (Fin (placesMask N n).length → Fin q) ≃
      (Fin (q - 1) × (Fin U.length → Fin q) × ((d : Fin n) → Equiv.Perm (Fin (N d))) × (Fin U.length → Fin (q - 1)) × (Fin (placesMask N n).length → Fin q)) ×
      (Fin (placesMask N n).length → Fin (q - 1)) × (Fin (placesMask N n).length → Fin (q - 1)) :=
    { toFun := fun x => ((x.1.1, x.1.2.1, x.1.2.2.1, x.2.1, x.2.2.2), x.2.2.1, x.1.2.2.2)
      invFun := fun y => ((y.1.1, y.1.2.1, y.1.2.2.1, y.2.2), y.1.2.2.2.1, y.2.1, y.1.2.2.2.2)
      left_inv := fun _ => rfl, right_inv := fun _ => rfl }
  refine Eq.trans ?_ (prob_equiv e _)
  congr 1
  funext ⟨⟨k1, t, σ, β⟩, r, α, τ⟩
  simp only [f, e, Equiv.coe_fn_mk, psiSecond, psiThird]
  congr 1
  funext j
  rw [posOf_match]
  simp only [quad, tripleReal]
  refine Prod.ext rfl (Prod.ext ?_ ?_)
  · simp only [smul_smul]; rw [mul_comm]
  · simp only
    split
    · exact smul_zero _
    · rfl

/-- What is known of a candidate in the end: the plaintext of the payload of a match. -/
def keyOf {N : Nat → Nat} {n : Nat} (q : Nat) (outs : List SymOut) (fulls : List (List (Sym × Int × Int))) (σ : (d : Fin n) → Equiv.Perm (Fin (N d)))
    (j : Fin (placesMask N n).length) : Option Int := if matchOf q outs σ j then some (payOf fulls σ j).2 else none

/-- The experiment in the end: it uses the keys of the candidates only. -/
def psiLast (c cu : Codec G) (hashOf : Nat → List Bool) (g : G) (q : Nat) (sk0 : Int) (D : G → Transcript → Bool) (stash node : Nat)
    (days : List (DayIn G Nat (Ct G))) (U : List Slot) (hU : 0 < U.length) (N : Nat → Nat) (n : Nat) (k1 : Fin (q - 1)) (t : Fin U.length → Fin q)
    (w : Fin U.length → G) (key : Fin (placesMask N n).length → Option Int) (τ : Fin (placesMask N n).length → Fin q)
    (α : Fin (placesMask N n).length → Fin (q - 1)) (β z : Fin (placesMask N n).length → Fin q) : Bool :=
  psiPlay c cu hashOf g q sk0 D stash node days U hU N n k1 t w (fun j => (0, (key j).getD 0)) fun j =>
    quad g (τ j) (key j).isSome (maskOf (α j) • g, ((β j : Nat) : Int) • g, ((z j : Nat) : Int) • g)

/-- Payloads are hidden: the coin by the second mask, the plaintext (unless it is a match) by the last member of the triple. -/
theorem pay_shift (hq : q.Prime) (hg : (q : Int) • g = 0) {n : Nat} (pay : Fin (placesMask N n).length → Int × Int) (b : Fin (placesMask N n).length → Bool)
    (k1 : Fin (q - 1)) (t : Fin U.length → Fin q) (w : Fin U.length → G) (τ α : Fin (placesMask N n).length → Fin (q - 1)) :
    prob (fun x : (Fin (placesMask N n).length → Fin q) × (Fin (placesMask N n).length → Fin q) =>
      psiPlay c cu hashOf g q sk0 D stash node days U hU N n k1 t w pay fun j =>
        quad g (residue (τ j)) (b j) (maskOf (α j) • g, ((x.1 j : Nat) : Int) • g, ((x.2 j : Nat) : Int) • g)) =
    prob (fun x : (Fin (placesMask N n).length → Fin q) × (Fin (placesMask N n).length → Fin q) =>
      psiLast c cu hashOf g q sk0 D stash node days U hU N n k1 t w (fun j => if b j then some (pay j).2 else none) (fun j => residue (τ j)) α x.1 x.2) := by
  have hq' : _root_.Prime (q : Int) := Nat.prime_iff_prime_int.1 hq
  have hinv : ∀ j, ∃ v : Int, (q : Int) ∣ maskOf (τ j) * v - 1 := by
    intro j
    have hnd : ¬ (q : Int) ∣ maskOf (τ j) := by
      intro h
      have h1 : (0 : Int) < maskOf (τ j) := by simp only [maskOf]; omega
      have h2 : maskOf (τ j) < q := by have := (τ j).2; simp only [maskOf]; omega
      have := Int.le_of_dvd h1 h
      omega
    obtain ⟨-, h2⟩ := (Pos.mk (n := 1) 0 0 0 (maskOf (τ j))).unit_ndvd hq
    refine ⟨(Pos.mk (n := 1) 0 0 0 (maskOf (τ j))).unit q, ?_⟩
    have := h2 hnd
    rw [← Int.dvd_neg] at this
    have e : -(1 - (Pos.mk (n := 1) 0 0 0 (maskOf (τ j))).unit q * maskOf (τ j)) = maskOf (τ j) * (Pos.mk (n := 1) 0 0 0 (maskOf (τ j))).unit q - 1 := by ring
    rwa [e] at this
  choose v hv using hinv
  have h1 : ¬ (q : Int) ∣ 1 := fun h => hq'.not_isUnit (isUnit_of_dvd_one h)
  choose π hπ using fun j => affine_perm hq h1 (v j * (pay j).1)
  choose ρ hρ using fun j => affine_perm hq h1 ((pay j).2)
  let e : (Fin (placesMask N n).length → Fin q) × (Fin (placesMask N n).length → Fin q) ≃ (Fin (placesMask N n).length → Fin q) × (Fin (placesMask N n).length → Fin q) :=
    Equiv.prodCongr (Equiv.piCongrRight π) (Equiv.piCongrRight ρ)
  refine Eq.trans ?_ (prob_equiv e _)
  congr 1
  funext ⟨β, z⟩
  show psiPlay c cu hashOf g q sk0 D stash node days U hU N n k1 t w pay _ = psiPlay c cu hashOf g q sk0 D stash node days U hU N n k1 t w _ _
  simp only [psiPlay]
  congr 2
  funext s
  cases s with
  | tree d i j k => rfl
  | elem d i k => rfl
  | cand d k i =>
    simp only [ctPsiTwo]
    split
    · rename_i h
      set j : Fin (placesMask N n).length := ⟨_, h⟩
      have hB : (pay j).1 • g + (((residue (τ j)) : Nat) : Int) • ((β j : Nat) : Int) • g = (((residue (τ j)) : Nat) : Int) • ((π j (β j) : Nat) : Int) • g := by
        rw [residue_val, smul_smul, smul_smul, ← add_smul]
        refine smul_congr hg ?_
        have a1 := Dvd.dvd.mul_left (hπ j (β j)) (maskOf (τ j))
        have a2 := Dvd.dvd.mul_right (hv j) ((pay j).1)
        have := dvd_add a1 a2
        have e : (pay j).1 + maskOf (τ j) * ((β j : Nat) : Int) - maskOf (τ j) * ((π j (β j) : Nat) : Int) =
            -(maskOf (τ j) * (((π j (β j) : Nat) : Int) - (1 * ((β j : Nat) : Int) + v j * (pay j).1)) + (maskOf (τ j) * v j - 1) * (pay j).1) := by ring
        rw [e, Int.dvd_neg]
        exact this
      have hZ : (pay j).2 • g + ((z j : Nat) : Int) • g = ((ρ j (z j) : Nat) : Int) • g := by
        rw [← add_smul]
        refine smul_congr hg ?_
        have := hρ j (z j)
        rw [← Int.dvd_neg] at this
        have e : (pay j).2 + ((z j : Nat) : Int) - ((ρ j (z j) : Nat) : Int) = -(((ρ j (z j) : Nat) : Int) - (1 * ((z j : Nat) : Int) + (pay j).2)) := by ring
        rw [e]; exact this
      cases hb : b j with
      | true =>
        simp only [quad, payCt, if_true, Option.isSome_some, Option.getD_some, zero_smul, zero_add]
        split
        · rfl
        · rw [hB]; rfl
      | false =>
        simp only [quad, payCt, Bool.false_eq_true, if_false, Option.isSome_none, Option.getD_none, zero_smul, zero_add]
        split
        · rfl
        · show Ct.mk _ _ = Ct.mk _ _
          rw [hB, add_right_comm, hZ, add_comm]
          rfl
    · rfl

/-- What is left after the last replacement, up to draws of zero. -/
theorem psi_last (hq : q.Prime) (hg : (q : Int) • g = 0) {n : Nat} :
    |hybridTriple g q (psiThird c cu hashOf g q sk0 D stash node days U hU N n) (placesMask N n).length -
      avg (fun ω : Fin (q - 1) × (Fin U.length → Fin q) × ((d : Fin n) → Equiv.Perm (Fin (N d))) × (Fin U.length → Fin (q - 1)) × (Fin (placesMask N n).length → Fin (q - 1)) ×
          (Fin (placesMask N n).length → Fin (q - 1)) =>
        prob (fun x : (Fin (placesMask N n).length → Fin q) × (Fin (placesMask N n).length → Fin q) =>
          psiLast c cu hashOf g q sk0 D stash node days U hU N n ω.1 ω.2.1 (pointsOf g ω.2.2.2.1)
            (keyOf q (symRun hashOf 0 (SymSt.init stash node) (days.map cardDay)) (fullRun hashOf 0 (SymSt.init stash node) (days.map cardDay)) ω.2.2.1)
            (fun j => residue (ω.2.2.2.2.1 j)) ω.2.2.2.2.2 x.1 x.2))| ≤ 2 * ((placesMask N n).length : ℚ) / q := by
  have hq1 := hq.one_lt
  have : Nonempty (Fin (q - 1)) := ⟨⟨0, by omega⟩⟩
  have : Nonempty (Fin q) := ⟨⟨0, hq.pos⟩⟩
  rw [hybridTriple_last]
  set outs := symRun hashOf 0 (SymSt.init stash node) (days.map cardDay) with houts
  set fulls := fullRun hashOf 0 (SymSt.init stash node) (days.map cardDay) with hfulls
  set M := (placesMask N n).length with hM
  -- everything drawn, with `β` and `τ` as residues
  let game : Fin (q - 1) → (Fin U.length → Fin q) → ((d : Fin n) → Equiv.Perm (Fin (N d))) → (Fin U.length → Fin (q - 1)) → (Fin M → Fin q) → (Fin M → Fin (q - 1)) →
      (Fin M → Fin q) → (Fin M → Fin q) → Bool := fun k1 t σ r τ α β z =>
    psiPlay c cu hashOf g q sk0 D stash node days U hU N n k1 t (pointsOf g r) (payOf fulls σ) fun j =>
      quad g (τ j) (matchOf q outs σ j) (maskOf (α j) • g, ((β j : Nat) : Int) • g, ((z j : Nat) : Int) • g)
  let R := Fin (q - 1) × (Fin U.length → Fin q) × ((d : Fin n) → Equiv.Perm (Fin (N d))) × (Fin U.length → Fin (q - 1)) × (Fin M → Fin (q - 1)) × (Fin M → Fin q)
  -- the second masks
  let fβ : (R × (Fin M → Fin q)) × (Fin M → Fin q) → Bool := fun x =>
    game x.1.1.1 x.1.1.2.1 x.1.1.2.2.1 x.1.1.2.2.2.1 x.1.2 x.1.1.2.2.2.2.1 x.2 x.1.1.2.2.2.2.2
  let fτ : (R × (Fin M → Fin q)) × (Fin M → Fin q) → Bool := fun x =>
    game x.1.1.1 x.1.1.2.1 x.1.1.2.2.1 x.1.1.2.2.2.1 x.2 x.1.1.2.2.2.2.1 x.1.2 x.1.1.2.2.2.2.2
  have s1 := prob_nonzero hq1 (n := M) fβ
  have s2 := prob_nonzero hq1 (n := M) fτ
  let eT : (R × (Fin M → Fin q)) × (Fin M → Fin q) ≃ (R × (Fin M → Fin q)) × (Fin M → Fin q) :=
    { toFun := fun x => ((x.1.1, x.2), x.1.2), invFun := fun x => ((x.1.1, x.2), x.1.2), left_inv := fun _ => rfl, right_inv := fun _ => rfl }
  have hT : prob fβ = prob fτ := prob_equiv eT fτ
  -- the left side
  have hL : prob (fun x : (Fin (q - 1) × (Fin U.length → Fin q) × ((d : Fin n) → Equiv.Perm (Fin (N d))) × (Fin U.length → Fin (q - 1)) × (Fin M → Fin q)) ×
        (Fin M → Fin (q - 1)) × (Fin M → Fin (q - 1)) × (Fin M → Fin q) =>
        psiThird c cu hashOf g q sk0 D stash node days U hU N n x.1 (fun j => tripleRand g (x.2.1 j) (x.2.2.1 j) (x.2.2.2 j))) =
      prob (fun x : (R × (Fin M → Fin q)) × (Fin M → Fin (q - 1)) => fβ (x.1, fun k => residue (x.2 k))) := by
    let e : (Fin (q - 1) × (Fin U.length → Fin q) × ((d : Fin n) → Equiv.Perm (Fin (N d))) × (Fin U.length → Fin (q - 1)) × (Fin M → Fin q)) ×
        (Fin M → Fin (q - 1)) × (Fin M → Fin (q - 1)) × (Fin M → Fin q) ≃ (R × (Fin M → Fin q)) × (Fin M → Fin (q - 1)) :=
      { toFun := fun x => (((x.1.1, x.1.2.1, x.1.2.2.1, x.1.2.2.2.1, x.2.1, x.2.2.2), x.1.2.2.2.2), x.2.2.1)
        invFun := fun y => ((y.1.1.1, y.1.1.2.1, y.1.1.2.2.1, y.1.1.2.2.2.1, y.1.2), y.1.1.2.2.2.2.1, y.2, y.1.1.2.2.2.2.2)
        left_inv := fun _ => rfl, right_inv := fun _ => rfl }
    refine Eq.trans ?_ (prob_equiv e _)
    congr 1
  -- the right side
  have hRt : prob (fun x : (R × (Fin M → Fin q)) × (Fin M → Fin (q - 1)) => fτ (x.1, fun k => residue (x.2 k))) =
      avg (fun ω : Fin (q - 1) × (Fin U.length → Fin q) × ((d : Fin n) → Equiv.Perm (Fin (N d))) × (Fin U.length → Fin (q - 1)) × (Fin M → Fin (q - 1)) × (Fin M → Fin (q - 1)) =>
        prob (fun x : (Fin M → Fin q) × (Fin M → Fin q) =>
          psiLast c cu hashOf g q sk0 D stash node days U hU N n ω.1 ω.2.1 (pointsOf g ω.2.2.2.1) (keyOf q outs fulls ω.2.2.1)
            (fun j => residue (ω.2.2.2.2.1 j)) ω.2.2.2.2.2 x.1 x.2)) := by
    have hpt : ∀ ω : Fin (q - 1) × (Fin U.length → Fin q) × ((d : Fin n) → Equiv.Perm (Fin (N d))) × (Fin U.length → Fin (q - 1)) × (Fin M → Fin (q - 1)) × (Fin M → Fin (q - 1)),
        prob (fun x : (Fin M → Fin q) × (Fin M → Fin q) =>
          psiLast c cu hashOf g q sk0 D stash node days U hU N n ω.1 ω.2.1 (pointsOf g ω.2.2.2.1) (keyOf q outs fulls ω.2.2.1)
            (fun j => residue (ω.2.2.2.2.1 j)) ω.2.2.2.2.2 x.1 x.2) =
        prob (fun x : (Fin M → Fin q) × (Fin M → Fin q) => game ω.1 ω.2.1 ω.2.2.1 ω.2.2.2.1 (fun j => residue (ω.2.2.2.2.1 j)) ω.2.2.2.2.2 x.1 x.2) := by
      intro ω
      exact (pay_shift hU hq hg (payOf fulls ω.2.2.1) (matchOf q outs ω.2.2.1) ω.1 ω.2.1 (pointsOf g ω.2.2.2.1) ω.2.2.2.2.1 ω.2.2.2.2.2).symm
    simp only [hpt]
    let f : (Fin (q - 1) × (Fin U.length → Fin q) × ((d : Fin n) → Equiv.Perm (Fin (N d))) × (Fin U.length → Fin (q - 1)) × (Fin M → Fin (q - 1)) × (Fin M → Fin (q - 1))) ×
        (Fin M → Fin q) × (Fin M → Fin q) → Bool := fun x =>
      game x.1.1 x.1.2.1 x.1.2.2.1 x.1.2.2.2.1 (fun j => residue (x.1.2.2.2.2.1 j)) x.1.2.2.2.2.2 x.2.1 x.2.2
    refine Eq.trans ?_ (prob_prod f)
    let e : (R × (Fin M → Fin q)) × (Fin M → Fin (q - 1)) ≃
        (Fin (q - 1) × (Fin U.length → Fin q) × ((d : Fin n) → Equiv.Perm (Fin (N d))) × (Fin U.length → Fin (q - 1)) × (Fin M → Fin (q - 1)) × (Fin M → Fin (q - 1))) ×
        (Fin M → Fin q) × (Fin M → Fin q) :=
      { toFun := fun y => ((y.1.1.1, y.1.1.2.1, y.1.1.2.2.1, y.1.1.2.2.2.1, y.2, y.1.1.2.2.2.2.1), y.1.2, y.1.1.2.2.2.2.2)
        invFun := fun x => (((x.1.1, x.1.2.1, x.1.2.2.1, x.1.2.2.2.1, x.1.2.2.2.2.2, x.2.2), x.2.1), x.1.2.2.2.2.1)
        left_inv := fun _ => rfl, right_inv := fun _ => rfl }
    exact prob_equiv e f
  rw [hL, ← hRt]
  rw [hT] at s1
  have e2 : (2 : ℚ) * (M : ℚ) / q = (M : ℚ) / q + (M : ℚ) / q := by ring
  rw [e2]
  rw [abs_le] at *
  constructor <;> linarith [s1.1, s1.2, s2.1, s2.2]

end

end Upsi.Hide
