import Verif.Main.OgStart
/- Property theorem C76: setup and run of the original protocol. -/
namespace Upsi.Main
open Upsi Upsi.Rec Upsi.ElGamal Upsi.Tree Upsi.Proto Upsi.Setup Upsi.Wire Upsi.Data

variable {G : Type} [AddCommGroup G] [DecidableEq G]

omit [AddCommGroup G] [DecidableEq G] in
theorem ogX_mkDays {xs ys : List (List Nat)} (h : xs.length = ys.length) (coins : Nat → OgCoins G) :
    ogX (mkOgDays xs ys coins) = xs.flatten := by
  unfold ogX mkOgDays
  rw [mapIdx_flatMap (fun i p => (⟨p.1, p.2, coins i⟩ : OgDay G)) _ (fun e : List Nat × List Nat => e.1) (fun _ _ => rfl), zip_flatMap_l (fun x => x) xs ys h]
  exact List.flatMap_id

omit [AddCommGroup G] [DecidableEq G] in
theorem ogY_mkDays {xs ys : List (List Nat)} (h : xs.length = ys.length) (coins : Nat → OgCoins G) :
    ogY (mkOgDays xs ys coins) = ys.flatten := by
  unfold ogY mkOgDays
  rw [mapIdx_flatMap (fun i p => (⟨p.1, p.2, coins i⟩ : OgDay G)) _ (fun e : List Nat × List Nat => e.2) (fun _ _ => rfl), zip_flatMap_r (fun x => x) xs ys h]
  exact List.flatMap_id

omit [AddCommGroup G] [DecidableEq G] in
theorem mem_mkOgDays {xs ys : List (List Nat)} {coins : Nat → OgCoins G} {d : OgDay G}
    (h : d ∈ mkOgDays xs ys coins) : ∃ i, i < xs.length ∧ d.xs ∈ xs ∧ d.ys ∈ ys ∧ d.coins = coins i := by
  unfold mkOgDays at h
  obtain ⟨i, hi, e⟩ := List.mem_mapIdx.1 h
  have hm : ((xs.zip ys)[i]) ∈ xs.zip ys := List.getElem_mem hi
  obtain ⟨m1, m2⟩ := List.of_mem_zip (a := ((xs.zip ys)[i]).1) (b := ((xs.zip ys)[i]).2) hm
  subst e
  rw [List.length_zip] at hi
  exact ⟨i, by omega, m1, m2, rfl⟩

theorem kv_values (hx : List (Nat × List UInt8)) :
    (hx.map (fun p => (digits p.1, p.2))).map (fun x => (digitsValue x.1, x.2)) = hx := by
  rw [List.map_map]
  conv_rhs => rw [← List.map_id hx]
  exact List.map_congr_left (fun p _ => by simp [(digits_spec p.1).2.2])

/-- What the parties start with. -/
theorem FoundOg.start {c cu : Codec G} {H : Nat → G} {hashOf : Nat → List Bool} (hh : ∀ e, (hashOf e).length = 256)
    {L B stash node : Nat} {f : SetupFlags} {fs : FS} {o : OgSetupOut} {S : Setup G} {gs : GenSets}
    (F : FoundOg c cu H hashOf L B stash node f fs o S gs) (hf : SizesOK L B S.q stash node f) (l1 : o.lost1 = []) :
    ∃ s, startOg c cu stash node (RunFlags.of f) o.fs = .ok ⟨⟨S.og.pk0, S.og.pk1, S.sk0⟩, ⟨S.og.pk1, S.og.pk0, S.sk1⟩,
        gs.days0.map (fun d => d.elements.map digitsValue), gs.days1.map (fun d => d.elements.map digitsValue), s⟩ ∧
      OgInv S cu H hashOf B (gs.tree0.elements.map digitsValue) (gs.tree1.elements.map digitsValue) s ∧
      s.p0.intersection = [] := by
  have T : ∃ s, startOgTrees c cu stash node (RunFlags.of f) o.fs = .ok s ∧
      OgInv S cu H hashOf B (gs.tree0.elements.map digitsValue) (gs.tree1.elements.map digitsValue) s ∧
      s.p0.intersection = [] := by
    by_cases hs : 0 < f.start
    · obtain ⟨⟨f1, hx, r1, r2, r3, sf⟩, -⟩ := F.init hs
      have ht := hf.total
      obtain ⟨s, e, -, e2, i1⟩ := importOg_inv hh sf (by rw [List.length_map, F.gen.t1.1]; omega)
      rw [l1] at e
      refine ⟨s, ?_, i1, e2⟩
      have r1 : readKey parsePTree ((RunFlags.of f).dataDir ++ "p1/" ++ "plaintext.tree") o.fs = .ok f1.plain := r1
      have r2 : readKey parseETree ((RunFlags.of f).dataDir ++ "p0/" ++ "encrypted.tree") o.fs = .ok f1.enc := r2
      have r3 : readKey parseOPRF ((RunFlags.of f).dataDir ++ "p0/" ++ "elements.ec") o.fs = .ok _ := r3
      rw [startOgTrees, if_pos (show (RunFlags.of f).trees = true from decide_eq_true hs), r2, r3, r1]
      simp only [orAbort, Outcome.bind_ok, kv_values]
      exact e
    · have h0 : gs.tree0.elements = [] := List.length_eq_zero_iff.1 (by rw [F.gen.t0.1]; omega)
      have h1 : gs.tree1.elements = [] := List.length_eq_zero_iff.1 (by rw [F.gen.t1.1]; omega)
      rw [h0, h1]
      refine ⟨_, ?_, OgInv.init S cu H hashOf B stash node, rfl⟩
      rw [startOgTrees, if_neg (by simpa [RunFlags.of] using hs)]
  obtain ⟨s, e, i1, e2⟩ := T
  refine ⟨s, ?_, i1, e2⟩
  unfold startOg
  have d0 : readDaily ((RunFlags.of f).dataDir ++ "p0/") o.fs (RunFlags.of f).days 1 = .ok gs.days0 := F.daily0
  have d1 : readDaily ((RunFlags.of f).dataDir ++ "p1/") o.fs (RunFlags.of f).days 1 = .ok gs.days1 := F.daily1
  have p0 : originalParty c (RunFlags.of f).outDir "p0" "p1" o.fs = _ := F.keys0
  have p1 : originalParty c (RunFlags.of f).outDir "p1" "p0" o.fs = _ := F.keys1
  rw [d0, Outcome.bind_ok, d1, Outcome.bind_ok,
    loadElems_ok _ (fun d hd e he => (F.gen.str0 d (by simp [hd]) e he).numeric hf.len hf.bound), Outcome.bind_ok,
    loadElems_ok _ (fun d hd e he => (F.gen.str1 d (by simp [hd]) e he).numeric hf.len hf.bound), Outcome.bind_ok,
    p0, Outcome.bind_ok, p1, Outcome.bind_ok, e]
  rfl

/-- The values of the elements setup draws. -/
def drawn (R : AddRand) : List Nat := (R.shared ++ R.fill0 ++ R.fill1).map digitsValue

/-- **C76** `original/setup.cc` draws keys and data for any flags, writes key files, data sets and (with `--start_size`) party
one's initial tree and the tags of party zero's initial elements, and prints the expected size of the intersection; both parties
of `original/run.cc` then read these files and run the protocol over the network.  If everything ends normally and no tree drops
an element, the elements party zero reports together with the elements common from the start (`initial`) are, each once, exactly
the shared elements setup drew, and the number it prints is the printed one; if it is below 30, the elements are printed, in
decimal notation. -/
theorem C76_original (c cu : Codec G) (g : G) (q : Nat) (hq : q.Prime) (hcard : Nat.card G = q) (hg : g ≠ 0) (H : Nat → G)
    (hashOf : Nat → List Bool) (hh : ∀ e, (hashOf e).length = 256) (L B stash node : Nat) (f : SetupFlags)
    (hf : SizesOK L B q stash node f) (hsh : f.shared < 2 ^ 31) (ρ : OgSetupRand) (hρ : ρ.OK L B q f)
    (hH : ∀ x ∈ drawn ρ.data, ∀ y ∈ drawn ρ.data, H x = H y → x = y)
    (coins : Nat → OgCoins G) (hc : ∀ i < f.days, OgCoinsOK B q f.daily (coins i)) (fs : FS) (o : OgSetupOut)
    (h : setupMainOg c cu g q H hashOf stash node f ρ fs = .ok o) (l1 : o.lost1 = [])
    (s : OgSt G) (ns : List Int)
    (hr : mainOg c cu q H hashOf stash node (RunFlags.of f) coins o.fs = .ok (s, ns)) (t1 : s.p1.lost = []) :
    ∃ gs, genAddOnly f.days f.daily f.start (sharedSize f).toNat f.maxValue.toNat ρ.data = .ok gs ∧
      (s.p0.intersection ++ (gs.tree0.elements.filter (fun e => e ∈ gs.tree1.elements)).map digitsValue).Perm
        (ρ.data.shared.map digitsValue) ∧
      (∀ n, o.printed = some n → ((shownOg s).1 : Int) = n) ∧
      ((shownOg s).1 < 30 → (shownOg s).2 = s.p0.intersection.map digits) ∧ ns.length = f.days := by
  obtain ⟨S, gs, rfl, rfl, F, hcom, hgen⟩ := og_found c cu g q hq hcard hg H hh hf hsh hρ h
  obtain ⟨s0, e, i1, e2⟩ := F.start hh hf l1
  rw [mainOg, e, Outcome.bind_ok] at hr
  have ht := hf.total
  have lenx : (gs.days0.map (fun d => d.elements.map digitsValue)).length = f.days := by rw [List.length_map, F.gen.len0]
  have leny : (gs.days1.map (fun d => d.elements.map digitsValue)).length = f.days := by rw [List.length_map, F.gen.len1]
  have hX := ogX_mkDays (lenx.trans leny.symm) coins
  have hY := ogY_mkDays (lenx.trans leny.symm) coins
  obtain ⟨g0, g1⟩ := gen_perm hρ.draws (by omega) hgen
  have m0 : ∀ x ∈ (allElements gs.tree0 gs.days0).map digitsValue, x ∈ drawn ρ.data := by
    intro x hx
    obtain ⟨e, he, rfl⟩ := List.mem_map.1 hx
    refine List.mem_map.2 ⟨e, ?_, rfl⟩
    have := g0.mem_iff.1 he
    simp only [List.mem_append] at this ⊢
    tauto
  have m1 : ∀ x ∈ (allElements gs.tree1 gs.days1).map digitsValue, x ∈ drawn ρ.data := by
    intro x hx
    obtain ⟨e, he, rfl⟩ := List.mem_map.1 hx
    refine List.mem_map.2 ⟨e, ?_, rfl⟩
    have := g1.mem_iff.1 he
    simp only [List.mem_append] at this ⊢
    tauto
  have hA : OgAdmissible S B H (gs.tree0.elements.map digitsValue) (gs.tree1.elements.map digitsValue)
      (mkOgDays (gs.days0.map (fun d => d.elements.map digitsValue)) (gs.days1.map (fun d => d.elements.map digitsValue)) coins) := by
    refine ⟨hf.order, F.nz0, F.nz1, fun d hd => ?_, ?_, ?_, ?_, ?_, ?_, ?_⟩
    · obtain ⟨i, hi, -, m2, e⟩ := mem_mkOgDays hd
      have C := hc i (by omega)
      rw [e]
      have ly : d.ys.length = f.daily := by
        obtain ⟨y, hy, e'⟩ := List.mem_map.1 m2
        rw [← e', List.length_map, (F.gen.day1 y hy).1]
      exact ⟨⟨C.hsh.1.trans ly.symm, C.hsh.2⟩, C.pads, C.beta, C.gamma, C.shuffle, C.mask⟩
    · rw [hX, flatten_elems]
      intro x hx
      obtain ⟨e, he, rfl⟩ := List.mem_map.1 hx
      exact (F.gen.all0 e he).2.2
    · rw [hY, flatten_elems]
      intro x hx
      obtain ⟨e, he, rfl⟩ := List.mem_map.1 hx
      exact (F.gen.all1 e he).2.2
    · rw [hX, flatten_elems]; exact nodup_values F.gen.all0 F.gen.nodup0
    · rw [hY, flatten_elems]; exact nodup_values F.gen.all1 F.gen.nodup1
    · rw [hY, flatten_elems, List.length_map, F.gen.total1]; omega
    · rw [hX, hY, flatten_elems, flatten_elems]
      have m : ∀ x ∈ (allElements gs.tree0 gs.days0).map digitsValue ++ (allElements gs.tree1 gs.days1).map digitsValue,
          x ∈ drawn ρ.data := fun x hx => (List.mem_append.1 hx).elim (m0 x) (m1 x)
      exact fun x hx y hy => hH x (m x hx) y (m y hy)
  obtain ⟨h1, h2⟩ := runNet_runDays
    (step := fun s (d : OgDay G) => dayOgRead S.q ⟨S.og.pk0, S.og.pk1, S.sk0⟩ ⟨S.og.pk1, S.og.pk0, S.sk1⟩ c cu H hashOf s d.xs d.ys d.coins)
    (step' := fun s (d : OgDay G) => dayOg S.og c cu H hashOf s d.xs d.ys d.coins)
    (fun s d s' n e => ((C73_original S.og c cu H hashOf s s' d.xs d.ys d.coins n).1 e).1) _ _ _ _ hr
  have R := Proto.Props.C48_original_from S c cu H hashOf hh B _ _ s0 i1 e2 _ hA s h1 t1
  rw [hX, hY, flatten_elems, flatten_elems, filter_values F.gen.all0 F.gen.all1,
    filter_values (F.gen.str0 gs.tree0 (by simp)) (F.gen.str1 gs.tree1 (by simp))] at R
  have R' := R.trans (hcom.map digitsValue)
  refine ⟨gs, hgen, R', fun n hp => ?_, fun hlt => ?_, ?_⟩
  · have Ln := R'.length_eq
    rw [List.length_append, List.length_map, List.length_map, hρ.draws.sharedLen] at Ln
    have hs := F.shared
    change (s.p0.intersection.length : Int) = n
    by_cases h0 : 0 < f.start
    · obtain ⟨-, hn, hy⟩ := F.init h0
      cases hx : f.expected with
      | false => rw [hn hx] at hp; simp at hp
      | true =>
        rw [hy hx] at hp
        have := Option.some.inj hp
        omega
    · have h00 : f.start = 0 := by omega
      rw [(F.fresh h00).2.1] at hp
      have := Option.some.inj hp
      have e0 : gs.tree0.elements = [] := List.length_eq_zero_iff.1 (by rw [F.gen.t0.1]; omega)
      rw [e0] at Ln
      simp only [List.filter_nil, List.length_nil] at Ln
      omega
  · unfold shownOg at hlt ⊢
    rw [if_pos hlt]
  · rw [h2, mkOgDays, List.length_mapIdx, List.length_zip, lenx, leny, Nat.min_self]

/-- **C76** Setup prints the expected size unless there are initial sets and `--expected=false`. -/
theorem C76_prints (c cu : Codec G) (g : G) (q : Nat) (hq : q.Prime) (hcard : Nat.card G = q) (hg : g ≠ 0) (H : Nat → G)
    (hashOf : Nat → List Bool) (hh : ∀ e, (hashOf e).length = 256) (L B stash node : Nat) (f : SetupFlags)
    (hf : SizesOK L B q stash node f) (hsh : f.shared < 2 ^ 31) (ρ : OgSetupRand) (hρ : ρ.OK L B q f) (fs : FS) (o : OgSetupOut)
    (h : setupMainOg c cu g q H hashOf stash node f ρ fs = .ok o) :
    o.printed = none ↔ 0 < f.start ∧ f.expected = false := by
  obtain ⟨S, gs, rfl, rfl, F, -⟩ := og_found c cu g q hq hcard hg H hh hf hsh hρ h
  by_cases hs : 0 < f.start
  · obtain ⟨-, hn, hy⟩ := F.init hs
    cases hx : f.expected with
    | false => simp [hn hx, hs]
    | true => simp [hy hx]
  · simp [(F.fresh (by omega)).2.1, hs]

/-- **C76** (known limitation) `original/run.cc` imports trees unless told not to: after a setup without initial sets, and with
no tree file left over from an earlier one, both parties run with their default flags end with an uncaught exception. -/
theorem C76_default_trees (c cu : Codec G) (g : G) (q : Nat) (hq : q.Prime) (hcard : Nat.card G = q) (hg : g ≠ 0) (H : Nat → G)
    (hashOf : Nat → List Bool) (hh : ∀ e, (hashOf e).length = 256) (L B stash node : Nat) (f : SetupFlags)
    (hf : SizesOK L B q stash node f) (hsh : f.shared < 2 ^ 31) (ρ : OgSetupRand) (hρ : ρ.OK L B q f) (fs : FS) (o : OgSetupOut)
    (h : setupMainOg c cu g q H hashOf stash node f ρ fs = .ok o) (h0 : f.start = 0)
    (hn : fs.data (canon (f.dataDir ++ "p0/" ++ "encrypted.tree")) = none) (coins : Nat → OgCoins G) :
    mainOg c cu q H hashOf stash node { RunFlags.of f with trees := true } coins o.fs = .abort := by
  obtain ⟨S, gs, rfl, rfl, F, -⟩ := og_found c cu g q hq hcard hg H hh hf hsh hρ h
  have hn' : o.fs.data (canon (f.dataDir ++ "p0/" ++ "encrypted.tree")) = none :=
    ((F.fresh h0).2.2 _ (by rw [canon_last]; exact tree_last _ _ _ (by decide))).trans hn
  have hr : orAbort (readKey parseETree (f.dataDir ++ "p0/" ++ "encrypted.tree") o.fs) = .abort := by
    unfold readKey readProtoFromFile openRead
    rw [hn']; rfl
  have T : startOgTrees c cu stash node { RunFlags.of f with trees := true } o.fs = .abort := by
    unfold startOgTrees
    rw [if_pos rfl]
    change Outcome.bind (orAbort (readKey parseETree (f.dataDir ++ "p0/" ++ "encrypted.tree") o.fs)) _ = _
    rw [hr]; rfl
  unfold mainOg startOg
  have d0 : readDaily (({ RunFlags.of f with trees := true } : RunFlags).dataDir ++ "p0/") o.fs ({ RunFlags.of f with trees := true } : RunFlags).days 1 = .ok gs.days0 := F.daily0
  have d1 : readDaily (({ RunFlags.of f with trees := true } : RunFlags).dataDir ++ "p1/") o.fs ({ RunFlags.of f with trees := true } : RunFlags).days 1 = .ok gs.days1 := F.daily1
  have p0 : originalParty c ({ RunFlags.of f with trees := true } : RunFlags).outDir "p0" "p1" o.fs = _ := F.keys0
  have p1 : originalParty c ({ RunFlags.of f with trees := true } : RunFlags).outDir "p1" "p0" o.fs = _ := F.keys1
  rw [d0, Outcome.bind_ok, d1, Outcome.bind_ok,
    loadElems_ok _ (fun d hd e he => (F.gen.str0 d (by simp [hd]) e he).numeric hf.len hf.bound), Outcome.bind_ok,
    loadElems_ok _ (fun d hd e he => (F.gen.str1 d (by simp [hd]) e he).numeric hf.len hf.bound), Outcome.bind_ok,
    p0, Outcome.bind_ok, p1, Outcome.bind_ok, T]
  rfl

/-! ### the printed number of bytes -/

theorem totalComm_eq (ns : List Int) : totalComm ns = ns.sum % 2 ^ 64 := by
  have : ∀ (ns : List Int) (t : Int), ns.foldl (fun t n => (t + n) % 2 ^ 64) (t % 2 ^ 64) = (t + ns.sum) % 2 ^ 64 := by
    intro ns
    induction ns with
    | nil => intro t; simp
    | cons n ns ih =>
      intro t
      rw [List.foldl_cons, Int.emod_add_emod, ih, List.sum_cons, Int.add_assoc]
  have h := this ns 0
  rw [Int.zero_add] at h
  exact h

/-- **C76** If the messages of day `i` have `bs[i]` bytes and the day's counter is an `int` as in the program, the total number of
bytes printed by party zero is the true one, provided no day reaches 2 GiB and the total is below `2^64`. -/
theorem C76_total (bs : List Nat) (hb : ∀ b ∈ bs, b < 2 ^ 31) (ht : bs.sum < 2 ^ 64) :
    totalComm (bs.map (fun b => int32 (b : Nat))) = bs.sum := by
  rw [totalComm_eq]
  have : (bs.map (fun b => int32 (b : Nat))).sum = (bs.sum : Int) := by
    clear ht
    induction bs with
    | nil => rfl
    | cons b bs ih =>
      rw [List.map_cons, List.sum_cons, ih (fun x hx => hb x (by simp [hx])), List.sum_cons, int32_small (hb b (by simp))]
      push_cast
      rfl
  rw [this]
  omega

/-- One day of 2 GiB makes the printed total wrong. -/
example : totalComm [int32 (2 ^ 31 : Nat)] = 18446744071562067968 := by decide

end Upsi.Main
