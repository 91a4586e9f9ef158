import Verif.Main.AddEnd
import Verif.Main.NetProps
import Verif.Main.NetOtherProps
import Verif.Proto.SSProps
/- Property theorem C74: setup's expected output is what the parties report. -/
namespace Upsi.Main
open Upsi Upsi.Rec Upsi.ElGamal Upsi.Tree Upsi.Proto Upsi.Setup Upsi.Wire Upsi.Data

variable {G : Type} [AddCommGroup G] [DecidableEq G]

theorem FoundWith.initial_length {Files : List (Nat × Int) → List Nat → TreeFiles → TreeFiles → List (Nat × Int) → List Nat → Prop} {c : Codec G}
    {L B : Nat} {f : SetupFlags} {o : SetupOut} {S : Setup G} {gs : GenSets} {k0 k1 : Paillier.TKey} (F : FoundWith Files c L B f o S gs k0 k1) :
    (initialMatches gs).length = (gs.tree0.elements.filter (fun e => e ∈ gs.tree1.elements)).length :=
  filter_zip_length (by rw [F.gen.t0.1, F.gen.t0.2]) (fun e => decide (e ∈ gs.tree1.elements))

theorem FoundWith.tree1_nodup {Files : List (Nat × Int) → List Nat → TreeFiles → TreeFiles → List (Nat × Int) → List Nat → Prop} {c : Codec G}
    {L B : Nat} {f : SetupFlags} {o : SetupOut} {S : Setup G} {gs : GenSets} {k0 k1 : Paillier.TKey} (F : FoundWith Files c L B f o S gs k0 k1) :
    (gs.tree1.elements.map digitsValue).Nodup :=
  nodup_values (F.gen.str1 gs.tree1 (by simp)) (List.nodup_append.1 F.gen.nodup1).1

theorem FoundWith.matched_init {Files : List (Nat × Int) → List Nat → TreeFiles → TreeFiles → List (Nat × Int) → List Nat → Prop} {c : Codec G}
    {L B : Nat} {f : SetupFlags} {o : SetupOut} {S : Setup G} {gs : GenSets} {k0 k1 : Paillier.TKey} (F : FoundWith Files c L B f o S gs k0 k1) :
    matched id (gs.tree0.elements.map digitsValue) (gs.tree1.elements.map digitsValue) =
      (gs.tree0.elements.filter (fun e => e ∈ gs.tree1.elements)).map digitsValue :=
  (matched_eq_filter id _ _ F.tree1_nodup).trans
    (filter_values (F.gen.str0 gs.tree0 (by simp)) (F.gen.str1 gs.tree1 (by simp)))

theorem FoundWith.matched_all {Files : List (Nat × Int) → List Nat → TreeFiles → TreeFiles → List (Nat × Int) → List Nat → Prop} {c : Codec G}
    {L B : Nat} {f : SetupFlags} {o : SetupOut} {S : Setup G} {gs : GenSets} {k0 k1 : Paillier.TKey} (F : FoundWith Files c L B f o S gs k0 k1) :
    matched id ((allElements gs.tree0 gs.days0).map digitsValue) ((allElements gs.tree1 gs.days1).map digitsValue) =
      ((allElements gs.tree0 gs.days0).filter (fun e => e ∈ allElements gs.tree1 gs.days1)).map digitsValue :=
  (matched_eq_filter id _ _ (nodup_values F.gen.all1 F.gen.nodup1)).trans (filter_values F.gen.all0 F.gen.all1)

/-- **C74** (cardinality) `addition/setup.cc` draws keys and data for any flags, writes key files, data sets and (with
`--start_size`) initial trees, and prints the expected cardinality; both parties of `addition/run.cc --func=CA` then read these
files and run the protocol over the network.  If everything ends normally and no tree drops an element, the cardinality party
zero reports is the printed one. -/
theorem C74_cardinality (c : Codec G) (g : G) (q : Nat) (hq : q.Prime) (hcard : Nat.card G = q) (hg : g ≠ 0)
    (hashOf : Nat → List Bool) (hh : ∀ e, (hashOf e).length = 256) (L B stash node : Nat) (f : SetupFlags)
    (hf : SizesOK L B q stash node f) (ρ : SetupRand) (hρ : ρ.OK L B q f) (coins : Nat → Coins G Nat Unit)
    (hc : ∀ i < f.days, DayCoinsOK id B q f.daily (coins i)) (fs : FS) (o : SetupOut)
    (h : setupMain c g q hashOf stash node f ρ fs = .ok o) (l0 : o.lost0 = []) (l1 : o.lost1 = []) (n m : Int)
    (hp : o.printed = some (n, m)) (s : StCA G) (ns : List Int)
    (hr : mainCA c hashOf stash node (RunFlags.of f) coins o.fs = .ok (s, ns)) (t0 : s.p0.lost = []) (t1 : s.p1.lost = []) :
    (s.cardinality : Int) = n ∧ ns.length = f.days := by
  obtain ⟨S, gs, k0, k1, rfl, rfl, F, -⟩ := setup_found c g q hq hcard hg hh hf hρ h
  obtain ⟨s0, s1, e, i1, -⟩ := F.start_nat hh hf l0 l1 c
  rw [mainCA, e, Outcome.bind_ok] at hr
  have lenx : (gs.days0.map (fun d => d.elements.map digitsValue)).length = f.days := by rw [List.length_map, F.gen.len0]
  have leny : (gs.days1.map (fun d => d.elements.map digitsValue)).length = f.days := by rw [List.length_map, F.gen.len1]
  have hA := F.adm hf (key := id) (xs := gs.days0.map (fun d => d.elements.map digitsValue)) (X0 := gs.tree0.elements.map digitsValue)
    (coins := coins) lenx (fun x hx => by
      obtain ⟨d, hd, rfl⟩ := List.mem_map.1 hx
      rw [List.length_map, (F.gen.day0 d hd).1]) (by rw [List.map_id, flatten_elems]) hc
  obtain ⟨h1, h2⟩ := runNet_runDays (step := fun s (d : DayIn G Nat Unit) => dayCANet c hashOf S.pk S.pk S.sk0 S.sk1 s d.xs d.ys d.coins)
    (step' := fun s d => dayCA c hashOf S.pk S.sk0 S.sk1 s d.xs d.ys d.coins)
    (fun s d s' n e => ((C73_cardinality c hashOf S.pk S.sk0 S.sk1 s s' d.xs d.ys d.coins n).1 e).1) _ _ _ _ hr
  have R := runCAFrom_spec hh hA (s := ⟨s0, s1, 0⟩) i1 h1 t0 t1
  rw [allX_mkDays (lenx.trans leny.symm), allY_mkDays (lenx.trans leny.symm), flatten_elems, flatten_elems, F.matched_init,
    F.matched_all, List.length_map, List.length_map, F.gen.common] at R
  rw [mkDays_length, lenx, leny, Nat.min_self] at h2
  refine ⟨?_, h2⟩
  have := (F.printed_ca hp).1
  rw [F.initial_length] at this
  have := F.shared
  change s.cardinality + _ = 0 + _ at R
  omega

/-- **C74** (PSI) The number of elements the PSI party reports is the printed cardinality; every element it names is one of the
shared elements setup drew; and without initial sets it names exactly these. -/
theorem C74_psi (c cu : Codec G) (g : G) (q : Nat) (hq : q.Prime) (hcard : Nat.card G = q) (hg : g ≠ 0)
    (hashOf : Nat → List Bool) (hh : ∀ e, (hashOf e).length = 256) (L B stash node : Nat) (f : SetupFlags)
    (hf : SizesOK L B q stash node f) (ρ : SetupRand) (hρ : ρ.OK L B q f) (coins : Nat → Coins G Nat (Ct G))
    (hc : ∀ i < f.days, DayCoinsOK id B q f.daily (coins i)) (fs : FS) (o : SetupOut)
    (h : setupMain c g q hashOf stash node f ρ fs = .ok o) (l0 : o.lost0 = []) (l1 : o.lost1 = []) (n m : Int)
    (hp : o.printed = some (n, m)) (s : StPSI G) (ns : List Int)
    (hr : mainPSI c cu hashOf stash node (RunFlags.of f) coins o.fs = .ok (s, ns)) (t0 : s.p0.lost = []) (t1 : s.p1.lost = []) :
    (s.intersection.length : Int) = n ∧
    (∀ x, some x ∈ s.intersection → x ∈ ρ.data.shared.map digitsValue) ∧
    (f.start = 0 → s.intersection.Perm (ρ.data.shared.map (fun e => some (digitsValue e)))) ∧ ns.length = f.days := by
  obtain ⟨S, gs, k0, k1, rfl, rfl, F, -, -, -, hcom, -⟩ := setup_found c g q hq hcard hg hh hf hρ h
  obtain ⟨s0, s1, e, -, i1⟩ := F.start_nat hh hf l0 l1 cu
  rw [mainPSI, e, Outcome.bind_ok] at hr
  have lenx : (gs.days0.map (fun d => d.elements.map digitsValue)).length = f.days := by rw [List.length_map, F.gen.len0]
  have leny : (gs.days1.map (fun d => d.elements.map digitsValue)).length = f.days := by rw [List.length_map, F.gen.len1]
  have hA := F.adm hf (key := id) (xs := gs.days0.map (fun d => d.elements.map digitsValue)) (X0 := gs.tree0.elements.map digitsValue)
    (coins := coins) lenx (fun x hx => by
      obtain ⟨d, hd, rfl⟩ := List.mem_map.1 hx
      rw [List.length_map, (F.gen.day0 d hd).1]) (by rw [List.map_id, flatten_elems]) hc
  obtain ⟨h1, h2⟩ := runNet_runDays (step := fun s (d : DayIn G Nat (Ct G)) => dayPSINet c cu hashOf S.pk S.pk S.sk0 S.sk1 s d.xs d.ys d.coins)
    (step' := fun s d => dayPSI c cu hashOf S.pk S.sk0 S.sk1 s d.xs d.ys d.coins)
    (fun s d s' n e => ((C73_psi c cu hashOf S.pk S.sk0 S.sk1 s s' d.xs d.ys d.coins n).1 e).1) _ _ _ _ hr
  have hX := allX_mkDays (lenx.trans leny.symm) coins
  have hdis : ∀ x ∈ gs.tree0.elements.map digitsValue, x ∉ [] ++ allX (mkDays (gs.days0.map (fun d => d.elements.map digitsValue))
      (gs.days1.map (fun d => d.elements.map digitsValue)) coins) := by
    have nd := nodup_values F.gen.all0 F.gen.nodup0
    rw [← flatten_elems] at nd
    rw [List.nil_append, hX]
    exact fun x hx hx' => (List.nodup_append.1 nd).2.2 x hx x hx' rfl
  obtain ⟨-, -, R⟩ := runPSIFrom_spec (S := S) (c := c) (cu := cu) hh hf.order (X0 := gs.tree0.elements.map digitsValue)
    (mkDays (gs.days0.map (fun d : Dataset => d.elements.map digitsValue))
      (gs.days1.map (fun d : Dataset => d.elements.map digitsValue)) coins) [] (gs.tree1.elements.map digitsValue) ⟨s0, s1, [], []⟩ s hA.coins
    (by rw [List.append_nil]; exact hA.x) hA.y (by rw [List.append_nil]; exact hA.sizeX) hA.sizeY hdis
    (by rw [List.append_nil]; exact i1) ⟨by simp, by simp⟩ h1
  have R := R t0 t1
  rw [List.append_nil, hX, allY_mkDays (lenx.trans leny.symm), flatten_elems, flatten_elems, F.matched_init, F.matched_all] at R
  rw [mkDays_length, lenx, leny, Nat.min_self] at h2
  have hlab : ∀ y, some y ∈ ((((allElements gs.tree0 gs.days0).filter (fun e => e ∈ allElements gs.tree1 gs.days1)).map digitsValue).map
      (label (gs.tree0.elements.map digitsValue))) → y ∈ ρ.data.shared.map digitsValue := by
    intro y hy
    obtain ⟨x, hx, e⟩ := List.mem_map.1 hy
    unfold label at e
    split at e
    · simp at e
    · obtain rfl := Option.some.inj e
      exact (hcom.map _).mem_iff.1 hx
  refine ⟨?_, fun x hx => hlab x ?_, fun h0 => ?_, h2⟩
  · have L := R.length_eq
    rw [List.length_append, List.length_map, List.length_map, List.length_append, List.length_map, List.length_map, F.gen.common] at L
    have := (F.printed_ca hp).1
    rw [F.initial_length] at this
    have := F.shared
    change _ = 0 + _ at L
    omega
  · have := R.mem_iff.1 (List.mem_append_left _ hx)
    exact (List.mem_append.1 this).resolve_left (by simp)
  · have e0 : gs.tree0.elements = [] := List.length_eq_zero_iff.1 (by rw [F.gen.t0.1]; omega)
    rw [e0] at R
    simp only [List.filter_nil, List.map_nil, List.append_nil] at R
    refine R.trans ?_
    have := (hcom.map digitsValue).map some
    rw [List.map_map, List.map_map] at this
    refine List.Perm.trans (List.Perm.of_eq ?_) this
    rw [List.nil_append, List.map_map]
    exact List.map_congr_left (fun x _ => by simp [label])

/-- Everything about the result of the sum protocol. -/
theorem sum_core (c : Codec G) (g : G) (q : Nat) (hq : q.Prime) (hcard : Nat.card G = q) (hg : g ≠ 0) (limit : Nat)
    (hlim : limit ≤ 2 ^ 64) (hlimq : limit ≤ q)
    (hashOf : Nat → List Bool) (hh : ∀ e, (hashOf e).length = 256) (L B stash node : Nat) (f : SetupFlags)
    (hf : SizesOK L B q stash node f) (hsm : sharedSize f * f.maxValue < q) (ρ : SetupRand) (hρ : ρ.OK L B q f)
    (coins : Nat → Coins G (Nat × Int) (Ct G)) (hc : ∀ i < f.days, DayCoinsOK Prod.fst B q f.daily (coins i)) (fs : FS) (o : SetupOut)
    (h : setupMain c g q hashOf stash node f ρ fs = .ok o) (l0 : o.lost0 = []) (l1 : o.lost1 = []) (n m : Int)
    (hp : o.printed = some (n, m)) (s : StSum G) (ns : List Int)
    (hr : mainSum c limit hashOf stash node (RunFlags.of f) coins o.fs = .ok (s, ns)) (t0 : s.p0.lost = []) (t1 : s.p1.lost = []) :
    ∃ gs, genAddOnly f.days f.daily f.start (sharedSize f).toNat f.maxValue.toNat ρ.data = .ok gs ∧ (s.cardinality : Int) = n ∧
      (s.sum.toNat : Int) = gs.sum - ((initialMatches gs).map Prod.snd).sum ∧
      m = gs.sum - int32 (((initialMatches gs).map Prod.snd).sum) ∧ 0 ≤ ((initialMatches gs).map Prod.snd).sum ∧
      (f.start * f.maxValue ≤ 2 ^ 31 → ((initialMatches gs).map Prod.snd).sum < 2 ^ 31) ∧ ns.length = f.days := by
  obtain ⟨S, gs, k0, k1, rfl, rfl, F, -, -, -, -, hgen⟩ := setup_found c g q hq hcard hg hh hf hρ h
  obtain ⟨s0, s1, e, i1⟩ := F.start_pairs hh hf l0 l1
  rw [mainSum, e, Outcome.bind_ok] at hr
  have lenx : (gs.days0.map rows).length = f.days := by rw [List.length_map, F.gen.len0]
  have leny : (gs.days1.map (fun d => d.elements.map digitsValue)).length = f.days := by rw [List.length_map, F.gen.len1]
  have hrows : rows gs.tree0 ++ (gs.days0.map rows).flatten =
      ((allElements gs.tree0 gs.days0).map digitsValue).zip (allValues gs.tree0 gs.days0) :=
    zip_flatten_rows gs.tree0 gs.days0 (by rw [F.gen.t0.1, F.gen.t0.2]) (fun d hd => by rw [(F.gen.day0 d hd).1, (F.gen.day0 d hd).2])
  have hA := F.adm hf (key := Prod.fst) (xs := gs.days0.map rows) (X0 := rows gs.tree0)
    (coins := coins) lenx (fun x hx => by
      obtain ⟨d, hd, rfl⟩ := List.mem_map.1 hx
      rw [rows, List.length_zip, List.length_map, (F.gen.day0 d hd).1, (F.gen.day0 d hd).2, Nat.min_self])
    (by rw [hrows, List.map_fst_zip (by rw [List.length_map, F.gen.total0, F.gen.totalV])]) hc
  have hX := allX_mkDays (lenx.trans leny.symm) coins
  have hY := allY_mkDays (lenx.trans leny.symm) coins
  have M : matched Prod.fst (rows gs.tree0 ++ allX (mkDays (gs.days0.map rows) (gs.days1.map (fun d => d.elements.map digitsValue)) coins))
      (gs.tree1.elements.map digitsValue ++ allY (mkDays (gs.days0.map rows) (gs.days1.map (fun d => d.elements.map digitsValue)) coins)) =
      (((allElements gs.tree0 gs.days0).zip (allValues gs.tree0 gs.days0)).filter
        (fun e => e.1 ∈ allElements gs.tree1 gs.days1)).map (Prod.map digitsValue id) := by
    rw [hX, hY, hrows, flatten_elems]
    exact (matched_eq_filter Prod.fst _ _ (nodup_values F.gen.all1 F.gen.nodup1)).trans
      (filter_zip_values _ F.gen.all0 F.gen.all1)
  have M0 : matched Prod.fst (rows gs.tree0) (gs.tree1.elements.map digitsValue) =
      (initialMatches gs).map (Prod.map digitsValue id) :=
    (matched_eq_filter Prod.fst _ _ F.tree1_nodup).trans
      (filter_zip_values _ (F.gen.str0 gs.tree0 (by simp)) (F.gen.str1 gs.tree1 (by simp)))
  have V : valueSum (matched Prod.fst (rows gs.tree0 ++ allX (mkDays (gs.days0.map rows) (gs.days1.map (fun d => d.elements.map digitsValue)) coins))
      (gs.tree1.elements.map digitsValue ++ allY (mkDays (gs.days0.map rows) (gs.days1.map (fun d => d.elements.map digitsValue)) coins))) = gs.sum := by
    rw [M, sum_values, F.gen.sum]; rfl
  have hpos0 : ∀ p ∈ rows gs.tree0 ++ allX (mkDays (gs.days0.map rows) (gs.days1.map (fun d => d.elements.map digitsValue)) coins), 0 ≤ p.2 := by
    rw [hX, hrows]
    intro p hp
    exact (F.gen.valsAll _ (List.of_mem_zip (a := p.1) (b := p.2) hp).2).1
  obtain ⟨h1, h2⟩ := runNet_runDays (step := fun s (d : DayIn G (Nat × Int) (Ct G)) => daySumNet c limit hashOf S.pk S.pk S.sk0 S.sk1 s d.xs d.ys d.coins)
    (step' := fun s d => daySum c limit hashOf S.pk S.sk0 S.sk1 s d.xs d.ys d.coins)
    (fun s d s' n e => ((C73_sum c limit hashOf S.pk S.sk0 S.sk1 s s' d.xs d.ys d.coins n).1 e).1) _ _ _ _ hr
  have hmx : ((sharedSize f).toNat : Int) * (f.maxValue.toNat : Int) = sharedSize f * f.maxValue := by
    rw [Int.toNat_of_nonneg F.shared, Int.toNat_of_nonneg (by have := hf.maxPos; omega)]
  obtain ⟨R1, R2⟩ := runSumFrom_spec hh hA hlim hlimq hpos0
    (by rw [V]; exact lt_of_le_of_lt F.gen.sum_le (by rw [hmx]; exact hsm)) (s := ⟨s0, s1, 0, 0⟩) i1 rfl rfl h1 t0 t1
  rw [V, M0, sum_values] at R2
  rw [M, M0, List.length_map, List.length_map] at R1
  rw [mkDays_length, lenx, leny, Nat.min_self] at h2
  have fl : (((allElements gs.tree0 gs.days0).zip (allValues gs.tree0 gs.days0)).filter
        (fun e => e.1 ∈ allElements gs.tree1 gs.days1)).length = (sharedSize f).toNat :=
    (filter_zip_length (by rw [F.gen.total0, F.gen.totalV]) (fun e => decide (e ∈ allElements gs.tree1 gs.days1))).trans F.gen.common
  rw [fl] at R1
  obtain ⟨P1, P2⟩ := F.printed_ca hp
  have shp := F.shared
  have h63 := F.sumSmall
  -- the initial sum
  have hle : ∀ l : List (Data.Bytes × Int), (∀ e ∈ l, 0 ≤ e.2 ∧ e.2 < f.maxValue.toNat) →
      0 ≤ (l.map Prod.snd).sum ∧ (l.map Prod.snd).sum ≤ l.length * (f.maxValue - 1) := by
    intro l
    induction l with
    | nil => intro _; simp
    | cons e l ih =>
      intro hl
      obtain ⟨h1, h1'⟩ := ih (fun x hx => hl x (by simp [hx]))
      have h2 := hl e (by simp)
      have := hf.maxPos
      simp only [List.map_cons, List.sum_cons, List.length_cons]
      push_cast
      rw [Int.add_mul]
      omega
  have hI : 0 ≤ ((initialMatches gs).map Prod.snd).sum ∧ ((initialMatches gs).map Prod.snd).sum ≤
      (initialMatches gs).length * (f.maxValue - 1) :=
    hle _ (fun e he => F.gen.vals gs.tree0 (by simp) e.2 (List.of_mem_zip (a := e.1) (b := e.2) (List.mem_filter.1 he).1).2)
  have hIle : ((initialMatches gs).map Prod.snd).sum ≤ gs.sum := by
    rw [F.gen.sum, sharedSum]
    have ez : (allElements gs.tree0 gs.days0).zip (allValues gs.tree0 gs.days0) = gs.tree0.elements.zip gs.tree0.values ++
        (gs.days0.flatMap (·.elements)).zip (gs.days0.flatMap (·.values)) := by
      rw [allElements, allValues, List.zip_append (by rw [F.gen.t0.1, F.gen.t0.2])]
    rw [ez, List.filter_append, List.map_append, List.sum_append]
    have hsub : ∀ l : List (Data.Bytes × Int), (∀ e ∈ l, 0 ≤ e.2 ∧ e.2 < f.maxValue.toNat) →
        ((l.filter (fun e => e.1 ∈ gs.tree1.elements)).map Prod.snd).sum ≤
          ((l.filter (fun e => e.1 ∈ allElements gs.tree1 gs.days1)).map Prod.snd).sum := by
      intro l
      induction l with
      | nil => intro _; simp
      | cons e l ih =>
        intro hl
        have h1 := ih (fun x hx => hl x (by simp [hx]))
        have h2 := hl e (by simp)
        by_cases he : e.1 ∈ gs.tree1.elements
        · have he' : e.1 ∈ allElements gs.tree1 gs.days1 := List.mem_append_left _ he
          simp only [he, he', decide_true, List.filter_cons_of_pos, List.map_cons, List.sum_cons]
          omega
        · by_cases he' : e.1 ∈ allElements gs.tree1 gs.days1
          · simp only [he, he', decide_true, decide_false, Bool.false_eq_true, not_false_eq_true, List.filter_cons_of_neg,
              List.filter_cons_of_pos, List.map_cons, List.sum_cons]
            omega
          · simp only [he, he', decide_false, Bool.false_eq_true, not_false_eq_true, List.filter_cons_of_neg]
            exact h1
    have a1 := hsub (gs.tree0.elements.zip gs.tree0.values) (fun e he => F.gen.vals gs.tree0 (by simp) e.2
      (List.of_mem_zip (a := e.1) (b := e.2) he).2)
    have a2 := (hle (((gs.days0.flatMap (·.elements)).zip (gs.days0.flatMap (·.values))).filter
      (fun e => e.1 ∈ allElements gs.tree1 gs.days1)) (fun e he => by
        obtain ⟨d, hd, hv⟩ := List.mem_flatMap.1 (List.of_mem_zip (a := e.1) (b := e.2) (List.mem_filter.1 he).1).2
        exact F.gen.vals d (by simp [hd]) e.2 hv)).1
    unfold initialMatches
    omega
  have il : (initialMatches gs).length ≤ f.start := by
    unfold initialMatches
    refine le_trans (List.length_filter_le _ _) ?_
    rw [List.length_zip, F.gen.t0.1]
    omega
  refine ⟨gs, hgen, by omega, ?_, P2, hI.1, fun hs => ?_, h2⟩
  · generalize ((initialMatches gs).map Prod.snd).sum = I at R2 hI hIle
    rw [R2]; omega
  · by_cases h0 : f.start = 0
    · have : (initialMatches gs).length = 0 := by omega
      rw [this] at hI
      omega
    · have b1 : ((initialMatches gs).length : Int) * (f.maxValue - 1) ≤ f.start * (f.maxValue - 1) :=
        Int.mul_le_mul_of_nonneg_right (by exact_mod_cast il) (by have := hf.maxPos; omega)
      have b2 : (f.start : Int) * (f.maxValue - 1) = f.start * f.maxValue - f.start := by rw [Int.mul_sub, Int.mul_one]
      omega

/-- **C74** (sum) The sum party reports the printed cardinality and a sum that agrees with the printed one modulo `2^32`; it is
the printed one when the initial matches' values cannot reach `2^31` (setup sums these up in an `int`). -/
theorem C74_sum (c : Codec G) (g : G) (q : Nat) (hq : q.Prime) (hcard : Nat.card G = q) (hg : g ≠ 0) (limit : Nat)
    (hlim : limit ≤ 2 ^ 64) (hlimq : limit ≤ q)
    (hashOf : Nat → List Bool) (hh : ∀ e, (hashOf e).length = 256) (L B stash node : Nat) (f : SetupFlags)
    (hf : SizesOK L B q stash node f) (hsm : sharedSize f * f.maxValue < q) (ρ : SetupRand) (hρ : ρ.OK L B q f)
    (coins : Nat → Coins G (Nat × Int) (Ct G)) (hc : ∀ i < f.days, DayCoinsOK Prod.fst B q f.daily (coins i)) (fs : FS) (o : SetupOut)
    (h : setupMain c g q hashOf stash node f ρ fs = .ok o) (l0 : o.lost0 = []) (l1 : o.lost1 = []) (n m : Int)
    (hp : o.printed = some (n, m)) (s : StSum G) (ns : List Int)
    (hr : mainSum c limit hashOf stash node (RunFlags.of f) coins o.fs = .ok (s, ns)) (t0 : s.p0.lost = []) (t1 : s.p1.lost = []) :
    (s.cardinality : Int) = n ∧ (s.sum.toNat : Int) % 2 ^ 32 = m % 2 ^ 32 ∧
    (f.start * f.maxValue ≤ 2 ^ 31 → (s.sum.toNat : Int) = m) ∧ ns.length = f.days := by
  obtain ⟨gs, -, a1, a2, a3, a4, a5, a6⟩ := sum_core c g q hq hcard hg limit hlim hlimq hashOf hh L B stash node f hf hsm ρ hρ coins hc
    fs o h l0 l1 n m hp s ns hr t0 t1
  generalize ((initialMatches gs).map Prod.snd).sum = I at a2 a3 a4 a5
  refine ⟨a1, ?_, fun hs => ?_, a6⟩
  · rw [a2, a3]; unfold int32; omega
  · rw [a2, a3, int32_range I (by omega) (a5 hs)]

/-- **C74** (sum, known limitation) What is wrong otherwise: if the values of the initial matches add up to at least `2^31`, the
sum setup prints is not the one the protocol reports. -/
theorem C74_sum_wrap (c : Codec G) (g : G) (q : Nat) (hq : q.Prime) (hcard : Nat.card G = q) (hg : g ≠ 0) (limit : Nat)
    (hlim : limit ≤ 2 ^ 64) (hlimq : limit ≤ q)
    (hashOf : Nat → List Bool) (hh : ∀ e, (hashOf e).length = 256) (L B stash node : Nat) (f : SetupFlags)
    (hf : SizesOK L B q stash node f) (hsm : sharedSize f * f.maxValue < q) (ρ : SetupRand) (hρ : ρ.OK L B q f)
    (coins : Nat → Coins G (Nat × Int) (Ct G)) (hc : ∀ i < f.days, DayCoinsOK Prod.fst B q f.daily (coins i)) (fs : FS) (o : SetupOut)
    (h : setupMain c g q hashOf stash node f ρ fs = .ok o) (l0 : o.lost0 = []) (l1 : o.lost1 = []) (n m : Int)
    (hp : o.printed = some (n, m)) (s : StSum G) (ns : List Int)
    (hr : mainSum c limit hashOf stash node (RunFlags.of f) coins o.fs = .ok (s, ns)) (t0 : s.p0.lost = []) (t1 : s.p1.lost = []) :
    ∃ gs, genAddOnly f.days f.daily f.start (sharedSize f).toNat f.maxValue.toNat ρ.data = .ok gs ∧
      (2 ^ 31 ≤ ((initialMatches gs).map Prod.snd).sum → (s.sum.toNat : Int) < m) := by
  obtain ⟨gs, hg, a1, a2, a3, a4, a5, a6⟩ := sum_core c g q hq hcard hg limit hlim hlimq hashOf hh L B stash node f hf hsm ρ hρ coins hc
    fs o h l0 l1 n m hp s ns hr t0 t1
  refine ⟨gs, hg, fun hI => ?_⟩
  generalize ((initialMatches gs).map Prod.snd).sum = I at a2 a3 a4 a5 hI
  rw [a2, a3]; unfold int32; omega

/-- Two matching elements with payloads of 31 bits already wrap. -/
example : initGo [[49], [50]] [[49], [50]] [2 ^ 30, 2 ^ 30] (0, 0) = .ok (2, -2 ^ 31) := by decide

/-- **C74** Setup prints the expected result unless there are initial sets and `--expected=false`. -/
theorem C74_prints (c : Codec G) (g : G) (q : Nat) (hq : q.Prime) (hcard : Nat.card G = q) (hg : g ≠ 0)
    (hashOf : Nat → List Bool) (hh : ∀ e, (hashOf e).length = 256) (L B stash node : Nat) (f : SetupFlags)
    (hf : SizesOK L B q stash node f) (ρ : SetupRand) (hρ : ρ.OK L B q f) (fs : FS) (o : SetupOut)
    (h : setupMain c g q hashOf stash node f ρ fs = .ok o) :
    o.printed = none ↔ 0 < f.start ∧ f.expected = false := by
  obtain ⟨S, gs, k0, k1, rfl, rfl, F, -⟩ := setup_found c g q hq hcard hg hh hf hρ h
  by_cases hs : 0 < f.start
  · obtain ⟨-, hn, hy⟩ := F.init hs
    cases hx : f.expected with
    | false => simp [hn hx, hs]
    | true => simp [hy hx]
  · simp [(F.fresh (by omega)).2.2, hs]

/-- **C74** The elements `GetRandomSetElement` draws are digit strings as `SetupRand.OK` asks for, with `L = 16`, `B = 10^15`. -/
theorem C74_random_elements (rnd : List Nat) (h : 15 ≤ rnd.length) : DigitString 16 (10 ^ 15) (randomSetElement rnd) := by
  obtain ⟨h1, h2⟩ := C40_set_range rnd h
  refine ⟨?_, h1.2.1, h2⟩
  unfold randomSetElement randomNumericString
  rw [List.length_cons, List.length_map, List.length_take]
  unfold elementStrLength
  omega

/-- **C74** (secret shares) Without initial sets, the shares the two parties end up with add up (modulo the Paillier modulus), in
some order, to exactly the shared elements setup drew; their number is the printed cardinality. -/
theorem C74_shares (c : Codec G) (g : G) (q : Nat) (hq : q.Prime) (hcard : Nat.card G = q) (hg : g ≠ 0)
    (mont : Int → Option Num.Mont) (hm : Paillier.MontOK mont) (u v : Nat) (huv : Paillier.Primes u v 1) (x0 x1 : Int)
    (hx0 : Int.gcd x0 ((u * v : Nat) : Int) = 1) (hx1 : Int.gcd x1 ((u * v : Nat) : Int) = 1)
    (hashOf : Nat → List Bool) (hh : ∀ e, (hashOf e).length = 256) (L B stash node : Nat) (f : SetupFlags)
    (hf : SizesOK L B q stash node f) (h0 : f.start = 0) (ρ : SetupRand) (hρ : ρ.OK L B q f)
    (hu : ρ.paillier.p = u) (hv : ρ.paillier.q = v)
    (coins : Nat → Coins G (Nat × Int) Int) (hc : ∀ i < f.days, DayCoinsOK Prod.fst B q f.daily (coins i)) (fs : FS) (o : SetupOut)
    (h : setupMain c g q hashOf stash node f ρ fs = .ok o) (n m : Int)
    (hp : o.printed = some (n, m)) (s : StSS G) (ns : List Int)
    (hr : mainSS c mont x0 x1 hashOf stash node (RunFlags.of f) coins o.fs = .ok (s, ns)) (t0 : s.p0.lost = []) (t1 : s.p1.lost = []) :
    (s.shares0.length : Int) = n ∧ (s.shares1.length : Int) = n ∧
    (List.zipWith (fun x y => (x + y) % ((u * v : Nat) : Int)) s.shares0 s.shares1).Perm
      (ρ.data.shared.map (fun e => (digitsValue e : Int))) ∧ ns.length = f.days := by
  obtain ⟨S, gs, k0, k1, rfl, rfl, F, -, -, hth, hcom, -⟩ := setup_found c g q hq hcard hg hh hf hρ h
  have e0 : gs.tree0.elements = [] := List.length_eq_zero_iff.1 (by rw [F.gen.t0.1]; omega)
  have e1 : gs.tree1.elements = [] := List.length_eq_zero_iff.1 (by rw [F.gen.t1.1]; omega)
  have e : start (γ := Ct G × Int) c decNatPair (deserPaillier c) loadPairs stash node (RunFlags.of f) o.fs =
      .ok ⟨⟨S.pk, S.sk0, k0⟩, ⟨S.pk, S.sk1, k1⟩, gs.days0.map rows, gs.days1.map (fun d => d.elements.map digitsValue),
        St0.init stash node, St1.init stash node⟩ := by
    unfold start
    have d0 : readDaily ((RunFlags.of f).dataDir ++ "p0/") o.fs (RunFlags.of f).days 1 = .ok gs.days0 := F.daily0
    have d1 : readDaily ((RunFlags.of f).dataDir ++ "p1/") o.fs (RunFlags.of f).days 1 = .ok gs.days1 := F.daily1
    have p0 : additionParty c (RunFlags.of f).outDir "p0" o.fs = _ := F.keys0
    have p1 : additionParty c (RunFlags.of f).outDir "p1" o.fs = _ := F.keys1
    rw [d0, Outcome.bind_ok, d1, Outcome.bind_ok, p0, Outcome.bind_ok, p1, Outcome.bind_ok, startTrees,
      if_neg (by simp [RunFlags.of, h0]), Outcome.bind_ok]
    rw [loadPairs_ok _ (F.num0 hf) (fun d hd => by rw [(F.gen.day0 d hd).1, (F.gen.day0 d hd).2])
      (fun d hd v hv => by have := (F.gen.vals d (by simp [hd]) v hv).1; omega)]
    change Outcome.bind _ _ = _
    rw [loadElems_ok _ (F.num1 hf)]
    rfl
  rw [hu, hv] at hth
  have K := Paillier.C23_keys (by have := huv.p5; omega) (by have := huv.q5; omega) hth
  rw [mainSS, e, Outcome.bind_ok] at hr
  simp only [K.n1, K.n2, Outcome.bind_eq_ok] at hr
  obtain ⟨pa, ha, pb, hb, hr⟩ := hr
  obtain ⟨pa', ha', ka⟩ := Paillier.public_new huv x0 hx0
  obtain ⟨pb', hb', kb⟩ := Paillier.public_new huv x1 hx1
  obtain rfl := Outcome.ok.inj (ha.symm.trans ha')
  obtain rfl := Outcome.ok.inj (hb.symm.trans hb')
  have SK : SSKeys u v mont ⟨k0, pa⟩ ⟨k1, pb⟩ := ⟨huv, hm, K, ka, kb⟩
  have lenx : (gs.days0.map rows).length = f.days := by rw [List.length_map, F.gen.len0]
  have leny : (gs.days1.map (fun d => d.elements.map digitsValue)).length = f.days := by rw [List.length_map, F.gen.len1]
  have hrows : (gs.days0.map rows).flatten =
      ((allElements gs.tree0 gs.days0).map digitsValue).zip (allValues gs.tree0 gs.days0) := by
    have := zip_flatten_rows gs.tree0 gs.days0 (by rw [F.gen.t0.1, F.gen.t0.2]) (fun d hd => by rw [(F.gen.day0 d hd).1, (F.gen.day0 d hd).2])
    rw [← this, rows, e0]; rfl
  have hA := F.adm hf (key := Prod.fst) (xs := gs.days0.map rows) (X0 := [])
    (coins := coins) lenx (fun x hx => by
      obtain ⟨d, hd, rfl⟩ := List.mem_map.1 hx
      rw [rows, List.length_zip, List.length_map, (F.gen.day0 d hd).1, (F.gen.day0 d hd).2, Nat.min_self])
    (by rw [List.nil_append, hrows, List.map_fst_zip (by rw [List.length_map, F.gen.total0, F.gen.totalV])]) hc
  rw [e1] at hA
  have hX := allX_mkDays (lenx.trans leny.symm) coins
  have hY := allY_mkDays (lenx.trans leny.symm) coins
  have hY' : (gs.days1.map (fun d => d.elements.map digitsValue)).flatten = (allElements gs.tree1 gs.days1).map digitsValue := by
    have := flatten_elems gs.tree1 gs.days1
    rw [e1] at this
    exact this
  obtain ⟨h1, h2⟩ := runNet_runDays (step := fun s (d : DayIn G (Nat × Int) Int) => daySSNet c mont ⟨k0, pa⟩ ⟨k1, pb⟩ hashOf S.pk S.pk S.sk0 S.sk1 s d.xs d.ys d.coins)
    (step' := fun s d => daySS c mont ⟨k0, pa⟩ ⟨k1, pb⟩ hashOf S.pk S.sk0 S.sk1 s d.xs d.ys d.coins)
    (fun s d s' n e => ((C73_shares c mont ⟨k0, pa⟩ ⟨k1, pb⟩ hashOf S.pk S.sk0 S.sk1 s s' d.xs d.ys d.coins n).1 e).1) _ _ _ _ hr
  rw [mkDays_length, lenx, leny, Nat.min_self] at h2
  have adm : Admissible S Prod.fst B (fun t => NonZero S (t 0)) (mkDays (gs.days0.map rows) (gs.days1.map (fun d => d.elements.map digitsValue)) coins) :=
    ⟨hA.bound, hA.coins, hA.x, hA.y, hA.sizeX, hA.sizeY⟩
  obtain ⟨r1, r2, -, -⟩ := C45_secret_shares S c SK hashOf hh B stash node _ adm
    (by rw [hY, hY']; exact nodup_values F.gen.all1 F.gen.nodup1) s h1 t0 t1
  rw [hX, hY, hY', hrows, List.map_fst_zip (by rw [List.length_map, F.gen.total0, F.gen.totalV]),
    filter_values F.gen.all0 F.gen.all1] at r2
  have r3 : (List.zipWith (fun x y => (x + y) % ((u * v : Nat) : Int)) s.shares0 s.shares1).Perm
      (ρ.data.shared.map (fun e => (digitsValue e : Int))) := by
    refine r2.trans ?_
    have := hcom.map (fun e => (digitsValue e : Int))
    rw [List.map_map]
    exact this
  have L := r3.length_eq
  rw [List.length_zipWith, List.length_map, hρ.draws.sharedLen] at L
  obtain ⟨-, -, hpr⟩ := F.fresh h0
  rw [hpr] at hp
  simp only [Option.some.injEq, Prod.mk.injEq] at hp
  have := F.shared
  exact ⟨by omega, by omega, r3, h2⟩

/-- Splitting the common elements into those already common at the start and the others. -/
theorem filter_split {A : Type} (p r : A → Bool) (h : ∀ a, p a = true → r a = true) : ∀ l : List A,
    (l.filter (fun a => r a && !p a) ++ l.filter p).Perm (l.filter r)
  | [] => .nil
  | a :: l => by
    have ih := filter_split p r h l
    simp only [List.filter_cons]
    cases hp : p a with
    | true =>
      simp only [h a hp, Bool.not_true, Bool.and_false, if_true, Bool.false_eq_true, if_false]
      exact List.perm_middle.trans (ih.cons a)
    | false =>
      cases hr : r a with
      | true => simp only [Bool.not_false, Bool.and_true, if_true, Bool.false_eq_true, if_false]; exact ih.cons a
      | false => simpa using ih

/-- **C74** (secret shares, with initial sets) `setup --func=SS` for any flags, then both parties of `run --func=SS`: the parties hold
equally many shares, as many as the printed cardinality, and position by position they add up (modulo the Paillier modulus), in some
order, to one number for each common element that was not common from the start: the *value* of the data set if the element is in
party zero's initial set, the element itself if party zero added it later. -/
theorem C74_shares_initial (c : Codec G) (g : G) (q : Nat) (hq : q.Prime) (hcard : Nat.card G = q) (hg : g ≠ 0)
    (mont : Int → Option Num.Mont) (hm : Paillier.MontOK mont) (u v : Nat) (huv : Paillier.Primes u v 1) (x x0 x1 : Int)
    (hx : Int.gcd x ((u * v : Nat) : Int) = 1)
    (hx0 : Int.gcd x0 ((u * v : Nat) : Int) = 1) (hx1 : Int.gcd x1 ((u * v : Nat) : Int) = 1)
    (hashOf : Nat → List Bool) (hh : ∀ e, (hashOf e).length = 256) (L B stash node : Nat) (f : SetupFlags)
    (hf : SizesOK L B q stash node f) (ρ : SetupRand) (hρ : ρ.OK L B q f)
    (hu : ρ.paillier.p = u) (hv : ρ.paillier.q = v)
    (coins : Nat → Coins G (Nat × Int) Int) (hc : ∀ i < f.days, DayCoinsOK Prod.fst B q f.daily (coins i)) (fs : FS) (o : SetupOut)
    (h : setupMainSS c g q mont x hashOf stash node f ρ fs = .ok o) (l0 : o.lost0 = []) (l1 : o.lost1 = []) (n m : Int)
    (hp : o.printed = some (n, m)) (s : StSS G) (ns : List Int)
    (hr : mainSS c mont x0 x1 hashOf stash node (RunFlags.of f) coins o.fs = .ok (s, ns)) (t0 : s.p0.lost = []) (t1 : s.p1.lost = []) :
    ∃ gs, genAddOnly f.days f.daily f.start (sharedSize f).toNat f.maxValue.toNat ρ.data = .ok gs ∧
      (s.shares0.length : Int) = n ∧ (s.shares1.length : Int) = n ∧
      (List.zipWith (fun x y => (x + y) % ((u * v : Nat) : Int)) s.shares0 s.shares1).Perm
        (((gs.tree0.elements.zip gs.tree0.values).filter
            (fun e => decide (e.1 ∈ allElements gs.tree1 gs.days1) && !decide (e.1 ∈ gs.tree1.elements))).map Prod.snd ++
          ((gs.days0.flatMap (·.elements)).filter (fun e => e ∈ allElements gs.tree1 gs.days1)).map (fun e => (digitsValue e : Int))) ∧
      ns.length = f.days := by
  obtain ⟨S, gs, k0, k1, rfl, rfl, F, hth, hcom, hgen⟩ := setup_foundSS c g q hq hcard hg hh hf hρ mont x h
  refine ⟨gs, hgen, ?_⟩
  rw [hu, hv] at hth
  have K := Paillier.C23_keys (by have := huv.p5; omega) (by have := huv.q5; omega) hth
  obtain ⟨pc, hpc, kc⟩ := Paillier.public_new huv x hx
  obtain ⟨pa, ha, ka⟩ := Paillier.public_new huv x0 hx0
  obtain ⟨pb, hb, kb⟩ := Paillier.public_new huv x1 hx1
  have SK : SSKeys u v mont ⟨k0, pa⟩ ⟨k1, pb⟩ := ⟨huv, hm, K, ka, kb⟩
  have SK' : SSKeys u v mont ⟨k0, pc⟩ ⟨k1, pb⟩ := ⟨huv, hm, K, kc, kb⟩
  -- the days
  have lenx : (gs.days0.map rows).length = f.days := by rw [List.length_map, F.gen.len0]
  have leny : (gs.days1.map (fun d => d.elements.map digitsValue)).length = f.days := by rw [List.length_map, F.gen.len1]
  have hrows := zip_flatten_rows gs.tree0 gs.days0 (by rw [F.gen.t0.1, F.gen.t0.2]) (fun d hd => by rw [(F.gen.day0 d hd).1, (F.gen.day0 d hd).2])
  have hA := F.adm hf (key := Prod.fst) (xs := gs.days0.map rows) (X0 := rows gs.tree0)
    (coins := coins) lenx (fun x hx => by
      obtain ⟨d, hd, rfl⟩ := List.mem_map.1 hx
      rw [rows, List.length_zip, List.length_map, (F.gen.day0 d hd).1, (F.gen.day0 d hd).2, Nat.min_self])
    (by rw [hrows, List.map_fst_zip (by rw [List.length_map, F.gen.total0, F.gen.totalV])]) hc
  have hX := allX_mkDays (lenx.trans leny.symm) coins
  have hY := allY_mkDays (lenx.trans leny.symm) coins
  have hY' := flatten_elems gs.tree1 gs.days1
  have nY : (gs.tree1.elements.map digitsValue ++ allY (mkDays (gs.days0.map rows) (gs.days1.map (fun d => d.elements.map digitsValue)) coins)).Nodup := by
    rw [hY, hY']; exact nodup_values F.gen.all1 F.gen.nodup1
  -- the start
  have T : ∃ s0 s1, startTrees (γ := Ct G × Int) c decNatPair (deserPaillier c) stash node (RunFlags.of f) o.fs = .ok (s0, s1) ∧
      ∀ s', runSSFrom S c mont ⟨k0, pa⟩ ⟨k1, pb⟩ hashOf ⟨s0, s1, [], []⟩
          (mkDays (gs.days0.map rows) (gs.days1.map (fun d => d.elements.map digitsValue)) coins) = .ok s' →
        s'.p0.lost = [] → s'.p1.lost = [] → s'.shares0.length = s'.shares1.length ∧
        (List.zipWith (fun x y => (x + y) % ((u * v : Nat) : Int)) s'.shares0 s'.shares1 ++
          ((rows gs.tree0).filter (fun e => e.1 ∈ gs.tree1.elements.map digitsValue)).map Prod.snd).Perm
          (((rows gs.tree0).filter (fun e => e.1 ∈ (allElements gs.tree1 gs.days1).map digitsValue)).map Prod.snd ++
            ((gs.days0.map rows).flatten.filter (fun e => e.1 ∈ (allElements gs.tree1 gs.days1).map digitsValue)).map
              (fun e => (e.1 : Int))) := by
    by_cases hs : 0 < f.start
    · obtain ⟨⟨f0, f1, r1, r2, r3, r4, pub, hpub, sf⟩, -⟩ := F.init hs
      rw [K.n1] at hpub
      obtain rfl := Outcome.ok.inj (hpub.symm.trans hpc)
      obtain ⟨s0, s1, e, hrun⟩ := C60_shares S c SK SK' hashOf hh B stash node _ _ f0 f1 _ _ sf _ hA nY
      rw [hX, hY, hY'] at hrun
      rw [l0, l1] at e
      refine ⟨s0, s1, ?_, hrun⟩
      rw [startTrees, if_pos (show (RunFlags.of f).trees = true from decide_eq_true hs), readTrees_ok r1 r4, Outcome.bind_ok, readTrees_ok r3 r2, Outcome.bind_ok]
      exact e
    · have e0 : gs.tree0.elements = [] := List.length_eq_zero_iff.1 (by rw [F.gen.t0.1]; omega)
      have e1 : gs.tree1.elements = [] := List.length_eq_zero_iff.1 (by rw [F.gen.t1.1]; omega)
      have er : rows gs.tree0 = [] := by rw [rows, e0]; rfl
      refine ⟨St0.init stash node, St1.init stash node, ?_, fun s' hs' z0 z1 => ?_⟩
      · rw [startTrees, if_neg (by simpa [RunFlags.of] using hs)]; rfl
      · rw [er, e1] at hA
        have adm : Admissible S Prod.fst B (fun t => NonZero S (t 0)) (mkDays (gs.days0.map rows) (gs.days1.map (fun d => d.elements.map digitsValue)) coins) :=
          ⟨hA.bound, hA.coins, hA.x, hA.y, hA.sizeX, hA.sizeY⟩
        obtain ⟨r1, r2, -, -⟩ := C45_secret_shares S c SK hashOf hh B stash node _ adm
          (by rw [e1] at nY; exact nY) s' hs' z0 z1
        have hYd : (gs.days1.map (fun d => d.elements.map digitsValue)).flatten = (allElements gs.tree1 gs.days1).map digitsValue := by
          have := flatten_elems gs.tree1 gs.days1
          rw [e1] at this
          exact this
        rw [hX, hY, hYd] at r2
        refine ⟨r1, ?_⟩
        rw [er]
        simp only [List.filter_nil, List.map_nil, List.append_nil, List.nil_append]
        refine r2.trans (List.Perm.of_eq ?_)
        rw [List.filter_map, List.map_map]
        rfl
  obtain ⟨s0, s1, e, hrun⟩ := T
  have e : start (γ := Ct G × Int) c decNatPair (deserPaillier c) loadPairs stash node (RunFlags.of f) o.fs =
      .ok ⟨⟨S.pk, S.sk0, k0⟩, ⟨S.pk, S.sk1, k1⟩, gs.days0.map rows, gs.days1.map (fun d => d.elements.map digitsValue), s0, s1⟩ := by
    unfold start
    have d0 : readDaily ((RunFlags.of f).dataDir ++ "p0/") o.fs (RunFlags.of f).days 1 = .ok gs.days0 := F.daily0
    have d1 : readDaily ((RunFlags.of f).dataDir ++ "p1/") o.fs (RunFlags.of f).days 1 = .ok gs.days1 := F.daily1
    have p0 : additionParty c (RunFlags.of f).outDir "p0" o.fs = _ := F.keys0
    have p1 : additionParty c (RunFlags.of f).outDir "p1" o.fs = _ := F.keys1
    rw [d0, Outcome.bind_ok, d1, Outcome.bind_ok, p0, Outcome.bind_ok, p1, Outcome.bind_ok, e, Outcome.bind_ok]
    change Outcome.bind _ _ = _
    rw [loadPairs_ok _ (F.num0 hf) (fun d hd => by rw [(F.gen.day0 d hd).1, (F.gen.day0 d hd).2])
      (fun d hd v hv => by have := (F.gen.vals d (by simp [hd]) v hv).1; omega)]
    rw [loadElems_ok _ (F.num1 hf)]
    rfl
  rw [mainSS, e, Outcome.bind_ok] at hr
  simp only [K.n1, K.n2, Outcome.bind_eq_ok] at hr
  obtain ⟨pa', ha', pb', hb', hr⟩ := hr
  obtain rfl := Outcome.ok.inj (ha'.symm.trans ha)
  obtain rfl := Outcome.ok.inj (hb'.symm.trans hb)
  obtain ⟨h1, h2⟩ := runNet_runDays (step := fun s (d : DayIn G (Nat × Int) Int) => daySSNet c mont ⟨k0, pa'⟩ ⟨k1, pb'⟩ hashOf S.pk S.pk S.sk0 S.sk1 s d.xs d.ys d.coins)
    (step' := fun s d => daySS c mont ⟨k0, pa'⟩ ⟨k1, pb'⟩ hashOf S.pk S.sk0 S.sk1 s d.xs d.ys d.coins)
    (fun s d s' n e => ((C73_shares c mont ⟨k0, pa'⟩ ⟨k1, pb'⟩ hashOf S.pk S.sk0 S.sk1 s s' d.xs d.ys d.coins n).1 e).1) _ _ _ _ hr
  rw [mkDays_length, lenx, leny, Nat.min_self] at h2
  obtain ⟨hl, hperm⟩ := hrun s h1 t0 t1
  -- back to strings
  have A0 : ((rows gs.tree0).filter (fun e => e.1 ∈ gs.tree1.elements.map digitsValue)).map Prod.snd = (initialMatches gs).map Prod.snd := by
    rw [rows, filter_zip_values _ (F.gen.str0 gs.tree0 (by simp)) (F.gen.str1 gs.tree1 (by simp)), List.map_map]; rfl
  have A1 : ((rows gs.tree0).filter (fun e => e.1 ∈ (allElements gs.tree1 gs.days1).map digitsValue)).map Prod.snd =
      ((gs.tree0.elements.zip gs.tree0.values).filter (fun e => e.1 ∈ allElements gs.tree1 gs.days1)).map Prod.snd := by
    rw [rows, filter_zip_values _ (F.gen.str0 gs.tree0 (by simp)) F.gen.all1, List.map_map]; rfl
  have hd0 : ∀ e ∈ gs.days0.flatMap (·.elements), DigitString L B e := fun e he => F.gen.all0 e (List.mem_append_right _ he)
  have A2 : ((gs.days0.map rows).flatten.filter (fun e => e.1 ∈ (allElements gs.tree1 gs.days1).map digitsValue)).map (fun e => (e.1 : Int)) =
      ((gs.days0.flatMap (·.elements)).filter (fun e => e ∈ allElements gs.tree1 gs.days1)).map (fun e => (digitsValue e : Int)) := by
    have hz : (gs.days0.map rows).flatten.map Prod.fst = (gs.days0.flatMap (·.elements)).map digitsValue := by
      have := congrArg (List.map Prod.fst) hrows
      rw [List.map_fst_zip (by rw [List.length_map, F.gen.total0, F.gen.totalV]), List.map_append, F.map_fst, allElements, List.map_append] at this
      exact List.append_cancel_left this
    have : ∀ l : List (Nat × Int), (l.filter (fun e => e.1 ∈ (allElements gs.tree1 gs.days1).map digitsValue)).map (fun e => (e.1 : Int)) =
        ((l.map Prod.fst).filter (fun e => e ∈ (allElements gs.tree1 gs.days1).map digitsValue)).map (fun e : Nat => (e : Int)) := by
      intro l
      rw [List.filter_map, List.map_map]
      rfl
    rw [this, hz, filter_values hd0 F.gen.all1, List.map_map]
    rfl
  rw [A0, A1, A2] at hperm
  have hsplit := (filter_split (fun e : Data.Bytes × Int => decide (e.1 ∈ gs.tree1.elements)) (fun e => decide (e.1 ∈ allElements gs.tree1 gs.days1))
    (fun e he => decide_eq_true (List.mem_append_left _ (of_decide_eq_true he))) (gs.tree0.elements.zip gs.tree0.values)).map Prod.snd
  rw [List.map_append] at hsplit
  have hfin : (List.zipWith (fun x y => (x + y) % ((u * v : Nat) : Int)) s.shares0 s.shares1).Perm
        (((gs.tree0.elements.zip gs.tree0.values).filter
            (fun e => decide (e.1 ∈ allElements gs.tree1 gs.days1) && !decide (e.1 ∈ gs.tree1.elements))).map Prod.snd ++
          ((gs.days0.flatMap (·.elements)).filter (fun e => e ∈ allElements gs.tree1 gs.days1)).map (fun e => (digitsValue e : Int))) := by
    refine (List.perm_append_right_iff ((initialMatches gs).map Prod.snd)).1 (hperm.trans ?_)
    refine (hsplit.symm.append_right _).trans ?_
    rw [List.append_assoc, List.append_assoc]
    exact List.Perm.append_left _ List.perm_append_comm
  have hlen := hperm.length_eq
  have hcl := F.gen.common
  have hz := filter_zip_length (a := gs.tree0.elements) (vs := gs.tree0.values) (by rw [F.gen.t0.1, F.gen.t0.2])
    (fun e => decide (e ∈ allElements gs.tree1 gs.days1))
  rw [show allElements gs.tree0 gs.days0 = gs.tree0.elements ++ gs.days0.flatMap (·.elements) from rfl, List.filter_append,
    List.length_append] at hcl
  simp only [List.length_append, List.length_map, List.length_zipWith] at hlen
  obtain ⟨P1, -⟩ := F.printed_ca hp
  have shp := F.shared
  exact ⟨by omega, by omega, hfin, h2⟩

end Upsi.Main
