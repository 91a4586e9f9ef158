import Verif.Main.AddEndProps
import Verif.Main.NetOnly
import Verif.Setup.ImportProgress
/- Property theorem C85: after setup, the parties' programs never crash. -/
namespace Upsi.Main
open Upsi Upsi.Rec Upsi.ElGamal Upsi.Tree Upsi.Proto Upsi.Setup Upsi.Wire Upsi.Data

variable {G : Type} [AddCommGroup G] [DecidableEq G]

section
variable {c : Codec G} {hashOf : Nat → List Bool} {L B q stash node : Nat} {f : SetupFlags} {o : SetupOut} {S : Setup G} {gs : GenSets}
  {k0 k1 : Paillier.TKey}

/-- What starting the programs implies about the trees they start with. -/
theorem start_trees {c : Codec G} {dec : PElem → P} {deser : EncElem → Outcome γ} {load : List Dataset → Outcome (List (List P))}
    {stash node : Nat} {f : RunFlags} {fs : FS} {b : Started G P γ} (h : start c dec deser load stash node f fs = .ok b) :
    startTrees c dec deser stash node f fs = .ok (b.s0, b.s1) := by
  simp only [start, Outcome.bind_eq_ok, Outcome.pure_eq, Outcome.ok.injEq] at h
  obtain ⟨d0, -, d1, -, k0, -, k1, -, ⟨s0, s1⟩, e, xs, -, ys, -, rfl⟩ := h
  exact e

/-- Setup lost no element if the initial sets fit the stash. -/
theorem Found.lost_nil (F : Found c hashOf L B stash node f o S gs k0 k1) (hh : ∀ e, (hashOf e).length = 256)
    (hf : SizesOK L B q stash node f) (hs : f.start ≤ stash) : o.lost0 = [] ∧ o.lost1 = [] := by
  by_cases h0 : 0 < f.start
  · obtain ⟨⟨f0, f1, -, -, -, -, sf⟩, -⟩ := F.init h0
    have ht := hf.total
    obtain ⟨ρ0, w0, g0⟩ := sf.ex0
    obtain ⟨ρ1, w1, g1⟩ := sf.ex1
    have lx : (rows gs.tree0).length = f.start := by rw [rows, List.length_zip, List.length_map, F.gen.t0.1, F.gen.t0.2, Nat.min_self]
    have ly : (gs.tree1.elements.map digitsValue).length = f.start := by rw [List.length_map, F.gen.t1.1]
    exact ⟨(gen_fits (fun e => hh _) decNatPair w0.hsh (by omega) g0).2 (by omega),
      (gen_fits hh decNat w1.hsh (by omega) g1).2 (by omega)⟩
  · obtain ⟨a, b, -⟩ := F.fresh (by omega)
    exact ⟨a, b⟩

/-- The trees the programs start with have room for as much as the stash holds. -/
theorem Found.fits_nat (F : Found c hashOf L B stash node f o S gs k0 k1) (hh : ∀ e, (hashOf e).length = 256)
    (hf : SizesOK L B q stash node f) (l0 : o.lost0 = []) (l1 : o.lost1 = []) {s0 : St0 G Nat} {s1 : St1 (Ct G)}
    (e : startTrees c decNat (deserTreeCt c) stash node (RunFlags.of f) o.fs = .ok (s0, s1)) :
    Fits stash (gs.tree0.elements.map digitsValue) (gs.tree1.elements.map digitsValue) s0 s1 := by
  by_cases hs : 0 < f.start
  · obtain ⟨⟨f0, f1, r1, r2, r3, r4, sf⟩, -⟩ := F.init hs
    have ht := hf.total
    rw [startTrees, if_pos (show (RunFlags.of f).trees = true from decide_eq_true hs), readTrees_ok r1 r4, Outcome.bind_ok,
      readTrees_ok r3 r2, Outcome.bind_ok] at e
    rw [← F.map_fst]
    exact import_noPayload_fits S hh sf (by rw [rows, List.length_zip, List.length_map, F.gen.t0.1]; omega)
      (by rw [List.length_map, F.gen.t1.1]; omega) (by rw [l0, l1]; exact e)
  · rw [startTrees, if_neg (by simpa [RunFlags.of] using hs)] at e
    obtain ⟨rfl, rfl⟩ := Prod.mk.inj (Outcome.ok.inj e)
    exact ⟨rfl, rfl, fun _ => rfl, fun _ => rfl⟩

/-- The same for the functionality sum. -/
theorem Found.fits_pairs (F : Found c hashOf L B stash node f o S gs k0 k1) (hh : ∀ e, (hashOf e).length = 256)
    (hf : SizesOK L B q stash node f) (l0 : o.lost0 = []) (l1 : o.lost1 = []) {s0 : St0 G (Nat × Int)} {s1 : St1 (Ct G × Ct G)}
    (e : startTrees c decNatPair (deserElGamal c) stash node (RunFlags.of f) o.fs = .ok (s0, s1)) :
    Fits stash (rows gs.tree0) (gs.tree1.elements.map digitsValue) s0 s1 := by
  by_cases hs : 0 < f.start
  · obtain ⟨⟨f0, f1, r1, r2, r3, r4, sf⟩, -⟩ := F.init hs
    have ht := hf.total
    rw [startTrees, if_pos (show (RunFlags.of f).trees = true from decide_eq_true hs), readTrees_ok r1 r4, Outcome.bind_ok,
      readTrees_ok r3 r2, Outcome.bind_ok] at e
    exact import_elGamal_fits S hh sf (by rw [rows, List.length_zip, List.length_map, F.gen.t0.1]; omega)
      (by rw [List.length_map, F.gen.t1.1]; omega) (by rw [l0, l1]; exact e)
  · rw [startTrees, if_neg (by simpa [RunFlags.of] using hs)] at e
    obtain ⟨rfl, rfl⟩ := Prod.mk.inj (Outcome.ok.inj e)
    exact ⟨rfl, rfl, fun _ => rfl, fun _ => rfl⟩

end

/-- **C85** (cardinality) After `addition/setup.cc` (whatever its flags) ended normally without losing an element of an initial set, both
programs of `addition/run.cc --func=CA` start from its files and end normally, or with the error raised when a point to be sent is
the point at infinity, or with the error of a message larger than gRPC accepts.  They never fail a check, never have undefined
behaviour, and no element is lost unless a party's sets exceed the stash. -/
theorem C85_cardinality (c : Codec G) (g : G) (q : Nat) (hq : q.Prime) (hcard : Nat.card G = q) (hg : g ≠ 0)
    (hashOf : Nat → List Bool) (hh : ∀ e, (hashOf e).length = 256) (L B stash node : Nat) (f : SetupFlags)
    (hf : SizesOK L B q stash node f) (ρ : SetupRand) (hρ : ρ.OK L B q f) (coins : Nat → Coins G Nat Unit)
    (hc : ∀ i < f.days, DayCoinsOK id B q f.daily (coins i)) (fs : FS) (o : SetupOut)
    (h : setupMain c g q hashOf stash node f ρ fs = .ok o) (l0 : o.lost0 = []) (l1 : o.lost1 = []) :
    mainCA c hashOf stash node (RunFlags.of f) coins o.fs = .err "EC_POINT_point2oct failed" ∨
    mainCA c hashOf stash node (RunFlags.of f) coins o.fs = .err "[ClientMessageSink] failed to send message" ∨
    ∃ s ns, mainCA c hashOf stash node (RunFlags.of f) coins o.fs = .ok (s, ns) ∧
      (f.start + f.days * f.daily ≤ stash → s.p0.lost = [] ∧ s.p1.lost = []) := by
  obtain ⟨S, gs, k0, k1, rfl, rfl, F, -⟩ := setup_found c g q hq hcard hg hh hf hρ h
  obtain ⟨s0, s1, e, i1, -⟩ := F.start_nat hh hf l0 l1 c
  have hfit := F.fits_nat hh hf l0 l1 (start_trees e)
  have lenx : (gs.days0.map (fun d => d.elements.map digitsValue)).length = f.days := by rw [List.length_map, F.gen.len0]
  have leny : (gs.days1.map (fun d => d.elements.map digitsValue)).length = f.days := by rw [List.length_map, F.gen.len1]
  have hA := F.adm hf (key := id) (xs := gs.days0.map (fun d => d.elements.map digitsValue)) (X0 := gs.tree0.elements.map digitsValue)
    (coins := coins) lenx (fun x hx => by
      obtain ⟨d, hd, rfl⟩ := List.mem_map.1 hx
      rw [List.length_map, (F.gen.day0 d hd).1]) (by rw [List.map_id, flatten_elems]) hc
  have hrun := (runNet_sim (fun s (d : DayIn G Nat Unit) => dayCANet_sim c hashOf S.pk S.sk0 S.sk1 s d.xs d.ys d.coins) _ _).only
    (runCAFrom_only S c hh hA (s := ⟨s0, s1, 0⟩) i1 hfit)
  rw [mainCA, e, Outcome.bind_ok]
  rcases hrun.cases with ⟨⟨s, ns⟩, hs, hJ⟩ | ⟨m, hm, rfl | rfl⟩
  · refine Or.inr (Or.inr ⟨s, ns, hs, fun hl => ?_⟩)
    rw [allX_mkDays (lenx.trans leny.symm), allY_mkDays (lenx.trans leny.symm), flatten_elems, flatten_elems] at hJ
    exact ⟨hJ.l0 (by rw [List.length_map, F.gen.total0]; exact hl), hJ.l1 (by rw [List.length_map, F.gen.total1]; exact hl)⟩
  · exact Or.inl hm
  · exact Or.inr (Or.inl hm)

/-- **C85/C74** (cardinality, unconditional for small sets) If each party's sets fit the stash, setup loses no element, and the programs
end with one of the two errors or report the cardinality that setup printed. -/
theorem C85_cardinality_small (c : Codec G) (g : G) (q : Nat) (hq : q.Prime) (hcard : Nat.card G = q) (hg : g ≠ 0)
    (hashOf : Nat → List Bool) (hh : ∀ e, (hashOf e).length = 256) (L B stash node : Nat) (f : SetupFlags)
    (hf : SizesOK L B q stash node f) (ρ : SetupRand) (hρ : ρ.OK L B q f) (coins : Nat → Coins G Nat Unit)
    (hc : ∀ i < f.days, DayCoinsOK id B q f.daily (coins i)) (fs : FS) (o : SetupOut)
    (h : setupMain c g q hashOf stash node f ρ fs = .ok o) (hsmall : f.start + f.days * f.daily ≤ stash) (n m : Int)
    (hp : o.printed = some (n, m)) :
    mainCA c hashOf stash node (RunFlags.of f) coins o.fs = .err "EC_POINT_point2oct failed" ∨
    mainCA c hashOf stash node (RunFlags.of f) coins o.fs = .err "[ClientMessageSink] failed to send message" ∨
    ∃ s ns, mainCA c hashOf stash node (RunFlags.of f) coins o.fs = .ok (s, ns) ∧ (s.cardinality : Int) = n ∧ ns.length = f.days := by
  obtain ⟨l0, l1⟩ : o.lost0 = [] ∧ o.lost1 = [] := by
    obtain ⟨S, gs, k0, k1, rfl, rfl, F, -⟩ := setup_found c g q hq hcard hg hh hf hρ h
    exact F.lost_nil hh hf (by omega)
  rcases C85_cardinality c g q hq hcard hg hashOf hh L B stash node f hf ρ hρ coins hc fs o h l0 l1 with h1 | h1 | ⟨s, ns, h1, hl⟩
  · exact Or.inl h1
  · exact Or.inr (Or.inl h1)
  · obtain ⟨t0, t1⟩ := hl hsmall
    exact Or.inr (Or.inr ⟨s, ns, h1, C74_cardinality c g q hq hcard hg hashOf hh L B stash node f hf ρ hρ coins hc fs o h l0 l1 n m hp s ns h1 t0 t1⟩)

/-- **C85** (PSI) The same for `--func=PSI`. -/
theorem C85_psi (c cu : Codec G) (g : G) (q : Nat) (hq : q.Prime) (hcard : Nat.card G = q) (hg : g ≠ 0)
    (hashOf : Nat → List Bool) (hh : ∀ e, (hashOf e).length = 256) (L B stash node : Nat) (f : SetupFlags)
    (hf : SizesOK L B q stash node f) (ρ : SetupRand) (hρ : ρ.OK L B q f) (coins : Nat → Coins G Nat (Ct G))
    (hc : ∀ i < f.days, DayCoinsOK id B q f.daily (coins i)) (fs : FS) (o : SetupOut)
    (h : setupMain c g q hashOf stash node f ρ fs = .ok o) (l0 : o.lost0 = []) (l1 : o.lost1 = []) :
    mainPSI c cu hashOf stash node (RunFlags.of f) coins o.fs = .err "EC_POINT_point2oct failed" ∨
    mainPSI c cu hashOf stash node (RunFlags.of f) coins o.fs = .err "[ClientMessageSink] failed to send message" ∨
    ∃ s ns, mainPSI c cu hashOf stash node (RunFlags.of f) coins o.fs = .ok (s, ns) ∧
      (f.start + f.days * f.daily ≤ stash → s.p0.lost = [] ∧ s.p1.lost = []) := by
  obtain ⟨S, gs, k0, k1, rfl, rfl, F, -⟩ := setup_found c g q hq hcard hg hh hf hρ h
  obtain ⟨s0, s1, e, -, i1⟩ := F.start_nat hh hf l0 l1 cu
  have hfit := F.fits_nat hh hf l0 l1 (start_trees e)
  have lenx : (gs.days0.map (fun d => d.elements.map digitsValue)).length = f.days := by rw [List.length_map, F.gen.len0]
  have leny : (gs.days1.map (fun d => d.elements.map digitsValue)).length = f.days := by rw [List.length_map, F.gen.len1]
  have hA := F.adm hf (key := id) (xs := gs.days0.map (fun d => d.elements.map digitsValue)) (X0 := gs.tree0.elements.map digitsValue)
    (coins := coins) lenx (fun x hx => by
      obtain ⟨d, hd, rfl⟩ := List.mem_map.1 hx
      rw [List.length_map, (F.gen.day0 d hd).1]) (by rw [List.map_id, flatten_elems]) hc
  have hrun := (runNet_sim (fun s (d : DayIn G Nat (Ct G)) => dayPSINet_sim c cu hashOf S.pk S.sk0 S.sk1 s d.xs d.ys d.coins) _ _).only
    (runPSIFrom_only S c cu hh hA (s := ⟨s0, s1, [], []⟩) i1 hfit)
  rw [mainPSI, e, Outcome.bind_ok]
  rcases hrun.cases with ⟨⟨s, ns⟩, hs, hJ⟩ | ⟨m, hm, rfl | rfl⟩
  · refine Or.inr (Or.inr ⟨s, ns, hs, fun hl => ?_⟩)
    rw [allX_mkDays (lenx.trans leny.symm), allY_mkDays (lenx.trans leny.symm), flatten_elems, flatten_elems] at hJ
    exact ⟨hJ.l0 (by rw [List.length_map, F.gen.total0]; exact hl), hJ.l1 (by rw [List.length_map, F.gen.total1]; exact hl)⟩
  · exact Or.inl hm
  · exact Or.inr (Or.inl hm)

/-- **C85/C74** (PSI, unconditional for small sets) -/
theorem C85_psi_small (c cu : Codec G) (g : G) (q : Nat) (hq : q.Prime) (hcard : Nat.card G = q) (hg : g ≠ 0)
    (hashOf : Nat → List Bool) (hh : ∀ e, (hashOf e).length = 256) (L B stash node : Nat) (f : SetupFlags)
    (hf : SizesOK L B q stash node f) (ρ : SetupRand) (hρ : ρ.OK L B q f) (coins : Nat → Coins G Nat (Ct G))
    (hc : ∀ i < f.days, DayCoinsOK id B q f.daily (coins i)) (fs : FS) (o : SetupOut)
    (h : setupMain c g q hashOf stash node f ρ fs = .ok o) (hsmall : f.start + f.days * f.daily ≤ stash) (n m : Int)
    (hp : o.printed = some (n, m)) :
    mainPSI c cu hashOf stash node (RunFlags.of f) coins o.fs = .err "EC_POINT_point2oct failed" ∨
    mainPSI c cu hashOf stash node (RunFlags.of f) coins o.fs = .err "[ClientMessageSink] failed to send message" ∨
    ∃ s ns, mainPSI c cu hashOf stash node (RunFlags.of f) coins o.fs = .ok (s, ns) ∧ (s.intersection.length : Int) = n ∧
      (∀ x, some x ∈ s.intersection → x ∈ ρ.data.shared.map digitsValue) ∧
      (f.start = 0 → s.intersection.Perm (ρ.data.shared.map (fun e => some (digitsValue e)))) ∧ ns.length = f.days := by
  obtain ⟨l0, l1⟩ : o.lost0 = [] ∧ o.lost1 = [] := by
    obtain ⟨S, gs, k0, k1, rfl, rfl, F, -⟩ := setup_found c g q hq hcard hg hh hf hρ h
    exact F.lost_nil hh hf (by omega)
  rcases C85_psi c cu g q hq hcard hg hashOf hh L B stash node f hf ρ hρ coins hc fs o h l0 l1 with h1 | h1 | ⟨s, ns, h1, hl⟩
  · exact Or.inl h1
  · exact Or.inr (Or.inl h1)
  · obtain ⟨t0, t1⟩ := hl hsmall
    exact Or.inr (Or.inr ⟨s, ns, h1, C74_psi c cu g q hq hcard hg hashOf hh L B stash node f hf ρ hρ coins hc fs o h l0 l1 n m hp s ns h1 t0 t1⟩)

/-- **C85** (sum) The same for `--func=SUM`, where a day's sum outside the decryption table is a further error. -/
theorem C85_sum (c : Codec G) (g : G) (q : Nat) (hq : q.Prime) (hcard : Nat.card G = q) (hg : g ≠ 0) (limit : Nat)
    (hl0 : 0 < limit) (hlim : limit ≤ 2 ^ 64)
    (hashOf : Nat → List Bool) (hh : ∀ e, (hashOf e).length = 256) (L B stash node : Nat) (f : SetupFlags)
    (hf : SizesOK L B q stash node f) (ρ : SetupRand) (hρ : ρ.OK L B q f)
    (coins : Nat → Coins G (Nat × Int) (Ct G)) (hc : ∀ i < f.days, DayCoinsOK Prod.fst B q f.daily (coins i)) (fs : FS) (o : SetupOut)
    (h : setupMain c g q hashOf stash node f ρ fs = .ok o) (l0 : o.lost0 = []) (l1 : o.lost1 = []) :
    mainSum c limit hashOf stash node (RunFlags.of f) coins o.fs = .err "EC_POINT_point2oct failed" ∨
    mainSum c limit hashOf stash node (RunFlags.of f) coins o.fs = .err "[ClientMessageSink] failed to send message" ∨
    mainSum c limit hashOf stash node (RunFlags.of f) coins o.fs = .err "[ElGamalDecrypter::DecryptExp] message not within exp_limit" ∨
    ∃ s ns, mainSum c limit hashOf stash node (RunFlags.of f) coins o.fs = .ok (s, ns) ∧
      (f.start + f.days * f.daily ≤ stash → s.p0.lost = [] ∧ s.p1.lost = []) := by
  obtain ⟨S, gs, k0, k1, rfl, rfl, F, -⟩ := setup_found c g q hq hcard hg hh hf hρ h
  obtain ⟨s0, s1, e, i1⟩ := F.start_pairs hh hf l0 l1
  have hfit := F.fits_pairs hh hf l0 l1 (start_trees e)
  have lenx : (gs.days0.map rows).length = f.days := by rw [List.length_map, F.gen.len0]
  have leny : (gs.days1.map (fun d => d.elements.map digitsValue)).length = f.days := by rw [List.length_map, F.gen.len1]
  have hrows : rows gs.tree0 ++ (gs.days0.map rows).flatten =
      ((allElements gs.tree0 gs.days0).map digitsValue).zip (allValues gs.tree0 gs.days0) :=
    zip_flatten_rows gs.tree0 gs.days0 (by rw [F.gen.t0.1, F.gen.t0.2]) (fun d hd => by rw [(F.gen.day0 d hd).1, (F.gen.day0 d hd).2])
  have hA := F.adm hf (key := Prod.fst) (xs := gs.days0.map rows) (X0 := rows gs.tree0)
    (coins := coins) lenx (fun x hx => by
      obtain ⟨d, hd, rfl⟩ := List.mem_map.1 hx
      rw [rows, List.length_zip, List.length_map, (F.gen.day0 d hd).1, (F.gen.day0 d hd).2, Nat.min_self])
    (by rw [hrows, List.map_fst_zip (by rw [List.length_map, F.gen.total0, F.gen.totalV])]) hc
  have hrun := (runNet_sim (fun s (d : DayIn G (Nat × Int) (Ct G)) => daySumNet_sim c limit hashOf S.pk S.sk0 S.sk1 s d.xs d.ys d.coins) _ _).only
    (runSumFrom_only S c hl0 hlim hh hA (s := ⟨s0, s1, 0, 0⟩) i1 hfit)
  rw [mainSum, e, Outcome.bind_ok]
  rcases hrun.cases with ⟨⟨s, ns⟩, hs, -, hJ⟩ | ⟨m, hm, (rfl | rfl) | rfl⟩
  · refine Or.inr (Or.inr (Or.inr ⟨s, ns, hs, fun hl => ?_⟩))
    rw [allX_mkDays (lenx.trans leny.symm), allY_mkDays (lenx.trans leny.symm), hrows, flatten_elems] at hJ
    exact ⟨hJ.l0 (by rw [List.length_zip, List.length_map, F.gen.total0, F.gen.totalV, Nat.min_self]; exact hl),
      hJ.l1 (by rw [List.length_map, F.gen.total1]; exact hl)⟩
  · exact Or.inl hm
  · exact Or.inr (Or.inr (Or.inl hm))
  · exact Or.inr (Or.inl hm)

/-- **C85/C74** (sum, unconditional for small sets) If each party's sets fit the stash and the values of the shared elements cannot
reach the bound of the decryption table, the programs end with one of the two errors or report what setup printed. -/
theorem C85_sum_small (c : Codec G) (g : G) (q : Nat) (hq : q.Prime) (hcard : Nat.card G = q) (hg : g ≠ 0) (limit : Nat)
    (hlim : limit ≤ 2 ^ 64) (hlimq : limit ≤ q)
    (hashOf : Nat → List Bool) (hh : ∀ e, (hashOf e).length = 256) (L B stash node : Nat) (f : SetupFlags)
    (hf : SizesOK L B q stash node f) (hsm : sharedSize f * f.maxValue < limit) (hst : f.start * f.maxValue ≤ 2 ^ 31)
    (ρ : SetupRand) (hρ : ρ.OK L B q f)
    (coins : Nat → Coins G (Nat × Int) (Ct G)) (hc : ∀ i < f.days, DayCoinsOK Prod.fst B q f.daily (coins i)) (fs : FS) (o : SetupOut)
    (h : setupMain c g q hashOf stash node f ρ fs = .ok o) (hsmall : f.start + f.days * f.daily ≤ stash) (n m : Int)
    (hp : o.printed = some (n, m)) :
    mainSum c limit hashOf stash node (RunFlags.of f) coins o.fs = .err "EC_POINT_point2oct failed" ∨
    mainSum c limit hashOf stash node (RunFlags.of f) coins o.fs = .err "[ClientMessageSink] failed to send message" ∨
    ∃ s ns, mainSum c limit hashOf stash node (RunFlags.of f) coins o.fs = .ok (s, ns) ∧ (s.cardinality : Int) = n ∧
      (s.sum.toNat : Int) = m ∧ ns.length = f.days := by
  obtain ⟨l0, l1, hshared⟩ : o.lost0 = [] ∧ o.lost1 = [] ∧ 0 ≤ sharedSize f := by
    obtain ⟨S, gs, k0, k1, rfl, rfl, F, -⟩ := setup_found c g q hq hcard hg hh hf hρ h
    obtain ⟨a, b⟩ := F.lost_nil hh hf (by omega)
    exact ⟨a, b, F.shared⟩
  have hl0 : 0 < limit := by
    have := Int.mul_nonneg hshared hf.maxPos.le
    omega
  rcases C85_sum c g q hq hcard hg limit hl0 hlim hashOf hh L B stash node f hf ρ hρ coins hc fs o h l0 l1 with h1 | h1 | h1 | ⟨s, ns, h1, hl⟩
  · exact Or.inl h1
  · exact Or.inr (Or.inl h1)
  · exfalso
    obtain ⟨S, gs, k0, k1, rfl, rfl, F, -⟩ := setup_found c g q hq hcard hg hh hf hρ h
    obtain ⟨s0, s1, e, i1⟩ := F.start_pairs hh hf l0 l1
    have hfit := F.fits_pairs hh hf l0 l1 (start_trees e)
    have lenx : (gs.days0.map rows).length = f.days := by rw [List.length_map, F.gen.len0]
    have leny : (gs.days1.map (fun d => d.elements.map digitsValue)).length = f.days := by rw [List.length_map, F.gen.len1]
    have hrows : rows gs.tree0 ++ (gs.days0.map rows).flatten =
        ((allElements gs.tree0 gs.days0).map digitsValue).zip (allValues gs.tree0 gs.days0) :=
      zip_flatten_rows gs.tree0 gs.days0 (by rw [F.gen.t0.1, F.gen.t0.2]) (fun d hd => by rw [(F.gen.day0 d hd).1, (F.gen.day0 d hd).2])
    have hA := F.adm hf (key := Prod.fst) (xs := gs.days0.map rows) (X0 := rows gs.tree0)
      (coins := coins) lenx (fun x hx => by
        obtain ⟨d, hd, rfl⟩ := List.mem_map.1 hx
        rw [rows, List.length_zip, List.length_map, (F.gen.day0 d hd).1, (F.gen.day0 d hd).2, Nat.min_self])
      (by rw [hrows, List.map_fst_zip (by rw [List.length_map, F.gen.total0, F.gen.totalV])]) hc
    have hX := allX_mkDays (lenx.trans leny.symm) coins
    have hY := allY_mkDays (lenx.trans leny.symm) coins
    have M : matched Prod.fst (rows gs.tree0 ++ allX (mkDays (gs.days0.map rows) (gs.days1.map (fun d => d.elements.map digitsValue)) coins))
        (gs.tree1.elements.map digitsValue ++ allY (mkDays (gs.days0.map rows) (gs.days1.map (fun d => d.elements.map digitsValue)) coins)) =
        (((allElements gs.tree0 gs.days0).zip (allValues gs.tree0 gs.days0)).filter
          (fun e => e.1 ∈ allElements gs.tree1 gs.days1)).map (Prod.map digitsValue id) := by
      rw [hX, hY, hrows, flatten_elems]
      exact (matched_eq_filter Prod.fst _ _ (nodup_values F.gen.all1 F.gen.nodup1)).trans
        (filter_zip_values _ F.gen.all0 F.gen.all1)
    have V : valueSum (matched Prod.fst (rows gs.tree0 ++ allX (mkDays (gs.days0.map rows) (gs.days1.map (fun d => d.elements.map digitsValue)) coins))
        (gs.tree1.elements.map digitsValue ++ allY (mkDays (gs.days0.map rows) (gs.days1.map (fun d => d.elements.map digitsValue)) coins))) = gs.sum := by
      rw [M, sum_values, F.gen.sum]; rfl
    have hpos0 : ∀ p ∈ rows gs.tree0 ++ allX (mkDays (gs.days0.map rows) (gs.days1.map (fun d => d.elements.map digitsValue)) coins), 0 ≤ p.2 := by
      rw [hX, hrows]
      intro p hp
      exact (F.gen.valsAll _ (List.of_mem_zip (a := p.1) (b := p.2) hp).2).1
    have hmx : ((sharedSize f).toNat : Int) * (f.maxValue.toNat : Int) = sharedSize f * f.maxValue := by
      rw [Int.toNat_of_nonneg F.shared, Int.toNat_of_nonneg (by have := hf.maxPos; omega)]
    have sX : (rows gs.tree0 ++ allX (mkDays (gs.days0.map rows) (gs.days1.map (fun d => d.elements.map digitsValue)) coins)).length ≤ stash := by
      rw [hX, hrows, List.length_zip, List.length_map, F.gen.total0, F.gen.totalV, Nat.min_self]; exact hsmall
    have sY : (gs.tree1.elements.map digitsValue ++ allY (mkDays (gs.days0.map rows) (gs.days1.map (fun d => d.elements.map digitsValue)) coins)).length ≤ stash := by
      rw [hY, flatten_elems, List.length_map, F.gen.total1]; exact hsmall
    rw [List.length_append] at sX sY
    rw [mainSum, e, Outcome.bind_ok] at h1
    have hsim := runNet_sim (fun s (d : DayIn G (Nat × Int) (Ct G)) => daySumNet_sim c limit hashOf S.pk S.sk0 S.sk1 s d.xs d.ys d.coins)
      (mkDays (gs.days0.map rows) (gs.days1.map (fun d => d.elements.map digitsValue)) coins) ⟨s0, s1, 0, 0⟩
    rw [show runNet _ _ _ = _ from h1] at hsim
    rcases hsim with hsim | hsim
    · simp at hsim
    · exact runSumFrom_not_limit S c hl0 hlim hh hA (s := ⟨s0, s1, 0, 0⟩) i1 hfit hpos0
        (by rw [V]; exact lt_of_le_of_lt F.gen.sum_le (by rw [hmx]; exact hsm)) sX sY hsim
  · obtain ⟨t0, t1⟩ := hl hsmall
    obtain ⟨a1, -, a2, a3⟩ := C74_sum c g q hq hcard hg limit hlim hlimq hashOf hh L B stash node f hf (by omega) ρ hρ coins hc fs o h
      l0 l1 n m hp s ns h1 t0 t1
    exact Or.inr (Or.inr ⟨s, ns, h1, a1, a2 hst, a3⟩)

/-- **C85** (secret shares) The same for `setup --func=SS` and `run --func=SS`. -/
theorem C85_shares (c : Codec G) (g : G) (q : Nat) (hq : q.Prime) (hcard : Nat.card G = q) (hg : g ≠ 0)
    (mont : Int → Option Num.Mont) (hm : Paillier.MontOK mont) (u v : Nat) (huv : Paillier.Primes u v 1) (x x0 x1 : Int)
    (hx : Int.gcd x ((u * v : Nat) : Int) = 1)
    (hx0 : Int.gcd x0 ((u * v : Nat) : Int) = 1) (hx1 : Int.gcd x1 ((u * v : Nat) : Int) = 1)
    (hashOf : Nat → List Bool) (hh : ∀ e, (hashOf e).length = 256) (L B stash node : Nat) (f : SetupFlags)
    (hf : SizesOK L B q stash node f) (ρ : SetupRand) (hρ : ρ.OK L B q f)
    (hu : ρ.paillier.p = u) (hv : ρ.paillier.q = v) (hB : B ≤ u * v) (hmax : f.maxValue ≤ ((u * v : Nat) : Int))
    (coins : Nat → Coins G (Nat × Int) Int) (hc : ∀ i < f.days, DayCoinsOK Prod.fst B q f.daily (coins i))
    (hcs : ∀ i < f.days, SSCoins (u * v) (coins i)) (fs : FS) (o : SetupOut)
    (h : setupMainSS c g q mont x hashOf stash node f ρ fs = .ok o) (l0 : o.lost0 = []) (l1 : o.lost1 = []) :
    mainSS c mont x0 x1 hashOf stash node (RunFlags.of f) coins o.fs = .err "EC_POINT_point2oct failed" ∨
    mainSS c mont x0 x1 hashOf stash node (RunFlags.of f) coins o.fs = .err "[ClientMessageSink] failed to send message" ∨
    ∃ s ns, mainSS c mont x0 x1 hashOf stash node (RunFlags.of f) coins o.fs = .ok (s, ns) ∧
      (f.start + f.days * f.daily ≤ stash → s.p0.lost = [] ∧ s.p1.lost = []) := by
  obtain ⟨S, gs, k0, k1, rfl, rfl, F, hth, hcom, hgen⟩ := setup_foundSS c g q hq hcard hg hh hf hρ mont x h
  rw [hu, hv] at hth
  have K := Paillier.C23_keys (by have := huv.p5; omega) (by have := huv.q5; omega) hth
  obtain ⟨pc, hpc, kc⟩ := Paillier.public_new huv x hx
  obtain ⟨pa, ha, ka⟩ := Paillier.public_new huv x0 hx0
  obtain ⟨pb, hb, kb⟩ := Paillier.public_new huv x1 hx1
  have SK : SSKeys u v mont ⟨k0, pa⟩ ⟨k1, pb⟩ := ⟨huv, hm, K, ka, kb⟩
  have SK' : SSKeys u v mont ⟨k0, pc⟩ ⟨k1, pb⟩ := ⟨huv, hm, K, kc, kb⟩
  have lenx : (gs.days0.map rows).length = f.days := by rw [List.length_map, F.gen.len0]
  have leny : (gs.days1.map (fun d => d.elements.map digitsValue)).length = f.days := by rw [List.length_map, F.gen.len1]
  have hrows := zip_flatten_rows gs.tree0 gs.days0 (by rw [F.gen.t0.1, F.gen.t0.2]) (fun d hd => by rw [(F.gen.day0 d hd).1, (F.gen.day0 d hd).2])
  have hA := F.adm hf (key := Prod.fst) (xs := gs.days0.map rows) (X0 := rows gs.tree0)
    (coins := coins) lenx (fun x hx => by
      obtain ⟨d, hd, rfl⟩ := List.mem_map.1 hx
      rw [rows, List.length_zip, List.length_map, (F.gen.day0 d hd).1, (F.gen.day0 d hd).2, Nat.min_self])
    (by rw [hrows, List.map_fst_zip (by rw [List.length_map, F.gen.total0, F.gen.totalV])]) hc
  have hX := allX_mkDays (lenx.trans leny.symm) coins
  have hY := allY_mkDays (lenx.trans leny.symm) coins
  have hval : ∀ e ∈ rows gs.tree0, 0 ≤ e.2 ∧ e.2 < ((u * v : Nat) : Int) := by
    intro e he
    have := F.gen.vals gs.tree0 (by simp) e.2 (List.of_mem_zip (a := e.1) (b := e.2) he).2
    omega
  have hcs' : ∀ d ∈ mkDays (gs.days0.map rows) (gs.days1.map (fun d => d.elements.map digitsValue)) coins, SSCoins (u * v) d.coins := by
    intro d hd
    obtain ⟨i, hi, -, -, e⟩ := mem_mkDays hd
    rw [e]
    exact hcs i (by omega)
  -- the start
  have T : ∃ s0 s1, startTrees (γ := Ct G × Int) c decNatPair (deserPaillier c) stash node (RunFlags.of f) o.fs = .ok (s0, s1) ∧
      Inv S (funcSS c mont ⟨k0, pa⟩ ⟨k1, pb⟩) (PaySS (u * v)) hashOf B (rows gs.tree0) (gs.tree1.elements.map digitsValue) s0 s1 ∧
      Fits stash (rows gs.tree0) (gs.tree1.elements.map digitsValue) s0 s1 := by
    by_cases hs : 0 < f.start
    · obtain ⟨⟨f0, f1, r1, r2, r3, r4, pub, hpub, sf⟩, -⟩ := F.init hs
      have ht := hf.total
      rw [K.n1] at hpub
      obtain rfl := Outcome.ok.inj (hpub.symm.trans hpc)
      have z1 : (rows gs.tree0).length < 2 ^ 30 := by rw [rows, List.length_zip, List.length_map, F.gen.t0.1]; omega
      have z2 : (gs.tree1.elements.map digitsValue).length < 2 ^ 30 := by rw [List.length_map, F.gen.t1.1]; omega
      obtain ⟨s0, s1, e, -, -, h4⟩ := import_paillier (b := ⟨k1, pb⟩) S SK' hh sf z1 z2
      have hfit := import_paillier_fits S hh sf z1 z2 e
      rw [l0, l1] at e
      refine ⟨s0, s1, ?_, ⟨h4.1, h4.2, h4.3, h4.4, h4.5, h4.6, h4.7, h4.8⟩, hfit⟩
      rw [startTrees, if_pos (show (RunFlags.of f).trees = true from decide_eq_true hs), readTrees_ok r1 r4, Outcome.bind_ok, readTrees_ok r3 r2, Outcome.bind_ok]
      exact e
    · have e0 : gs.tree0.elements = [] := List.length_eq_zero_iff.1 (by rw [F.gen.t0.1]; omega)
      have e1 : gs.tree1.elements = [] := List.length_eq_zero_iff.1 (by rw [F.gen.t1.1]; omega)
      have er : rows gs.tree0 = [] := by rw [rows, e0]; rfl
      rw [er, e1]
      refine ⟨St0.init stash node, St1.init stash node, ?_, Inv.init S _ _ hashOf B stash node, Fits.init stash node⟩
      rw [startTrees, if_neg (by simpa [RunFlags.of] using hs)]; rfl
  obtain ⟨s0, s1, e, i1, hfit⟩ := T
  have e : start (γ := Ct G × Int) c decNatPair (deserPaillier c) loadPairs stash node (RunFlags.of f) o.fs =
      .ok ⟨⟨S.pk, S.sk0, k0⟩, ⟨S.pk, S.sk1, k1⟩, gs.days0.map rows, gs.days1.map (fun d => d.elements.map digitsValue), s0, s1⟩ := by
    unfold start
    have d0 : readDaily ((RunFlags.of f).dataDir ++ "p0/") o.fs (RunFlags.of f).days 1 = .ok gs.days0 := F.daily0
    have d1 : readDaily ((RunFlags.of f).dataDir ++ "p1/") o.fs (RunFlags.of f).days 1 = .ok gs.days1 := F.daily1
    have p0 : additionParty c (RunFlags.of f).outDir "p0" o.fs = _ := F.keys0
    have p1 : additionParty c (RunFlags.of f).outDir "p1" o.fs = _ := F.keys1
    rw [d0, Outcome.bind_ok, d1, Outcome.bind_ok, p0, Outcome.bind_ok, p1, Outcome.bind_ok, e, Outcome.bind_ok]
    change Outcome.bind _ _ = _
    rw [loadPairs_ok _ (F.num0 hf) (fun d hd => by rw [(F.gen.day0 d hd).1, (F.gen.day0 d hd).2])
      (fun d hd v hv => by have := (F.gen.vals d (by simp [hd]) v hv).1; omega)]
    rw [loadElems_ok _ (F.num1 hf)]
    rfl
  have hrun := (runNet_sim (fun s (d : DayIn G (Nat × Int) Int) => daySSNet_sim c mont ⟨k0, pa⟩ ⟨k1, pb⟩ hashOf S.pk S.sk0 S.sk1 s d.xs d.ys d.coins) _ _).only
    (runSSFrom_only S c SK hh hA hcs' hB hval (s := ⟨s0, s1, [], []⟩) i1 hfit)
  rw [mainSS, e, Outcome.bind_ok]
  simp only [K.n1, K.n2]
  rw [ha, Outcome.bind_ok, hb, Outcome.bind_ok]
  rcases hrun.cases with ⟨⟨s, ns⟩, hs, hJ⟩ | ⟨m, hm, rfl | rfl⟩
  · refine Or.inr (Or.inr ⟨s, ns, hs, fun hl => ?_⟩)
    have len0 : (rows gs.tree0 ++ (gs.days0.map rows).flatten).length = f.start + f.days * f.daily := by
      rw [hrows, List.length_zip, List.length_map, F.gen.total0, F.gen.totalV, Nat.min_self]
    rw [List.length_append] at len0
    rw [hX, hY, flatten_elems] at hJ
    exact ⟨hJ.l0 (by rw [List.length_append, List.length_map, len0]; exact hl), hJ.l1 (by rw [List.length_map, F.gen.total1]; exact hl)⟩
  · exact Or.inl hm
  · exact Or.inr (Or.inl hm)

/-- **C85/C74** (secret shares, unconditional for small sets) -/
theorem C85_shares_small (c : Codec G) (g : G) (q : Nat) (hq : q.Prime) (hcard : Nat.card G = q) (hg : g ≠ 0)
    (mont : Int → Option Num.Mont) (hm : Paillier.MontOK mont) (u v : Nat) (huv : Paillier.Primes u v 1) (x x0 x1 : Int)
    (hx : Int.gcd x ((u * v : Nat) : Int) = 1)
    (hx0 : Int.gcd x0 ((u * v : Nat) : Int) = 1) (hx1 : Int.gcd x1 ((u * v : Nat) : Int) = 1)
    (hashOf : Nat → List Bool) (hh : ∀ e, (hashOf e).length = 256) (L B stash node : Nat) (f : SetupFlags)
    (hf : SizesOK L B q stash node f) (ρ : SetupRand) (hρ : ρ.OK L B q f)
    (hu : ρ.paillier.p = u) (hv : ρ.paillier.q = v) (hB : B ≤ u * v) (hmax : f.maxValue ≤ ((u * v : Nat) : Int))
    (coins : Nat → Coins G (Nat × Int) Int) (hc : ∀ i < f.days, DayCoinsOK Prod.fst B q f.daily (coins i))
    (hcs : ∀ i < f.days, SSCoins (u * v) (coins i)) (fs : FS) (o : SetupOut)
    (h : setupMainSS c g q mont x hashOf stash node f ρ fs = .ok o) (hsmall : f.start + f.days * f.daily ≤ stash) (n m : Int)
    (hp : o.printed = some (n, m)) :
    mainSS c mont x0 x1 hashOf stash node (RunFlags.of f) coins o.fs = .err "EC_POINT_point2oct failed" ∨
    mainSS c mont x0 x1 hashOf stash node (RunFlags.of f) coins o.fs = .err "[ClientMessageSink] failed to send message" ∨
    ∃ s ns gs, mainSS c mont x0 x1 hashOf stash node (RunFlags.of f) coins o.fs = .ok (s, ns) ∧
      genAddOnly f.days f.daily f.start (sharedSize f).toNat f.maxValue.toNat ρ.data = .ok gs ∧
      (s.shares0.length : Int) = n ∧ (s.shares1.length : Int) = n ∧
      (List.zipWith (fun x y => (x + y) % ((u * v : Nat) : Int)) s.shares0 s.shares1).Perm
        (((gs.tree0.elements.zip gs.tree0.values).filter
            (fun e => decide (e.1 ∈ allElements gs.tree1 gs.days1) && !decide (e.1 ∈ gs.tree1.elements))).map Prod.snd ++
          ((gs.days0.flatMap (·.elements)).filter (fun e => e ∈ allElements gs.tree1 gs.days1)).map (fun e => (digitsValue e : Int))) ∧
      ns.length = f.days := by
  obtain ⟨l0, l1⟩ : o.lost0 = [] ∧ o.lost1 = [] := by
    obtain ⟨S, gs, k0, k1, rfl, rfl, F, -⟩ := setup_foundSS c g q hq hcard hg hh hf hρ mont x h
    by_cases h0 : 0 < f.start
    · obtain ⟨⟨f0, f1, -, -, -, -, pub, -, sf⟩, -⟩ := F.init h0
      have ht := hf.total
      obtain ⟨ρ0, w0, g0⟩ := sf.ex0
      obtain ⟨ρ1, w1, g1⟩ := sf.ex1
      have lx : (rows gs.tree0).length = f.start := by rw [rows, List.length_zip, List.length_map, F.gen.t0.1, F.gen.t0.2, Nat.min_self]
      have ly : (gs.tree1.elements.map digitsValue).length = f.start := by rw [List.length_map, F.gen.t1.1]
      exact ⟨(gen_fits (fun e => hh _) decNatPair w0.hsh (by omega) g0).2 (by omega),
        (gen_fits hh decNat w1.hsh (by omega) g1).2 (by omega)⟩
    · obtain ⟨a, b, -⟩ := F.fresh (by omega)
      exact ⟨a, b⟩
  rcases C85_shares c g q hq hcard hg mont hm u v huv x x0 x1 hx hx0 hx1 hashOf hh L B stash node f hf ρ hρ hu hv hB hmax coins hc hcs fs o h
    l0 l1 with h1 | h1 | ⟨s, ns, h1, hl⟩
  · exact Or.inl h1
  · exact Or.inr (Or.inl h1)
  · obtain ⟨t0, t1⟩ := hl hsmall
    obtain ⟨gs, r⟩ := C74_shares_initial c g q hq hcard hg mont hm u v huv x x0 x1 hx hx0 hx1 hashOf hh L B stash node f hf ρ hρ hu hv
      coins hc fs o h l0 l1 n m hp s ns h1 t0 t1
    exact Or.inr (Or.inr ⟨s, ns, gs, h1, r⟩)

end Upsi.Main
