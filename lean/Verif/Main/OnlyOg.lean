import Verif.Main.OgEndProps
import Verif.Main.NetOnly
import Verif.Setup.ImportProgress
/- Property theorem C85, original protocol: after setup, the parties' programs never crash. -/
namespace Upsi.Main
open Upsi Upsi.Rec Upsi.ElGamal Upsi.Tree Upsi.Proto Upsi.Setup Upsi.Wire Upsi.Data

variable {G : Type} [AddCommGroup G] [DecidableEq G]

theorem dayOgNet_sim (K : OgKeys G) (c cu : Codec G) (H : Nat → G) (hashOf : Nat → List Bool) (s : OgSt G) (xs ys : List Nat) (ρ : OgCoins G) :
    Sim Prod.fst (dayOgNet K c cu H hashOf s xs ys ρ) (dayOg K c cu H hashOf s xs ys ρ) := by
  unfold dayOgNet dayOg
  refine Sim.same (fun v => Sim.toServer ?_)
  simp only [ogI, getOgI, Option.getD_some, Outcome.bind_ok]
  refine Sim.same (fun v => Sim.toClient ?_)
  simp only [ogII, getOgII, Option.getD_some]
  refine Sim.same (fun v => Sim.toServer ?_)
  simp only [getOgIII, Outcome.bind_ok]
  refine Sim.same (fun v => Sim.toClient ?_)
  simp only [getOgIV]
  refine Sim.same (fun v => Sim.toServer ?_)
  simp only [getOgV, Outcome.bind_ok]
  exact Sim.same (fun v => Or.inr rfl)

/-- What the run of the parties is admissible for. -/
theorem FoundOg.adm {c cu : Codec G} {H : Nat → G} {hashOf : Nat → List Bool}
    {L B stash node : Nat} {f : SetupFlags} {fs : FS} {o : OgSetupOut} {S : Setup G} {gs : GenSets}
    (F : FoundOg c cu H hashOf L B stash node f fs o S gs) (hf : SizesOK L B S.q stash node f) {ρ : OgSetupRand} (hρ : ρ.OK L B S.q f)
    (hgen : genAddOnly f.days f.daily f.start (sharedSize f).toNat f.maxValue.toNat ρ.data = .ok gs)
    (hH : ∀ x ∈ drawn ρ.data, ∀ y ∈ drawn ρ.data, H x = H y → x = y)
    {coins : Nat → OgCoins G} (hc : ∀ i < f.days, OgCoinsOK B S.q f.daily (coins i)) :
    OgAdmissible S B H (gs.tree0.elements.map digitsValue) (gs.tree1.elements.map digitsValue)
      (mkOgDays (gs.days0.map (fun d => d.elements.map digitsValue)) (gs.days1.map (fun d => d.elements.map digitsValue)) coins) := by
  have ht := hf.total
  have lenx : (gs.days0.map (fun d => d.elements.map digitsValue)).length = f.days := by rw [List.length_map, F.gen.len0]
  have leny : (gs.days1.map (fun d => d.elements.map digitsValue)).length = f.days := by rw [List.length_map, F.gen.len1]
  have hX := ogX_mkDays (lenx.trans leny.symm) coins
  have hY := ogY_mkDays (lenx.trans leny.symm) coins
  obtain ⟨g0, g1⟩ := gen_perm hρ.draws (by omega) hgen
  have m0 : ∀ x ∈ (allElements gs.tree0 gs.days0).map digitsValue, x ∈ drawn ρ.data := by
    intro x hx
    obtain ⟨e, he, rfl⟩ := List.mem_map.1 hx
    refine List.mem_map.2 ⟨e, ?_, rfl⟩
    have := g0.mem_iff.1 he
    simp only [List.mem_append] at this ⊢
    tauto
  have m1 : ∀ x ∈ (allElements gs.tree1 gs.days1).map digitsValue, x ∈ drawn ρ.data := by
    intro x hx
    obtain ⟨e, he, rfl⟩ := List.mem_map.1 hx
    refine List.mem_map.2 ⟨e, ?_, rfl⟩
    have := g1.mem_iff.1 he
    simp only [List.mem_append] at this ⊢
    tauto
  refine ⟨hf.order, F.nz0, F.nz1, fun d hd => ?_, ?_, ?_, ?_, ?_, ?_, ?_⟩
  · obtain ⟨i, hi, -, m2, e⟩ := mem_mkOgDays hd
    have C := hc i (by omega)
    rw [e]
    have ly : d.ys.length = f.daily := by
      obtain ⟨y, hy, e'⟩ := List.mem_map.1 m2
      rw [← e', List.length_map, (F.gen.day1 y hy).1]
    exact ⟨⟨C.hsh.1.trans ly.symm, C.hsh.2⟩, C.pads, C.beta, C.gamma, C.shuffle, C.mask⟩
  · rw [hX, flatten_elems]
    intro x hx
    obtain ⟨e, he, rfl⟩ := List.mem_map.1 hx
    exact (F.gen.all0 e he).2.2
  · rw [hY, flatten_elems]
    intro x hx
    obtain ⟨e, he, rfl⟩ := List.mem_map.1 hx
    exact (F.gen.all1 e he).2.2
  · rw [hX, flatten_elems]; exact nodup_values F.gen.all0 F.gen.nodup0
  · rw [hY, flatten_elems]; exact nodup_values F.gen.all1 F.gen.nodup1
  · rw [hY, flatten_elems, List.length_map, F.gen.total1]; omega
  · rw [hX, hY, flatten_elems, flatten_elems]
    have m : ∀ x ∈ (allElements gs.tree0 gs.days0).map digitsValue ++ (allElements gs.tree1 gs.days1).map digitsValue,
        x ∈ drawn ρ.data := fun x hx => (List.mem_append.1 hx).elim (m0 x) (m1 x)
    exact fun x hx y hy => hH x (m x hx) y (m y hy)

/-- The tree party one starts with has room for as much as the stash holds. -/
theorem FoundOg.stash {c cu : Codec G} {H : Nat → G} {hashOf : Nat → List Bool} (hh : ∀ e, (hashOf e).length = 256)
    {L B stash node : Nat} {f : SetupFlags} {fs : FS} {o : OgSetupOut} {S : Setup G} {gs : GenSets}
    (F : FoundOg c cu H hashOf L B stash node f fs o S gs) (hf : SizesOK L B S.q stash node f) {s : OgSt G}
    (e : startOgTrees c cu stash node (RunFlags.of f) o.fs = .ok s) :
    s.p1.tree.stashSize = stash ∧ s.p1.lost = [] := by
  by_cases hs : 0 < f.start
  · obtain ⟨⟨f1, hx, r1, r2, r3, sf⟩, -⟩ := F.init hs
    have ht := hf.total
    have r1 : readKey parsePTree ((RunFlags.of f).dataDir ++ "p1/" ++ "plaintext.tree") o.fs = .ok f1.plain := r1
    have r2 : readKey parseETree ((RunFlags.of f).dataDir ++ "p0/" ++ "encrypted.tree") o.fs = .ok f1.enc := r2
    have r3 : readKey parseOPRF ((RunFlags.of f).dataDir ++ "p0/" ++ "elements.ec") o.fs = .ok _ := r3
    rw [startOgTrees, if_pos (show (RunFlags.of f).trees = true from decide_eq_true hs), r2, r3, r1] at e
    simp only [orAbort, Outcome.bind_ok, kv_values] at e
    obtain ⟨ρ, w, g⟩ := sf.tree
    unfold genOg1 genAdd1 at g
    obtain ⟨b1, b2⟩ := gen_fits hh decNat w.hsh (by rw [List.length_map, F.gen.t1.1]; omega) g
    simp only [importOg, Outcome.bind_eq_ok, Outcome.pure_eq, Outcome.ok.injEq] at e
    obtain ⟨_, -, _, -, rfl⟩ := e
    exact ⟨b1, rfl⟩
  · rw [startOgTrees, if_neg (by simpa [RunFlags.of] using hs)] at e
    obtain rfl := Outcome.ok.inj e
    exact ⟨rfl, rfl⟩

/-- What starting the programs implies about the state they start with. -/
theorem startOg_trees {c cu : Codec G} {stash node : Nat} {f : RunFlags} {fs : FS} {b : StartedOg G}
    (h : startOg c cu stash node f fs = .ok b) : startOgTrees c cu stash node f fs = .ok b.s := by
  simp only [startOg, Outcome.bind_eq_ok, Outcome.pure_eq, Outcome.ok.injEq] at h
  obtain ⟨d0, -, d1, -, xs, -, ys, -, k0, -, k1, -, s, e, rfl⟩ := h
  exact e

/-- **C85** (original protocol) After `original/setup.cc` ended normally without losing an element of party one's initial set, both
programs of `original/run.cc` start from its files and end normally, or with the error raised when a point to be sent is the point
at infinity, or with the error of a message larger than gRPC accepts.  No element is lost unless party one's sets exceed the
stash. -/
theorem C85_original (c cu : Codec G) (g : G) (q : Nat) (hq : q.Prime) (hcard : Nat.card G = q) (hg : g ≠ 0) (H : Nat → G)
    (hashOf : Nat → List Bool) (hh : ∀ e, (hashOf e).length = 256) (L B stash node : Nat) (f : SetupFlags)
    (hf : SizesOK L B q stash node f) (hsh : f.shared < 2 ^ 31) (ρ : OgSetupRand) (hρ : ρ.OK L B q f)
    (hH : ∀ x ∈ drawn ρ.data, ∀ y ∈ drawn ρ.data, H x = H y → x = y)
    (coins : Nat → OgCoins G) (hc : ∀ i < f.days, OgCoinsOK B q f.daily (coins i)) (fs : FS) (o : OgSetupOut)
    (h : setupMainOg c cu g q H hashOf stash node f ρ fs = .ok o) (l1 : o.lost1 = []) :
    mainOg c cu q H hashOf stash node (RunFlags.of f) coins o.fs = .err "EC_POINT_point2oct failed" ∨
    mainOg c cu q H hashOf stash node (RunFlags.of f) coins o.fs = .err "[ClientMessageSink] failed to send message" ∨
    ∃ s ns, mainOg c cu q H hashOf stash node (RunFlags.of f) coins o.fs = .ok (s, ns) ∧
      (f.start + f.days * f.daily ≤ stash → s.p1.lost = []) := by
  obtain ⟨S, gs, rfl, rfl, F, hcom, hgen⟩ := og_found c cu g q hq hcard hg H hh hf hsh hρ h
  obtain ⟨s0, e, i1, -⟩ := F.start hh hf l1
  obtain ⟨z1, z2⟩ := F.stash hh hf (startOg_trees e)
  have hA := F.adm hf hρ hgen hH hc
  have lenx : (gs.days0.map (fun d => d.elements.map digitsValue)).length = f.days := by rw [List.length_map, F.gen.len0]
  have leny : (gs.days1.map (fun d => d.elements.map digitsValue)).length = f.days := by rw [List.length_map, F.gen.len1]
  have hsim := runNet_sim
    (step := fun s (d : OgDay G) => dayOgRead S.q ⟨S.og.pk0, S.og.pk1, S.sk0⟩ ⟨S.og.pk1, S.og.pk0, S.sk1⟩ c cu H hashOf s d.xs d.ys d.coins)
    (step' := fun s (d : OgDay G) => dayOg S.og c cu H hashOf s d.xs d.ys d.coins)
    (fun s d => dayOgNet_sim S.og c cu H hashOf s d.xs d.ys d.coins)
    (mkOgDays (gs.days0.map (fun d => d.elements.map digitsValue)) (gs.days1.map (fun d => d.elements.map digitsValue)) coins) s0
  rw [mainOg, e, Outcome.bind_ok]
  have hrun : (runDays (fun s (d : OgDay G) => dayOg S.og c cu H hashOf s d.xs d.ys d.coins) s0
      (mkOgDays (gs.days0.map (fun d => d.elements.map digitsValue)) (gs.days1.map (fun d => d.elements.map digitsValue)) coins)).Only
      InfErr (fun s => f.start + f.days * f.daily ≤ stash → s.p1.lost = []) := by
    rcases C63_original_only S c cu H hashOf hh B _ _ s0 i1 _ hA with h1 | ⟨s, h1, hl⟩
    · rw [show runDays _ _ _ = _ from h1]; exact rfl
    · rw [show runDays _ _ _ = _ from h1]
      intro hsm
      refine hl z2 ?_
      rw [z1, ogY_mkDays (lenx.trans leny.symm), flatten_elems, List.length_map, F.gen.total1]
      exact hsm
  rcases (hsim.only hrun).cases with ⟨⟨s, ns⟩, hs, hJ⟩ | ⟨m, hm, rfl | rfl⟩
  · exact Or.inr (Or.inr ⟨s, ns, hs, hJ⟩)
  · exact Or.inl hm
  · exact Or.inr (Or.inl hm)

/-- **C85/C76** (original protocol, unconditional for small sets) If party one's sets fit the stash, setup loses no element, and the
programs end with one of the two errors or report what setup printed. -/
theorem C85_original_small (c cu : Codec G) (g : G) (q : Nat) (hq : q.Prime) (hcard : Nat.card G = q) (hg : g ≠ 0) (H : Nat → G)
    (hashOf : Nat → List Bool) (hh : ∀ e, (hashOf e).length = 256) (L B stash node : Nat) (f : SetupFlags)
    (hf : SizesOK L B q stash node f) (hsh : f.shared < 2 ^ 31) (ρ : OgSetupRand) (hρ : ρ.OK L B q f)
    (hH : ∀ x ∈ drawn ρ.data, ∀ y ∈ drawn ρ.data, H x = H y → x = y)
    (coins : Nat → OgCoins G) (hc : ∀ i < f.days, OgCoinsOK B q f.daily (coins i)) (fs : FS) (o : OgSetupOut)
    (h : setupMainOg c cu g q H hashOf stash node f ρ fs = .ok o) (hsmall : f.start + f.days * f.daily ≤ stash) :
    mainOg c cu q H hashOf stash node (RunFlags.of f) coins o.fs = .err "EC_POINT_point2oct failed" ∨
    mainOg c cu q H hashOf stash node (RunFlags.of f) coins o.fs = .err "[ClientMessageSink] failed to send message" ∨
    ∃ s ns gs, mainOg c cu q H hashOf stash node (RunFlags.of f) coins o.fs = .ok (s, ns) ∧
      genAddOnly f.days f.daily f.start (sharedSize f).toNat f.maxValue.toNat ρ.data = .ok gs ∧
      (s.p0.intersection ++ (gs.tree0.elements.filter (fun e => e ∈ gs.tree1.elements)).map digitsValue).Perm
        (ρ.data.shared.map digitsValue) ∧
      (∀ n, o.printed = some n → ((shownOg s).1 : Int) = n) ∧
      ((shownOg s).1 < 30 → (shownOg s).2 = s.p0.intersection.map digits) ∧ ns.length = f.days := by
  have l1 : o.lost1 = [] := by
    obtain ⟨S, gs, rfl, rfl, F, -⟩ := og_found c cu g q hq hcard hg H hh hf hsh hρ h
    by_cases hs : 0 < f.start
    · obtain ⟨⟨f1, hx, -, -, -, sf⟩, -⟩ := F.init hs
      have ht := hf.total
      obtain ⟨ρ', w, g⟩ := sf.tree
      unfold genOg1 genAdd1 at g
      exact (gen_fits hh decNat w.hsh (by rw [List.length_map, F.gen.t1.1]; omega) g).2 (by rw [List.length_map, F.gen.t1.1]; omega)
    · exact (F.fresh (by omega)).1
  rcases C85_original c cu g q hq hcard hg H hashOf hh L B stash node f hf hsh ρ hρ hH coins hc fs o h l1 with h1 | h1 | ⟨s, ns, h1, hl⟩
  · exact Or.inl h1
  · exact Or.inr (Or.inl h1)
  · obtain ⟨gs, r⟩ := C76_original c cu g q hq hcard hg H hashOf hh L B stash node f hf hsh ρ hρ hH coins hc fs o h l1 s ns h1 (hl hsmall)
    exact Or.inr (Or.inr ⟨s, ns, gs, h1, r⟩)

end Upsi.Main
