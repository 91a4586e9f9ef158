import Verif.Main.MockMain
import Verif.Main.AddEndProps
import Verif.Main.DelEndProps
import Verif.Mock.AddProps
import Verif.Mock.DelProps
/-
Property theorems C84: after a setup without initial sets, the parties run with `--start_size` report what setup printed.
-/
namespace Upsi.Main
open Upsi Upsi.Rec Upsi.ElGamal Upsi.Tree Upsi.Proto Upsi.Setup Upsi.Wire Upsi.Num Upsi.Data Upsi.Mock Upsi.Paillier

variable {G : Type} [AddCommGroup G] [DecidableEq G]

/-- The random elements of the mock trees (`mockElements`, C78) lie below `B`, and none is an element of the data sets `ys`, `xs` of
the other party; the elements of the data sets are positive (copies of mock trees encrypt zero). -/
structure Apart (B size : Nat) (m0 m1 : MockCoins) (xs ys : List Nat) : Prop where
  mock0 : ∀ M, mockElements m0.rnd 0 size = .ok M → ∀ m ∈ M, m < B ∧ m ∉ ys
  mock1 : ∀ M, mockElements m1.rnd 0 size = .ok M → ∀ m ∈ M, m < B ∧ m ∉ xs
  pos0 : ∀ x ∈ xs, 0 < x
  pos1 : ∀ y ∈ ys, 0 < y

/-- **C84** (secret shares) After a setup without initial sets, both parties of `addition/run.cc --func=SS` run with the same positive
`--start_size`: if the random initial elements of either party are no elements of the other one's data sets, and no tree loses an entry, the
shares they end up with add up (modulo the Paillier modulus) to exactly the shared elements setup drew, and their number is the
printed cardinality – as without mock trees. -/
theorem C84_shares (c : Codec G) (g : G) (q : Nat) (hq : q.Prime) (hcard : Nat.card G = q) (hg : g ≠ 0)
    (mont : Int → Option Num.Mont) (hm : Paillier.MontOK mont) (u v : Nat) (huv : Paillier.Primes u v 1) (x0 x1 : Int)
    (hx0 : Int.gcd x0 ((u * v : Nat) : Int) = 1) (hx1 : Int.gcd x1 ((u * v : Nat) : Int) = 1)
    (hashOf : Nat → List Bool) (hh : ∀ e, (hashOf e).length = 256) (L B stash node : Nat) (f : SetupFlags)
    (hf : SizesOK L B q stash node f) (hBq : B < q) (h0 : f.start = 0) (ρ : SetupRand) (hρ : ρ.OK L B q f)
    (hu : ρ.paillier.p = u) (hv : ρ.paillier.q = v)
    (coins : Nat → Coins G (Nat × Int) Int) (hc : ∀ i < f.days, DayCoinsOK Prod.fst B q f.daily (coins i)) (fs : FS) (o : SetupOut)
    (h : setupMain c g q hashOf stash node f ρ fs = .ok o) (n m : Int) (hp : o.printed = some (n, m))
    (size : Int) (hs0 : 0 < size) (hs : size.toNat + f.days * f.daily < 2 ^ 30) (m0 m1 : MockCoins) (w0 : m0.WF size.toNat (u * v) 1)
    (w1 : m1.WF size.toNat (u * v) 1)
    (hap : ∀ gs, genAddOnly f.days f.daily f.start (sharedSize f).toNat f.maxValue.toNat ρ.data = .ok gs →
      Apart B size.toNat m0 m1 ((allElements gs.tree0 gs.days0).map digitsValue) ((allElements gs.tree1 gs.days1).map digitsValue))
    (s : StSS G) (ns : List Int)
    (hr : mainSSMock c mont x0 x1 hashOf stash node (RunFlags.of f) size size m0 m1 coins o.fs = .ok (s, ns))
    (t0 : s.p0.lost = []) (t1 : s.p1.lost = []) :
    (s.shares0.length : Int) = n ∧ (s.shares1.length : Int) = n ∧
    (List.zipWith (fun x y => (x + y) % ((u * v : Nat) : Int)) s.shares0 s.shares1).Perm
      (ρ.data.shared.map (fun e => (digitsValue e : Int))) ∧ ns.length = f.days := by
  obtain ⟨S, gs, k0, k1, rfl, rfl, F, -, -, hth, hcom, hgen⟩ := setup_found c g q hq hcard hg hh hf hρ h
  have AP := hap gs hgen
  have e0 : gs.tree0.elements = [] := List.length_eq_zero_iff.1 (by rw [F.gen.t0.1]; omega)
  have e1 : gs.tree1.elements = [] := List.length_eq_zero_iff.1 (by rw [F.gen.t1.1]; omega)
  have e : start (γ := Ct G × Int) c decNatPair (deserPaillier c) loadPairs stash node (RunFlags.of f) o.fs =
      .ok ⟨⟨S.pk, S.sk0, k0⟩, ⟨S.pk, S.sk1, k1⟩, gs.days0.map rows, gs.days1.map (fun d => d.elements.map digitsValue),
        St0.init stash node, St1.init stash node⟩ := by
    unfold start
    have d0 : readDaily ((RunFlags.of f).dataDir ++ "p0/") o.fs (RunFlags.of f).days 1 = .ok gs.days0 := F.daily0
    have d1 : readDaily ((RunFlags.of f).dataDir ++ "p1/") o.fs (RunFlags.of f).days 1 = .ok gs.days1 := F.daily1
    have p0 : additionParty c (RunFlags.of f).outDir "p0" o.fs = _ := F.keys0
    have p1 : additionParty c (RunFlags.of f).outDir "p1" o.fs = _ := F.keys1
    rw [d0, Outcome.bind_ok, d1, Outcome.bind_ok, p0, Outcome.bind_ok, p1, Outcome.bind_ok, startTrees,
      if_neg (by simp [RunFlags.of, h0]), Outcome.bind_ok]
    rw [loadPairs_ok _ (F.num0 hf) (fun d hd => by rw [(F.gen.day0 d hd).1, (F.gen.day0 d hd).2])
      (fun d hd v hv => by have := (F.gen.vals d (by simp [hd]) v hv).1; omega)]
    change Outcome.bind _ _ = _
    rw [loadElems_ok _ (F.num1 hf)]
    rfl
  rw [hu, hv] at hth
  have K := Paillier.C23_keys (by have := huv.p5; omega) (by have := huv.q5; omega) hth
  rw [mainSSMock, if_neg (by simp [RunFlags.of, h0]), e, Outcome.bind_ok] at hr
  simp only [K.n1, K.n2, Outcome.bind_eq_ok] at hr
  obtain ⟨pa, ha, pb, hb, s0, hs1, s1, hs2, hr⟩ := hr
  obtain ⟨pa', ha', ka⟩ := Paillier.public_new huv x0 hx0
  obtain ⟨pb', hb', kb⟩ := Paillier.public_new huv x1 hx1
  obtain rfl := Outcome.ok.inj (ha.symm.trans ha')
  obtain rfl := Outcome.ok.inj (hb.symm.trans hb')
  have SK : SSKeys u v mont ⟨k0, pa⟩ ⟨k1, pb⟩ := ⟨huv, hm, K, ka, kb⟩
  have lenx : (gs.days0.map rows).length = f.days := by rw [List.length_map, F.gen.len0]
  have leny : (gs.days1.map (fun d => d.elements.map digitsValue)).length = f.days := by rw [List.length_map, F.gen.len1]
  have hrows : (gs.days0.map rows).flatten =
      ((allElements gs.tree0 gs.days0).map digitsValue).zip (allValues gs.tree0 gs.days0) := by
    have := zip_flatten_rows gs.tree0 gs.days0 (by rw [F.gen.t0.1, F.gen.t0.2]) (fun d hd => by rw [(F.gen.day0 d hd).1, (F.gen.day0 d hd).2])
    rw [← this, rows, e0]; rfl
  have hfst : (gs.days0.map rows).flatten.map Prod.fst = (allElements gs.tree0 gs.days0).map digitsValue := by
    rw [hrows, List.map_fst_zip (by rw [List.length_map, F.gen.total0, F.gen.totalV])]
  have hA := F.adm hf (key := Prod.fst) (xs := gs.days0.map rows) (X0 := [])
    (coins := coins) lenx (fun x hx => by
      obtain ⟨d, hd, rfl⟩ := List.mem_map.1 hx
      rw [rows, List.length_zip, List.length_map, (F.gen.day0 d hd).1, (F.gen.day0 d hd).2, Nat.min_self])
    (by rw [List.nil_append, hfst]) hc
  rw [e1] at hA
  have hX := allX_mkDays (lenx.trans leny.symm) coins
  have hY := allY_mkDays (lenx.trans leny.symm) coins
  have hY' : (gs.days1.map (fun d => d.elements.map digitsValue)).flatten = (allElements gs.tree1 gs.days1).map digitsValue := by
    have := flatten_elems gs.tree1 gs.days1
    rw [e1] at this
    exact this
  obtain ⟨h1, h2⟩ := runNet_runDays (step := fun s (d : DayIn G (Nat × Int) Int) => daySSNet c mont ⟨k0, pa⟩ ⟨k1, pb⟩ hashOf S.pk S.pk S.sk0 S.sk1 s d.xs d.ys d.coins)
    (step' := fun s d => daySS c mont ⟨k0, pa⟩ ⟨k1, pb⟩ hashOf S.pk S.sk0 S.sk1 s d.xs d.ys d.coins)
    (fun s d s' n e => ((C73_shares c mont ⟨k0, pa⟩ ⟨k1, pb⟩ hashOf S.pk S.sk0 S.sk1 s s' d.xs d.ys d.coins n).1 e).1) _ _ _ _ hr
  rw [mkDays_length, lenx, leny, Nat.min_self] at h2
  have adm : MockAdmissible S B size.toNat (mkDays (gs.days0.map rows) (gs.days1.map (fun d => d.elements.map digitsValue)) coins) :=
    { bound := hBq
      coins := hA.coins
      x := fun p hp => by
        refine ⟨AP.pos0 _ ?_, hA.x p (List.mem_append_right _ hp)⟩
        rw [← hfst, ← hX]
        exact List.mem_map_of_mem hp
      y := fun y hy => by
        refine ⟨AP.pos1 _ ?_, hA.y y (List.mem_append_right _ hy)⟩
        rw [← hY', ← hY]
        exact hy
      sizeX := by
        have := congrArg List.length hfst
        rw [List.length_map, List.length_map, F.gen.total0] at this
        rw [hX, this, h0, Nat.zero_add]; exact hs
      sizeY := by
        rw [hY, hY', List.length_map, F.gen.total1, h0, Nat.zero_add]; exact hs }
  have hnd : (allY (mkDays (gs.days0.map rows) (gs.days1.map (fun d => d.elements.map digitsValue)) coins)).Nodup := by
    rw [hY, hY']; exact nodup_values F.gen.all1 F.gen.nodup1
  obtain ⟨M0, M1, st, g0, g1, -, g2, g3⟩ := C78_shares S c SK hashOf hh B stash node size hs0 m0 m1 w0 w1 _ adm hnd
  have hst : st = ⟨s0, s1, [], []⟩ := by
    rw [startSS, hs1, Outcome.bind_ok, hs2, Outcome.bind_ok, Outcome.pure_eq, Outcome.ok.injEq] at g2
    exact g2.symm
  rw [hst] at g3
  obtain ⟨r1, r2⟩ := g3 s (fun x hx => by
      rcases List.mem_append.1 hx with hx | hx
      · exact (AP.mock0 _ g0 x hx).1
      · exact (AP.mock1 _ g1 x hx).1)
    (fun x hx => by rw [hY, hY']; exact (AP.mock0 _ g0 x hx).2)
    (fun x hx => by rw [hX, hfst]; exact (AP.mock1 _ g1 x hx).2) h1 t0 t1
  rw [hX, hY, hY', hfst, filter_values F.gen.all0 F.gen.all1] at r2
  have r3 : (List.zipWith (fun x y => (x + y) % ((u * v : Nat) : Int)) s.shares0 s.shares1).Perm
      (ρ.data.shared.map (fun e => (digitsValue e : Int))) := by
    refine r2.trans ?_
    have := hcom.map (fun e => (digitsValue e : Int))
    rw [List.map_map]
    exact this
  have L := r3.length_eq
  rw [List.length_zipWith, List.length_map, hρ.draws.sharedLen] at L
  obtain ⟨-, -, hpr⟩ := F.fresh h0
  rw [hpr] at hp
  simp only [Option.some.injEq, Prod.mk.injEq] at hp
  have := F.shared
  exact ⟨by omega, by omega, r3, h2⟩

end Upsi.Main
