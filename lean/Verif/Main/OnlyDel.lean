import Verif.Main.NetOnly
import Verif.Main.DelEndProps
import Verif.Setup.ImportProgress
/- Property theorems C85 for the protocols with deletions. -/
namespace Upsi.Main
open Upsi Upsi.Rec Upsi.Tree Upsi.Tree.Props Upsi.Proto Upsi.Setup Upsi.Wire Upsi.Data Upsi.Num Upsi.Paillier

variable {mont : Int → Option Mont} {p0 q0 p1 q1 : Nat} {k0 k1 : DKeys}

theorem Sim.ends {f : α → β} {a : Outcome α} {b : Outcome β} (h : Sim f a b) {U : Prop} {Q : β → Prop} (hb : b.Ends U Q) :
    a = .err "[ClientMessageSink] failed to send message" ∨ (∃ v, a = .ok v ∧ Q (f v)) ∨ (a = .ub ∧ U) := by
  rcases h with h | h
  · exact Or.inl h
  · cases a with
    | ok v => simp only at h; subst h; exact Or.inr (Or.inl ⟨v, rfl, hb⟩)
    | err m => simp only at h; subst h; exact absurd hb (by simp [Outcome.Ends])
    | abort => simp only at h; subst h; exact absurd hb (by simp [Outcome.Ends])
    | ub => simp only at h; subst h; exact Or.inr (Or.inr ⟨rfl, hb⟩)

theorem toServer_big {m : CMsg} (h : ¬ (serClient m).length ≤ maxMessage) : toServer m = .err "[ClientMessageSink] failed to send message" := by
  rw [toServer, if_neg h]

theorem toClient_big {m : SMsg} (h : ¬ (serServer m).length ≤ maxMessage) : toClient m = .err "[ClientMessageSink] failed to send message" := by
  rw [toClient, if_neg h]

/-- A round that succeeds by direct calls succeeds over the network unless a message is too large. -/
theorem roundNet_flat_ends {hashOf : Nat → List Bool} {s0 s1 : DSt} {xs ys : List EP} {ρ : RoundCoins} {a b : DSt} {o : RoundOut}
    (h : roundDel mont hashOf k0 k1 s0 s1 xs ys ρ = .ok (a, b, o)) :
    roundNet flatFormat mont hashOf k0 k1 s0 s1 xs ys ρ = .err "[ClientMessageSink] failed to send message" ∨
    ∃ n0 n1, roundNet flatFormat mont hashOf k0 k1 s0 s1 xs ys ρ = .ok (a, b, ⟨o.items0, [o.resp1.flatten], o.items1, [o.resp0.flatten]⟩, n0, n1) := by
  have hd := h
  simp only [roundDel, Outcome.bind_eq_ok, Outcome.pure_eq, Outcome.ok.injEq, Prod.exists] at hd
  obtain ⟨s0', m1, g0, h1, s1', m2, z1, g1, h2, s0'', z0, h3, -⟩ := hd
  by_cases l1 : (serClient (.p0 (.i (flatFormat.pack m1)))).length ≤ maxMessage
  · by_cases l2 : (serServer (.p1 (.ii (flatFormat.pack m2)))).length ≤ maxMessage
    · exact Or.inr ⟨_, _, (roundNet_flat mont hashOf k0 k1 s0 s1 xs ys ρ a b _ _ _).2
        ⟨⟨o, h, rfl⟩, m1, m2, ⟨s0', g0, s1', z1, g1, h1, h2⟩, l1, l2, rfl, rfl⟩⟩
    · left
      have e2 := (delGenII_flat mont hashOf k1 s1 m1 ys ρ s1' m2 [z1.flatten] g1).2 ⟨z1, h2, rfl⟩
      simp only [roundNet, h1, Outcome.bind_ok, toServer_iff.2 ⟨rfl, l1⟩, getDelI, flat_unpack, e2, toClient_big l2]
      rfl
  · left
    simp only [roundNet, h1, Outcome.bind_ok, toServer_big l1]
    rfl

theorem dayDelNet_sim {ro : List UInt8 → Nat} {hashOf : Nat → List Bool} {s : StDel} {xs ys : List EP} {ρ : DelCoins} {a b : DSt} {o : RoundOut}
    (h : roundDel mont hashOf k0 k1 s.p0 s.p1 xs ys ρ.round = .ok (a, b, o)) :
    Sim Prod.fst (dayDelNet ro mont hashOf k0 k1 s xs ys ρ) (dayDel ro mont hashOf k0 k1 s xs ys ρ) := by
  unfold dayDelNet dayDel
  rcases roundNet_flat_ends h with e | ⟨n0, n1, e⟩
  · rw [e]; exact Or.inl rfl
  · rw [e, h, Outcome.bind_ok, Outcome.bind_ok]
    simp only [List.flatten_cons, List.flatten_nil, List.append_nil]
    exact Sim.same (fun _ => Sim.same (fun _ => Or.inr rfl))

/-- A round of deletion-psi over the network. -/
theorem roundNet_group_sim (hashOf : Nat → List Bool) (s0 s1 : DSt) (xs ys : List EP) (ρ : RoundCoins) :
    Sim (fun v => (v.1, v.2.1, v.2.2.1)) (roundNet groupFormat mont hashOf k0 k1 s0 s1 xs ys ρ) (roundDel mont hashOf k0 k1 s0 s1 xs ys ρ) := by
  unfold roundNet roundDel
  refine Sim.same (fun v => ?_)
  obtain ⟨s0', m1, g0⟩ := v
  refine Sim.toServer ?_
  simp only [getDelI, group_unpack, Outcome.bind_ok]
  refine Sim.same (fun v => ?_)
  obtain ⟨s1', m2, r1, g1⟩ := v
  refine Sim.toClient ?_
  simp only [getDelII, group_unpack, Outcome.bind_ok]
  exact Sim.same (fun _ => Or.inr rfl)

theorem dayDelPsiNet_sim (ro : List UInt8 → Nat) (hashOf : Nat → List Bool) (s : StDelPsi) (xs ys : List EP) (ρ : DelPsiCoins) :
    Sim Prod.fst (dayDelPsiNet ro mont hashOf k0 k1 s xs ys ρ) (dayDelPsi ro mont hashOf k0 k1 s xs ys ρ) := by
  unfold dayDelPsiNet dayDelPsi
  refine (roundNet_group_sim _ _ _ _ _ _).bind (fun v _ => ?_)
  obtain ⟨a0, a1, o1, n0, n1⟩ := v
  refine (roundNet_group_sim _ _ _ _ _ _).bind (fun v _ => ?_)
  obtain ⟨b0, b1, o2, n0', n1'⟩ := v
  exact Sim.same (fun _ => Sim.same (fun _ => Sim.same (fun _ => Sim.same (fun _ => Or.inr rfl))))

theorem outcome_bind_pure (x : Outcome α) : (x >>= fun v => pure v) = x := by cases x <;> rfl

theorem runDelNet_sim (K : Keys p0 q0 p1 q1 mont k0 k1) {ro : List UInt8 → Nat} {h : Nat → List Bool}
    (hh : ∀ e, (h e).length = 256) {B : Nat} (hB0 : B ≤ p0 * q0) (hB1 : B ≤ p1 * q1) {stash : Nat}
    (ds : List DayDelIn) : ∀ (X Y : List EP) (s : StDel),
    DInv h B (p0 * q0) (p1 * q1) X Y s.p0 s.p1 → DFit stash X s.p0 → DFit stash Y s.p1 →
    (∀ d ∈ ds, d.coins.round.WF B (p0 * q0) (p1 * q1) d.xs d.ys) → (∀ d ∈ ds, d.coins.Usable B (p0 * q0) (p1 * q1)) →
    (∀ e ∈ delX ds, e.1 < B) → (∀ e ∈ delY ds, e.1 < B) →
    (X ++ delX ds).length < 2 ^ 30 → (Y ++ delY ds).length < 2 ^ 30 →
    absMass (X ++ delX ds) < p0 * q0 → absMass (X ++ delX ds) < p1 * q1 →
    absMass (Y ++ delY ds) < p0 * q0 → absMass (Y ++ delY ds) < p1 * q1 →
    Sim Prod.fst (runNet (fun s (d : DayDelIn) => dayDelNet ro mont h k0 k1 s d.xs d.ys d.coins) s ds)
      (runDays (fun s (d : DayDelIn) => dayDel ro mont h k0 k1 s d.xs d.ys d.coins) s ds) := by
  induction ds with
  | nil => intro X Y s _ _ _ _ _ _ _ _ _ _ _ _ _; exact Sim.ok (f := Prod.fst) (s, [])
  | cons d ds ih =>
    intro X Y s hI f0 f1 hw hu hX hY tX tY m1 m2 m3 m4
    have eX : X ++ delX (d :: ds) = (X ++ d.xs) ++ delX ds := by simp [delX]
    have eY : Y ++ delY (d :: ds) = (Y ++ d.ys) ++ delY ds := by simp [delY]
    rw [eX] at tX m1 m2
    rw [eY] at tY m3 m4
    have tX1 : (X ++ d.xs).length < 2 ^ 30 := by rw [List.length_append (as := X ++ d.xs)] at tX; omega
    have tY1 : (Y ++ d.ys).length < 2 ^ 30 := by rw [List.length_append (as := Y ++ d.ys)] at tY; omega
    have a1 := absMass_append (X ++ d.xs) (delX ds)
    have a2 := absMass_append (Y ++ d.ys) (delY ds)
    have hXd : ∀ e ∈ d.xs, e.1 < B := fun e he => hX e (by simp [delX, he])
    have hYd : ∀ e ∈ d.ys, e.1 < B := fun e he => hY e (by simp [delY, he])
    have hday := dayDel_ends K (ro := ro) hh hB0 hB1 hI f0 f1 (hw d (by simp)) (hu d (by simp)) hXd hYd tX1 tY1
      (by omega) (by omega) (by omega) (by omega)
    obtain ⟨t0, t1, o, e1, -⟩ := round_total K hh hB0 hB1 hI f0 f1 (hw d (by simp)) (hu d (by simp)).round hXd hYd tX1 tY1
      (by omega) (by omega) (by omega) (by omega)
    unfold runNet runDays
    refine (dayDelNet_sim e1).bind (fun v hv => ?_)
    obtain ⟨s1, n⟩ := v
    have hdir : dayDel ro mont h k0 k1 s d.xs d.ys d.coins = .ok s1 := by
      rcases dayDelNet_sim (ro := ro) e1 with h' | h'
      · rw [hv] at h'; cases h'
      · rw [hv] at h'; exact h'
    rw [hdir] at hday
    have := (ih _ _ s1 hday.1 hday.2.1 hday.2.2 (fun e he => hw e (by simp [he])) (fun e he => hu e (by simp [he]))
      (fun e he => hX e (by simp only [delX, List.flatMap_cons, List.mem_append] at he ⊢; exact Or.inr he))
      (fun e he => hY e (by simp only [delY, List.flatMap_cons, List.mem_append] at he ⊢; exact Or.inr he)) tX tY m1 m2 m3 m4)
    rw [← outcome_bind_pure (runDays _ s1 ds)]
    exact this.bind (fun v _ => Sim.ok (f := Prod.fst) _)

/-- Both parties start: what the starting programs read, if the private keys can be built and the functionality exists. -/
theorem del_starts (hm : MontOK mont) {tries : Nat} {hashOf : Nat → List Bool} (hh : ∀ e, (hashOf e).length = 256)
    {L B stash node : Nat} {f : DelSetupFlags} (hf : DelSizesOK L B stash node f) {ρ : DelSetupRand} (hρ : ρ.OK L B f)
    {o : DelSetupOut} {g : GenSets} {t0 t1 : List (Data.Bytes × Int)} {ds0 ds1 : List (List (Data.Bytes × Int))} {val : Data.Bytes → Int}
    (hF : FoundDel mont tries hashOf L B stash node f ρ o g t0 t1 ds0 ds1 val) (l0 : o.lost0 = []) (l1 : o.lost1 = []) {x0 x1 : Int}
    (hx0 : Int.gcd x0 ((ρ.p1 * ρ.q1 : Nat) : Int) = 1) (hx1 : Int.gcd x1 ((ρ.p0 * ρ.q0 : Nat) : Int) = 1)
    (hk0 : ∃ sk, Private.new tries ρ.p0 ρ.q0 1 = .ok sk) (hk1 : ∃ sk, Private.new tries ρ.p1 ρ.q1 1 = .ok sk) {accept : Functionality → Bool}
    {func : Functionality} (ha : accept func = true) :
    ∃ b, startDel accept tries x0 x1 stash node (.of f func) o.fs = .ok b ∧ BegunDel mont hashOf B ρ t0 t1 ds0 ds1 b ∧
      DFit stash (numRows t0) b.s0 ∧ DFit stash (numRows t1) b.s1 := by
  have htot := hf.total
  obtain ⟨c0, hc0⟩ := hk0
  obtain ⟨c1, hc1⟩ := hk1
  obtain ⟨u0, e0, ok0⟩ := public_new hρ.primes1 x0 hx0
  obtain ⟨u1, e1, ok1⟩ := public_new hρ.primes0 x1 hx1
  push_cast at e0 e1
  have hK : Keys ρ.p0 ρ.q0 ρ.p1 ρ.q1 mont ⟨c0, u0⟩ ⟨c1, u1⟩ :=
    ⟨⟨hρ.primes0, hm, ok1, private_new hρ.primes0 hc0⟩, ⟨hρ.primes1, hm, ok0, private_new hρ.primes1 hc1⟩⟩
  have hT : ∃ s0 s1, startDelTrees stash node (.of f func) o.fs = .ok (s0, s1) ∧
      DFit stash (numRows t0) s0 ∧ DFit stash (numRows t1) s1 := by
    by_cases hst : 0 < f.start
    · obtain ⟨f0, f1, sk0, sk1, w0, w1, r1, r2, r3, r4, g0, g1⟩ := hF.init hst
      obtain rfl := Outcome.ok.inj (hc0.symm.trans w0)
      obtain rfl := Outcome.ok.inj (hc1.symm.trans w1)
      have hX : ∀ e ∈ numRows t0, e.1 < B := fun e he => hF.below0 e (by rw [numRows_append]; exact List.mem_append_left _ he)
      have hY : ∀ e ∈ numRows t1, e.1 < B := fun e he => hF.below1 e (by rw [numRows_append]; exact List.mem_append_left _ he)
      have hlX : (numRows t0).length < 2 ^ 30 := by rw [numRows, List.length_map, hF.facts.good0.startSize]; omega
      have hlY : (numRows t1).length < 2 ^ 30 := by rw [numRows, List.length_map, hF.facts.good1.startSize]; omega
      rw [l0] at g0
      rw [l1] at g1
      have sf : SetupFilesDel mont ⟨c0, u0⟩ ⟨c1, u1⟩ hashOf B (ρ.p0 * ρ.q0) (ρ.p1 * ρ.q1) stash node (numRows t0) (numRows t1) f0 f1 [] [] := ⟨g0, g1⟩
      obtain ⟨s0, s1, hi, -⟩ := importDel_inv hK hh sf hX hY hlX hlY
      refine ⟨s0, s1, ?_, importDel_fits hh sf hlX hlY hi⟩
      unfold Reads at r1 r2 r3 r4
      have q1 : (DelRunFlags.of f func).dataDir = f.dataDir := rfl
      have q4 : (DelRunFlags.of f func).trees = true := by simp [DelRunFlags.of, hst]
      simp only [startDelTrees, q1, q4, if_true, readDelTrees, r1, r2, r3, r4, orAbort, Outcome.bind_ok, Outcome.pure_eq]
      exact hi
    · have z0 : t0 = [] := List.eq_nil_of_length_eq_zero (by rw [hF.facts.good0.startSize]; omega)
      have z1 : t1 = [] := List.eq_nil_of_length_eq_zero (by rw [hF.facts.good1.startSize]; omega)
      refine ⟨_, _, ?_, by rw [z0]; exact DFit.init stash node, by rw [z1]; exact DFit.init stash node⟩
      have q4 : (DelRunFlags.of f func).trees = false := by simp [DelRunFlags.of, hst]
      simp [startDelTrees, q4]
  obtain ⟨s0, s1, hT, d0, d1⟩ := hT
  have hs : startDel accept tries x0 x1 stash node (.of f func) o.fs =
      .ok ⟨⟨c0, u0⟩, ⟨c1, u1⟩, ds0.map numRows, ds1.map numRows, s0, s1⟩ := by
    have q1 : (DelRunFlags.of f func).dataDir = f.dataDir := rfl
    have q2 : (DelRunFlags.of f func).outDir = f.outDir := rfl
    have q3 : (DelRunFlags.of f func).days = f.days := rfl
    have q5 : (DelRunFlags.of f func).func = func := rfl
    simp only [startDel, q1, q2, q3, q5, hF.daily0, hF.daily1, Outcome.bind_ok, ha, if_true, hT, hF.keys0, hF.keys1, hc0, hc1,
      hF.load0, hF.load1, Outcome.pure_eq, e0, e1]
  exact ⟨_, hs, del_begun hm hh hf hρ hF l0 l1 hx0 hx1 hs, d0, d1⟩

theorem DelSetupFlags.one_le (f : DelSetupFlags) (h : f.func = .SUM → 1 < f.maxValue) : 1 ≤ f.valueBound := by
  unfold DelSetupFlags.valueBound
  split
  · rename_i e; have := h e; omega
  · norm_num

/-- **C85** (cardinality and sum with deletions) After `deletion/setup.cc` ended normally without losing an initial entry, both
programs of `deletion/run.cc`, run with the flags of setup and a functionality the program knows, start from its files and end
normally, or with the error of a message larger than gRPC accepts; undefined behaviour is possible only if the random oracle maps
some number below the moduli to a hash shorter than nine bytes.  They never abort and never report any other error.  No entry is
lost if a party's initial entries and updates fit its stash.  `hk0`, `hk1` say that the construction of the private keys ends. -/
theorem C85_deletion (ro : List UInt8 → Nat) (mont : Int → Option Mont) (hm : MontOK mont) (tries : Nat)
    (hashOf : Nat → List Bool) (hh : ∀ e, (hashOf e).length = 256) (L B stash node : Nat) (f : DelSetupFlags)
    (hf : DelSizesOK L B stash node f) (hp : f.func ≠ .PSI) (ρ : DelSetupRand) (hρ : ρ.OK L B f)
    (hB0 : B ≤ ρ.p0 * ρ.q0) (hB1 : B ≤ ρ.p1 * ρ.q1)
    (b0 : f.total * f.valueBound < ((ρ.p0 * ρ.q0 : Nat) : Int)) (b1 : f.total * f.valueBound < ((ρ.p1 * ρ.q1 : Nat) : Int)) (x0 x1 : Int)
    (hx0 : Int.gcd x0 ((ρ.p1 * ρ.q1 : Nat) : Int) = 1) (hx1 : Int.gcd x1 ((ρ.p0 * ρ.q0 : Nat) : Int) = 1)
    (hk0 : ∃ sk, Private.new tries ρ.p0 ρ.q0 1 = .ok sk) (hk1 : ∃ sk, Private.new tries ρ.p1 ρ.q1 1 = .ok sk) (coins : Nat → DelCoins)
    (hc : ∀ i < f.days, RoundCoins.Day B (ρ.p0 * ρ.q0) (ρ.p1 * ρ.q1) f.daily (coins i).round ∧
      (coins i).Usable B (ρ.p0 * ρ.q0) (ρ.p1 * ρ.q1)) (fs : FS) (o : DelSetupOut)
    (h : setupMainDel mont tries hashOf stash node f ρ fs = .ok o) (l0 : o.lost0 = []) (l1 : o.lost1 = []) (func : Functionality)
    (hfn : func = .CA ∨ func = .SUM) :
    mainDel ro mont tries x0 x1 hashOf stash node (.of f func) coins o.fs = .err "[ClientMessageSink] failed to send message" ∨
    (∃ s ns, mainDel ro mont tries x0 x1 hashOf stash node (.of f func) coins o.fs = .ok (s, ns) ∧
      (f.total ≤ stash → s.p0.lost = [] ∧ s.p1.lost = [])) ∨
    (mainDel ro mont tries x0 x1 hashOf stash node (.of f func) coins o.fs = .ub ∧
      ∃ x : Nat, x < max (ρ.p0 * ρ.q0) (ρ.p1 * ρ.q1) ∧ ro (natBytes x) < 2 ^ 64) := by
  obtain ⟨g, t0, t1, ds0, ds1, val, hg, F⟩ := del_found hh hf hρ h
  have htot := hf.total
  obtain ⟨b, hb, bg, d0, d1⟩ := del_starts hm hh hf hρ F l0 l1 hx0 hx1 hk0 hk1 (accept := acceptDel) (func := func)
    (by rcases hfn with e | e <;> subst e <;> rfl)
  have hlen : (ds0.map numRows).length = (ds1.map numRows).length := by
    rw [List.length_map, List.length_map, F.facts.good0.dayCount, F.facts.good1.dayCount]
  have dx := mkDelDays_x hlen coins
  have dy := mkDelDays_y hlen coins
  rw [← numRows_flatten] at dx dy
  have day : ∀ d ∈ mkDelDays (ds0.map numRows) (ds1.map numRows) coins, d.coins.round.WF B (ρ.p0 * ρ.q0) (ρ.p1 * ρ.q1) d.xs d.ys ∧
      d.coins.Usable B (ρ.p0 * ρ.q0) (ρ.p1 * ρ.q1) := by
    intro d hd
    obtain ⟨i, hi, m0, m1, ec⟩ := mem_mkDelDays hd
    rw [List.length_map, F.facts.good0.dayCount] at hi
    obtain ⟨d0, hd0, q0⟩ := List.mem_map.1 m0
    obtain ⟨d1, hd1, q1⟩ := List.mem_map.1 m1
    rw [ec, ← q0, ← q1]
    exact ⟨(hc i hi).1.wf (by rw [numRows, List.length_map, (F.facts.good0.shape d0 hd0).1])
      (by rw [numRows, List.length_map, (F.facts.good1.shape d1 hd1).1]), (hc i hi).2⟩
  have wX := fun d hd => (day d hd).1
  have wU := fun d hd => (day d hd).2
  have bX : ∀ e ∈ delX (mkDelDays (ds0.map numRows) (ds1.map numRows) coins), e.1 < B := by
    rw [dx]; exact fun e he => F.below0 e (by rw [numRows_append]; exact List.mem_append_right _ he)
  have bY : ∀ e ∈ delY (mkDelDays (ds0.map numRows) (ds1.map numRows) coins), e.1 < B := by
    rw [dy]; exact fun e he => F.below1 e (by rw [numRows_append]; exact List.mem_append_right _ he)
  have nX : (numRows t0 ++ delX (mkDelDays (ds0.map numRows) (ds1.map numRows) coins)).length = f.total := by
    rw [dx, ← numRows_append, numRows, List.length_map, GoodHistory.length F.facts.good0]; rfl
  have nY : (numRows t1 ++ delY (mkDelDays (ds0.map numRows) (ds1.map numRows) coins)).length = f.total := by
    rw [dy, ← numRows_append, numRows, List.length_map, GoodHistory.length F.facts.good1]; rfl
  have m0 := F.mass0 hf hp
  have m1 := F.mass1
  have v1 : 1 ≤ f.valueBound := f.one_le (fun e => (hf.maxValue e).1)
  have m1' : mass (numRows (t1 ++ ds1.flatten)) ≤ f.total * f.valueBound := by nlinarith
  rw [numRows_append, ← dx, ← absMass_eq_mass] at m0
  rw [numRows_append, ← dy, ← absMass_eq_mass] at m1'
  have tX : f.total < 2 ^ 30 := htot
  have hsim := runDelNet_sim bg.keys (ro := ro) hh hB0 hB1 _ _ _ ⟨b.s0, b.s1, 0, []⟩ bg.inv d0 d1 wX wU bX bY (by rw [nX]; exact tX) (by rw [nY]; exact tX)
    (by omega) (by omega) (by omega) (by omega)
  have hends := runDel_ends bg.keys (ro := ro) hh hB0 hB1 _ _ _ ⟨b.s0, b.s1, 0, []⟩ bg.inv d0 d1 wX wU bX bY (by rw [nX]; exact tX) (by rw [nY]; exact tX)
    (by omega) (by omega) (by omega) (by omega)
  rw [mainDel, hb, Outcome.bind_ok, bg.xs, bg.ys]
  rcases hsim.ends hends with e | ⟨⟨s, ns⟩, e, j0, j1⟩ | ⟨e, hS⟩
  · exact Or.inl e
  · exact Or.inr (Or.inl ⟨s, ns, e, fun hs => ⟨j0.lost (by rw [nX]; exact hs), j1.lost (by rw [nY]; exact hs)⟩⟩)
  · exact Or.inr (Or.inr ⟨e, hS⟩)

/-- Setup loses no initial entry if they fit the stash. -/
theorem FoundDel.lost_nil {tries : Nat} {hashOf : Nat → List Bool} (hh : ∀ e, (hashOf e).length = 256) {L B stash node : Nat} {f : DelSetupFlags}
    (hf : DelSizesOK L B stash node f) {ρ : DelSetupRand} {o : DelSetupOut} {g : GenSets} {t0 t1 : List (Data.Bytes × Int)}
    {ds0 ds1 : List (List (Data.Bytes × Int))} {val : Data.Bytes → Int}
    (F : FoundDel mont tries hashOf L B stash node f ρ o g t0 t1 ds0 ds1 val) (hs : f.start ≤ stash) : o.lost0 = [] ∧ o.lost1 = [] := by
  have htot := hf.total
  by_cases hst : 0 < f.start
  · obtain ⟨f0, f1, sk0, sk1, -, -, -, -, -, -, ⟨r0, w0, g0⟩, r1, w1, g1⟩ := F.init hst
    have lX : (numRows t0).length = f.start := by rw [numRows, List.length_map, F.facts.good0.startSize]
    have lY : (numRows t1).length = f.start := by rw [numRows, List.length_map, F.facts.good1.startSize]
    exact ⟨(gen_fitsDel hh w0.hsh (by omega) g0 (Tree.empty 0 0)).lost (by omega),
      (gen_fitsDel hh w1.hsh (by omega) g1 (Tree.empty 0 0)).lost (by omega)⟩
  · exact F.fresh (by omega)

/-- **C85/C75** (cardinality and sum with deletions, unconditional for small sets) If the sets of each party fit the stash and no
hash is short, setup loses no entry, and the programs end with the error of a too large message or normally, and then the number
shown is the one printed by setup, as an unsigned 64-bit number, unless hashes collided or a share wrapped. -/
theorem C85_deletion_small (ro : List UInt8 → Nat) (mont : Int → Option Mont) (hm : MontOK mont) (tries : Nat)
    (hashOf : Nat → List Bool) (hh : ∀ e, (hashOf e).length = 256) (L B stash node : Nat) (f : DelSetupFlags)
    (hf : DelSizesOK L B stash node f) (hp : f.func ≠ .PSI) (ρ : DelSetupRand) (hρ : ρ.OK L B f)
    (hB0 : B ≤ ρ.p0 * ρ.q0) (hB1 : B ≤ ρ.p1 * ρ.q1)
    (b0 : f.total * f.valueBound < ((ρ.p0 * ρ.q0 : Nat) : Int)) (b1 : f.total * f.valueBound < ((ρ.p1 * ρ.q1 : Nat) : Int))
    (b2 : 2 * (f.total * f.valueBound * f.total) < ((ρ.p0 * ρ.q0 : Nat) : Int))
    (b3 : 2 * (f.total * f.valueBound * f.total) < ((ρ.p1 * ρ.q1 : Nat) : Int)) (x0 x1 : Int)
    (hx0 : Int.gcd x0 ((ρ.p1 * ρ.q1 : Nat) : Int) = 1) (hx1 : Int.gcd x1 ((ρ.p0 * ρ.q0 : Nat) : Int) = 1)
    (hk0 : ∃ sk, Private.new tries ρ.p0 ρ.q0 1 = .ok sk) (hk1 : ∃ sk, Private.new tries ρ.p1 ρ.q1 1 = .ok sk) (coins : Nat → DelCoins)
    (hc : ∀ i < f.days, RoundCoins.Day B (ρ.p0 * ρ.q0) (ρ.p1 * ρ.q1) f.daily (coins i).round ∧
      (coins i).Usable B (ρ.p0 * ρ.q0) (ρ.p1 * ρ.q1)) (fs : FS) (o : DelSetupOut)
    (h : setupMainDel mont tries hashOf stash node f ρ fs = .ok o) (func : Functionality) (hfn : func = .CA ∨ func = .SUM)
    (hro : ∀ x : Nat, x < max (ρ.p0 * ρ.q0) (ρ.p1 * ρ.q1) → 2 ^ 64 ≤ ro (natBytes x)) (hsmall : f.total ≤ stash) :
    mainDel ro mont tries x0 x1 hashOf stash node (.of f func) coins o.fs = .err "[ClientMessageSink] failed to send message" ∨
    (∃ s ns, mainDel ro mont tries x0 x1 hashOf stash node (.of f func) coins o.fs = .ok (s, ns) ∧ ns.length = f.days ∧
      ((∀ p ∈ s.trace, p.Clean ro) → (shownDel s : Int) = (if 0 ≤ o.printed then o.printed else o.printed + 2 ^ 64))) := by
  obtain ⟨l0, l1⟩ : o.lost0 = [] ∧ o.lost1 = [] := by
    obtain ⟨g, t0, t1, ds0, ds1, val, hg, F⟩ := del_found hh hf hρ h
    exact F.lost_nil hh hf (le_trans (by unfold DelSetupFlags.total; omega) hsmall)
  rcases C85_deletion ro mont hm tries hashOf hh L B stash node f hf hp ρ hρ hB0 hB1 b0 b1 x0 x1 hx0 hx1 hk0 hk1 coins hc fs o h l0 l1 func hfn
    with e | ⟨s, ns, e, j⟩ | ⟨-, x, hx, hx'⟩
  · exact Or.inl e
  · obtain ⟨j0, j1⟩ := j hsmall
    refine Or.inr ⟨s, ns, e, ?_, fun hcl => (C75_cardinality_sum ro mont hm tries hashOf hh L B stash node f hf hp ρ hρ hB0 hB1 b2 b3 x0 x1 hx0 hx1 coins
      (fun i hi => (hc i hi).1) fs o h l0 l1 func s ns e j0 j1 hcl).1⟩
    obtain ⟨g, t0, t1, ds0, ds1, val, hg, F⟩ := del_found hh hf hρ h
    simp only [mainDel, Outcome.bind_eq_ok] at e
    obtain ⟨b, hb, e⟩ := e
    have bg := del_begun hm hh hf hρ F l0 l1 hx0 hx1 hb
    rw [bg.xs, bg.ys] at e
    rw [(runNet_runDays (step := fun s (d : DayDelIn) => dayDelNet ro mont hashOf b.k0 b.k1 s d.xs d.ys d.coins)
      (step' := fun s d => dayDel ro mont hashOf b.k0 b.k1 s d.xs d.ys d.coins)
      (fun s d s' n e => ((C73_deletion ro mont hashOf b.k0 b.k1 s s' d.xs d.ys d.coins n.1 n.2).1 e).1) _ _ _ _ e).2]
    simp [mkDelDays, F.facts.good0.dayCount, F.facts.good1.dayCount]
  · have := hro x hx; omega

/-- **C85** (intersection with deletions) After `deletion-psi/setup.cc` ended normally without losing an initial entry, both programs
of `deletion-psi/run.cc` start from its files and end normally, or with the error of a message larger than gRPC accepts; they never
abort and never report another error.  Undefined behaviour is possible only if the random oracle maps some number below the moduli
to a hash shorter than nine bytes, or on a day on which party zero has to negate `-2^63`; if the parties' entries fit the stash, the
latter needs a hash collision or a wrapped share on that day. -/
theorem C85_deletion_psi (ro : List UInt8 → Nat) (mont : Int → Option Mont) (hm : MontOK mont) (tries : Nat)
    (hashOf : Nat → List Bool) (hh : ∀ e, (hashOf e).length = 256) (L B stash node : Nat) (f : DelSetupFlags)
    (hf : DelSizesOK L B stash node f) (hp : f.func = .PSI) (ρ : DelSetupRand) (hρ : ρ.OK L B f)
    (hB0 : 2 * B ≤ ρ.p0 * ρ.q0) (hB1 : 2 * B ≤ ρ.p1 * ρ.q1) (wide : 2 ^ 65 ≤ ρ.p0 * ρ.q0)
    (b0 : f.total * B < ρ.p0 * ρ.q0) (b1 : f.total * B < ρ.p1 * ρ.q1) (x0 x1 : Int)
    (hx0 : Int.gcd x0 ((ρ.p1 * ρ.q1 : Nat) : Int) = 1) (hx1 : Int.gcd x1 ((ρ.p0 * ρ.q0 : Nat) : Int) = 1)
    (hk0 : ∃ sk, Private.new tries ρ.p0 ρ.q0 1 = .ok sk) (hk1 : ∃ sk, Private.new tries ρ.p1 ρ.q1 1 = .ok sk) (coins : Nat → DelPsiCoins)
    (hc : ∀ i < f.days, RoundCoins.Day B (ρ.p0 * ρ.q0) (ρ.p1 * ρ.q1) f.daily (coins i).round1 ∧
      RoundCoins.Day B (ρ.p0 * ρ.q0) (ρ.p1 * ρ.q1) f.daily (coins i).round2 ∧ (∀ l, ((coins i).shuffle l).Perm l) ∧
      (coins i).Usable B (ρ.p0 * ρ.q0) (ρ.p1 * ρ.q1)) (fs : FS) (o : DelSetupOut)
    (h : setupMainDel mont tries hashOf stash node f ρ fs = .ok o) (l0 : o.lost0 = []) (l1 : o.lost1 = []) (func : Functionality)
    (hfn : func = .PSI) :
    mainDelPsi ro mont tries x0 x1 hashOf stash node (.of f func) coins o.fs = .err "[ClientMessageSink] failed to send message" ∨
    (∃ s ns, mainDelPsi ro mont tries x0 x1 hashOf stash node (.of f func) coins o.fs = .ok (s, ns) ∧
      (f.total ≤ stash → s.p0.lost = [] ∧ s.p1.lost = [])) ∨
    (mainDelPsi ro mont tries x0 x1 hashOf stash node (.of f func) coins o.fs = .ub ∧
      ((∃ x : Nat, x < max (ρ.p0 * ρ.q0) (ρ.p1 * ρ.q1) ∧ ro (natBytes x) < 2 ^ 64) ∨
        ∃ b, startDel acceptDelPsi tries x0 x1 stash node (.of f func) o.fs = .ok b ∧
          StopsAt ro mont hashOf b.k0 b.k1 ⟨b.s0, b.s1, 0, [], [], []⟩ (mkPsiDays b.xs b.ys coins) (fun x => -2 ^ 63 ∈ x.updates ∧
            (f.total ≤ stash → ∃ p ∈ x.phases, ¬ p.Clean ro)))) := by
  obtain ⟨g, t0, t1, ds0, ds1, val, hg, F⟩ := del_found hh hf hρ h
  have htot := hf.total
  obtain ⟨b, hb, bg, k0', k1'⟩ := del_starts hm hh hf hρ F l0 l1 hx0 hx1 hk0 hk1 (accept := acceptDelPsi) (func := func)
    (by subst hfn; rfl)
  have hlen : (ds0.map numRows).length = (ds1.map numRows).length := by
    rw [List.length_map, List.length_map, F.facts.good0.dayCount, F.facts.good1.dayCount]
  obtain ⟨mx, my⟩ := mkPsiDays_map hlen coins
  have r0 := F.facts.rows0
  have r1 := F.facts.rows1
  have s0 : RowsOK L B val t0 := r0.mono (fun r hr => by simp [hr])
  have s1 : RowsOK L B (fun _ => 1) t1 := r1.mono (fun r hr => by simp [hr])
  have f0 : RowsOK L B val ds0.flatten := r0.mono (fun r hr => List.mem_append_right _ hr)
  have f1 : RowsOK L B (fun _ => 1) ds1.flatten := r1.mono (fun r hr => List.mem_append_right _ hr)
  have d0 : ∀ r ∈ t0, DigitString L B r.1 := fun r h => (s0 r h).1
  have d1 : ∀ r ∈ t1, DigitString L B r.1 := fun r h => (s1 r h).1
  have c0 : Carries (fun k => (k : Int)) (numRows t0) (heldN t0) := carries_numRows s0 (GoodHistory.left F.facts.good0)
    (fun r hr => F.facts.valPsi hp r (by simp [hr]))
  have c1 : Carries (fun _ => 1) (numRows t1) (heldN t1) := carries_numRows s1 (GoodHistory.left F.facts.good1) (fun _ _ => rfl)
  obtain ⟨v0, -⟩ := validDays_num (v := fun k => (k : Int)) ds0 t0 d0 f0 (fun r hr => F.facts.valPsi hp r (List.mem_append_right _ hr))
    (fun r hr => F.facts.pos0 hp r (List.mem_append_right _ hr)) (fun d hd => (F.facts.good0.shape d hd).2.1)
    (by have := ValidHistory.right F.facts.good0.valid; rwa [List.nil_append] at this)
  obtain ⟨v1, -⟩ := validDays_num (v := fun _ => 1) ds1 t1 d1 f1 (fun _ _ => rfl)
    (fun r hr => F.facts.pos1 hp r (List.mem_append_right _ hr)) (fun d hd => (F.facts.good1.shape d hd).2.1)
    (by have := ValidHistory.right F.facts.good1.valid; rwa [List.nil_append] at this)
  have hle : ∀ (p : EP → Bool) (u : List (Data.Bytes × Int)), u.length = f.daily → ((numRows u).filter p).length ≤ f.daily := by
    intro p u hu
    refine le_trans (List.length_filter_le _ _) ?_
    rw [numRows, List.length_map, hu]
  have day : ∀ d ∈ mkPsiDays (ds0.map numRows) (ds1.map numRows) coins,
      d.coins.round1.WF B (ρ.p0 * ρ.q0) (ρ.p1 * ρ.q1) (deletionsOf d.xs) (deletionsOf d.ys) ∧
      d.coins.round2.WF B (ρ.p0 * ρ.q0) (ρ.p1 * ρ.q1) (additionsOf d.xs) (additionsOf d.ys) ∧ (∀ l, (d.coins.shuffle l).Perm l) ∧
      d.coins.Usable B (ρ.p0 * ρ.q0) (ρ.p1 * ρ.q1) := by
    intro d hd
    obtain ⟨i, hi, m0, m1, ec⟩ := mem_mkPsiDays hd
    rw [List.length_map, F.facts.good0.dayCount] at hi
    obtain ⟨u, hu, q0⟩ := List.mem_map.1 m0
    obtain ⟨w, hw, q1⟩ := List.mem_map.1 m1
    obtain ⟨w1, w2, w3, w4⟩ := hc i hi
    rw [ec, ← q0, ← q1]
    exact ⟨w1.cut (hle _ u (F.facts.good0.shape u hu).1) (hle _ w (F.facts.good1.shape w hw).1),
      w2.cut (hle _ u (F.facts.good0.shape u hu).1) (hle _ w (F.facts.good1.shape w hw).1), w3,
      ⟨⟨w4.round1.enc0, w4.round1.enc1, w4.round1.pads0, w4.round1.pads1, w4.round1.path0, w4.round1.path1⟩,
        ⟨w4.round2.enc0, w4.round2.enc1, w4.round2.pads0, w4.round2.pads1, w4.round2.path0, w4.round2.path1⟩, w4.gc0, w4.gc1, w4.enc0, w4.enc1⟩⟩
  have flX : (mkPsiDays (ds0.map numRows) (ds1.map numRows) coins).flatMap (·.xs) = numRows ds0.flatten := by
    rw [List.flatMap_def, mx, numRows_flatten]
  have flY : (mkPsiDays (ds0.map numRows) (ds1.map numRows) coins).flatMap (·.ys) = numRows ds1.flatten := by
    rw [List.flatMap_def, my, numRows_flatten]
  have tX : (numRows t0).length + (numRows ds0.flatten).length = f.total := by
    have := GoodHistory.length F.facts.good0
    rw [List.length_append] at this
    rw [numRows, numRows, List.length_map, List.length_map]; exact this
  have tY : (numRows t1).length + (numRows ds1.flatten).length = f.total := by
    have := GoodHistory.length F.facts.good1
    rw [List.length_append] at this
    rw [numRows, numRows, List.length_map, List.length_map]; exact this
  have mass0 : absMass (numRows t0) + absMass (numRows ds0.flatten) ≤ f.total * B := by
    have := mass_le (l := numRows (t0 ++ ds0.flatten)) (M := B) (fun e he => by
      obtain ⟨r, hr, rfl⟩ := List.mem_map.1 he
      obtain ⟨⟨-, -, h3⟩, h1, h2⟩ := r0 r hr
      rw [F.facts.valPsi hp r hr] at h1
      simp only
      rcases h1 with e | e <;> rw [abs_le] <;> omega)
    rw [← absMass_eq_mass, numRows, List.length_map, GoodHistory.length F.facts.good0] at this
    rw [← absMass_append, ← numRows_append]
    exact_mod_cast this
  have mass1 : absMass (numRows t1) + absMass (numRows ds1.flatten) ≤ f.total * B := by
    have hBp : f.total = 0 ∨ 1 ≤ B := by
      rcases Nat.eq_zero_or_pos B with hb0 | hb1
      · left
        rw [← tY]
        rcases hl : t1 ++ ds1.flatten with _ | ⟨r, l⟩
        · have := GoodHistory.length F.facts.good1
          rw [hl] at this; rw [tY]; exact this.symm
        · have := (r1 r (by rw [hl]; simp)).1.2.2
          omega
      · exact Or.inr hb1
    have := mass_le (l := numRows (t1 ++ ds1.flatten)) (M := 1) (fun e he => by
      obtain ⟨r, hr, rfl⟩ := List.mem_map.1 he
      obtain ⟨-, h1, h2⟩ := r1 r hr
      simp only
      rcases h1 with e | e <;> rw [e] <;> norm_num)
    rw [← absMass_eq_mass, numRows, List.length_map, GoodHistory.length F.facts.good1] at this
    rw [← absMass_append, ← numRows_append]
    have h2 : absMass (numRows (t1 ++ ds1.flatten)) ≤ f.total := by
      unfold DelSetupFlags.total; rw [numRows]; omega
    rcases hBp with e | e
    · rw [e] at h2 ⊢; omega
    · exact le_trans h2 (Nat.le_mul_of_pos_right _ e)
  have hsim := runNet_sim (step := fun s (d : DayPsiIn) => dayDelPsiNet ro mont hashOf b.k0 b.k1 s d.xs d.ys d.coins)
    (step' := fun s d => dayDelPsi ro mont hashOf b.k0 b.k1 s d.xs d.ys d.coins)
    (fun s d => dayDelPsiNet_sim ro hashOf s d.xs d.ys d.coins) (mkPsiDays (ds0.map numRows) (ds1.map numRows) coins) ⟨b.s0, b.s1, 0, [], [], []⟩
  have hends := runDelPsi_ends bg.keys (ro := ro) hh hB0 hB1 hf.bound wide (v := fun k => (k : Int)) (w := fun _ => 1)
    (fun k hk _ => ⟨by exact_mod_cast hk, by norm_num, by simp⟩) (stash := stash) (mkPsiDays (ds0.map numRows) (ds1.map numRows) coins)
    (numRows t0) (numRows t1) (heldN t0) (heldN t1) ⟨b.s0, b.s1, 0, [], [], []⟩ bg.inv k0' k1' c0 c1
    (fun d hd => (day d hd).1) (fun d hd => (day d hd).2.1) (fun d hd => (day d hd).2.2.1) (fun d hd => (day d hd).2.2.2)
    (by rw [mx]; exact v0) (by rw [my]; exact v1) (by rw [flX, tX]; exact htot) (by rw [flY, tY]; exact htot)
    (by rw [flX]; omega) (by rw [flX]; omega) (by rw [flY]; omega) (by rw [flY]; omega)
  rw [flX, flY, tX, tY] at hends
  have hmain : mainDelPsi ro mont tries x0 x1 hashOf stash node (.of f func) coins o.fs =
      runNet (fun s (d : DayPsiIn) => dayDelPsiNet ro mont hashOf b.k0 b.k1 s d.xs d.ys d.coins) ⟨b.s0, b.s1, 0, [], [], []⟩
        (mkPsiDays (ds0.map numRows) (ds1.map numRows) coins) := by
    rw [mainDelPsi, hb, Outcome.bind_ok, bg.xs, bg.ys]
  rw [hmain]
  rcases hsim.ends hends with e | ⟨⟨s, ns⟩, e, j0, j1⟩ | ⟨e, hS⟩
  · exact Or.inl e
  · exact Or.inr (Or.inl ⟨s, ns, e, fun hs => ⟨j0 hs, j1 hs⟩⟩)
  · refine Or.inr (Or.inr ⟨e, hS.imp id (fun hst => ⟨b, hb, ?_⟩)⟩)
    rw [bg.xs, bg.ys]
    obtain ⟨pre, d, post, s', x, q1, q2, q3, q4, q5⟩ := hst
    exact ⟨pre, d, post, s', x, q1, q2, q3, q4, fun hs => q5 hs hs⟩

/-- **C85/C75** (intersection with deletions, unconditional for small sets) If each party's entries fit the stash and the random oracle
returns nine bytes or more below the moduli, setup loses no entry, and the programs end with the error of a message larger than gRPC
accepts, or end normally – having met no hash collision and no wrapped share, they print the number setup printed –, or a day on
which two hashes collide or a share wraps makes party zero negate `-2^63`. -/
theorem C85_deletion_psi_small (ro : List UInt8 → Nat) (mont : Int → Option Mont) (hm : MontOK mont) (tries : Nat)
    (hashOf : Nat → List Bool) (hh : ∀ e, (hashOf e).length = 256) (L B stash node : Nat) (f : DelSetupFlags)
    (hf : DelSizesOK L B stash node f) (hp : f.func = .PSI) (ρ : DelSetupRand) (hρ : ρ.OK L B f)
    (hB0 : 2 * B ≤ ρ.p0 * ρ.q0) (hB1 : 2 * B ≤ ρ.p1 * ρ.q1) (wide : 2 ^ 65 ≤ ρ.p0 * ρ.q0)
    (b0 : f.total * B < ρ.p0 * ρ.q0) (b1 : f.total * B < ρ.p1 * ρ.q1) (x0 x1 : Int)
    (hx0 : Int.gcd x0 ((ρ.p1 * ρ.q1 : Nat) : Int) = 1) (hx1 : Int.gcd x1 ((ρ.p0 * ρ.q0 : Nat) : Int) = 1)
    (hk0 : ∃ sk, Private.new tries ρ.p0 ρ.q0 1 = .ok sk) (hk1 : ∃ sk, Private.new tries ρ.p1 ρ.q1 1 = .ok sk) (coins : Nat → DelPsiCoins)
    (hc : ∀ i < f.days, RoundCoins.Day B (ρ.p0 * ρ.q0) (ρ.p1 * ρ.q1) f.daily (coins i).round1 ∧
      RoundCoins.Day B (ρ.p0 * ρ.q0) (ρ.p1 * ρ.q1) f.daily (coins i).round2 ∧ (∀ l, ((coins i).shuffle l).Perm l) ∧
      (coins i).Usable B (ρ.p0 * ρ.q0) (ρ.p1 * ρ.q1)) (fs : FS) (o : DelSetupOut)
    (h : setupMainDel mont tries hashOf stash node f ρ fs = .ok o) (func : Functionality) (hfn : func = .PSI)
    (hro : ∀ x : Nat, x < max (ρ.p0 * ρ.q0) (ρ.p1 * ρ.q1) → 2 ^ 64 ≤ ro (natBytes x)) (hsmall : f.total ≤ stash) :
    mainDelPsi ro mont tries x0 x1 hashOf stash node (.of f func) coins o.fs = .err "[ClientMessageSink] failed to send message" ∨
    (∃ s ns, mainDelPsi ro mont tries x0 x1 hashOf stash node (.of f func) coins o.fs = .ok (s, ns) ∧
      ((∀ p ∈ s.trace, p.Clean ro) → (shownPsi s).1 = o.printed ∧ ns.length = f.days)) ∨
    (mainDelPsi ro mont tries x0 x1 hashOf stash node (.of f func) coins o.fs = .ub ∧
      ∃ b, startDel acceptDelPsi tries x0 x1 stash node (.of f func) o.fs = .ok b ∧
        StopsAt ro mont hashOf b.k0 b.k1 ⟨b.s0, b.s1, 0, [], [], []⟩ (mkPsiDays b.xs b.ys coins) (fun x => -2 ^ 63 ∈ x.updates ∧
          ∃ p ∈ x.phases, ¬ p.Clean ro)) := by
  obtain ⟨l0, l1⟩ : o.lost0 = [] ∧ o.lost1 = [] := by
    obtain ⟨g, t0, t1, ds0, ds1, val, hg, F⟩ := del_found hh hf hρ h
    exact F.lost_nil hh hf (le_trans (by unfold DelSetupFlags.total; omega) hsmall)
  rcases C85_deletion_psi ro mont hm tries hashOf hh L B stash node f hf hp ρ hρ hB0 hB1 wide b0 b1 x0 x1 hx0 hx1 hk0 hk1 coins hc fs o h l0 l1 func hfn
    with e | ⟨s, ns, e, j⟩ | ⟨e, ⟨x, hx, hx'⟩ | ⟨b, hb, pre, d, post, s', x, q1, q2, q3, q4, q5⟩⟩
  · exact Or.inl e
  · obtain ⟨j0, j1⟩ := j hsmall
    refine Or.inr (Or.inl ⟨s, ns, e, fun hcl => ?_⟩)
    have := C75_intersection ro mont hm tries hashOf hh L B stash node f hf hp ρ hρ hB0 hB1 wide x0 x1 hx0 hx1 coins
      (fun i hi => ⟨(hc i hi).1, (hc i hi).2.1, (hc i hi).2.2.1⟩) fs o h l0 l1 func s ns e j0 j1 hcl
    exact ⟨this.1, this.2.2.1⟩
  · have := hro x hx; omega
  · exact Or.inr (Or.inr ⟨e, b, hb, pre, d, post, s', x, q1, q2, q3, q4, q5 hsmall⟩)

end Upsi.Main
