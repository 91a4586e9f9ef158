import Verif.Main.NetProps
import Verif.Proto.AddExamples
import Verif.Main.NetOtherProps
import Verif.Proto.SSExamples
import Verif.Proto.OgExamples
import Verif.Proto.DelPsiExamples
/- C73 over histories of days, with concrete runs. -/
namespace Upsi.Main
open Upsi Upsi.Rec Upsi.ElGamal Upsi.Tree Upsi.Proto Upsi.Setup Upsi.Wire Upsi.Num

variable {G : Type} [AddCommGroup G] [DecidableEq G]

/-- The cardinality protocol over the network: addition/party_zero.cc:28-50 (`Run`), a day at a time. -/
def runCANet (S : Setup G) (c : Codec G) (hashOf : Nat → List Bool) (stash node : Nat) (ds : List (DayIn G Nat Unit)) :
    Outcome (StCA G × List Int) :=
  runNet (fun s d => dayCANet c hashOf S.pk S.pk S.sk0 S.sk1 s d.xs d.ys d.coins) (StCA.init stash node) ds

/-- The PSI protocol over the network. -/
def runPSINet (S : Setup G) (c cu : Codec G) (hashOf : Nat → List Bool) (stash node : Nat) (ds : List (DayIn G Nat (Ct G))) :
    Outcome (StPSI G × List Int) :=
  runNet (fun s d => dayPSINet c cu hashOf S.pk S.pk S.sk0 S.sk1 s d.xs d.ys d.coins) (StPSI.init stash node) ds

/-- The sum protocol over the network. -/
def runSumNet (S : Setup G) (c : Codec G) (limit : Nat) (hashOf : Nat → List Bool) (stash node : Nat)
    (ds : List (DayIn G (Nat × Int) (Ct G))) : Outcome (StSum G × List Int) :=
  runNet (fun s d => daySumNet c limit hashOf S.pk S.pk S.sk0 S.sk1 s d.xs d.ys d.coins) (StSum.init stash node) ds

/-- **C73** What the cardinality protocol reports over the network is the size of the intersection of everything both
parties added. -/
theorem C73_cardinality_run (S : Setup G) (c : Codec G) (hashOf : Nat → List Bool)
    (hh : ∀ e, (hashOf e).length = 256) (B stash node : Nat) (ds : List (DayIn G Nat Unit))
    (hadm : Admissible S id B (fun t => NonZero S (t 0)) ds) (s : StCA G) (ns : List Int)
    (h : runCANet S c hashOf stash node ds = .ok (s, ns)) (l0 : s.p0.lost = []) (l1 : s.p1.lost = [])
    (hX : (allX ds).Nodup) (hY : (allY ds).Nodup) :
    s.cardinality = ((allX ds).toFinset ∩ (allY ds).toFinset).card ∧ ns.length = ds.length := by
  unfold runCANet at h
  obtain ⟨h1, h2⟩ := runNet_runDays (step := fun s (d : DayIn G Nat Unit) => dayCANet c hashOf S.pk S.pk S.sk0 S.sk1 s d.xs d.ys d.coins)
    (step' := fun s d => dayCA c hashOf S.pk S.sk0 S.sk1 s d.xs d.ys d.coins)
    (fun s d s' n e => ((C73_cardinality c hashOf S.pk S.sk0 S.sk1 s s' d.xs d.ys d.coins n).1 e).1) _ _ _ _ h
  exact ⟨C42_cardinality S c hashOf hh B stash node ds hadm s h1 l0 l1 hX hY, h2⟩

/-- **C73** What the PSI protocol reports over the network is the intersection. -/
theorem C73_psi_run (S : Setup G) (c cu : Codec G) (hashOf : Nat → List Bool)
    (hh : ∀ e, (hashOf e).length = 256) (B stash node : Nat) (ds : List (DayIn G Nat (Ct G)))
    (hadm : Admissible S id B (fun t => NonZero S (t 0)) ds) (s : StPSI G) (ns : List Int)
    (h : runPSINet S c cu hashOf stash node ds = .ok (s, ns)) (l0 : s.p0.lost = []) (l1 : s.p1.lost = [])
    (hY : (allY ds).Nodup) :
    s.intersection.Perm (((allX ds).filter (fun x => x ∈ allY ds)).map some) ∧ ns.length = ds.length := by
  unfold runPSINet at h
  obtain ⟨h1, h2⟩ := runNet_runDays (step := fun s (d : DayIn G Nat (Ct G)) => dayPSINet c cu hashOf S.pk S.pk S.sk0 S.sk1 s d.xs d.ys d.coins)
    (step' := fun s d => dayPSI c cu hashOf S.pk S.sk0 S.sk1 s d.xs d.ys d.coins)
    (fun s d s' n e => ((C73_psi c cu hashOf S.pk S.sk0 S.sk1 s s' d.xs d.ys d.coins n).1 e).1) _ _ _ _ h
  exact ⟨C43_psi S c cu hashOf hh B stash node ds hadm s h1 l0 l1 hY, h2⟩

/-- **C73** What the sum protocol reports over the network is the number of matches and the sum of their values. -/
theorem C73_sum_run (S : Setup G) (c : Codec G) (limit : Nat) (hashOf : Nat → List Bool)
    (hh : ∀ e, (hashOf e).length = 256) (B stash node : Nat) (ds : List (DayIn G (Nat × Int) (Ct G)))
    (hadm : Admissible S Prod.fst B (fun t => NonZero S (t 0)) ds) (hlim : limit ≤ 2 ^ 64)
    (hlimq : limit ≤ S.q) (hY : (allY ds).Nodup)
    (hpos : ∀ p ∈ allX ds, 0 ≤ p.2)
    (hsmall : (((allX ds).filter (fun p => p.1 ∈ allY ds)).map Prod.snd).sum < S.q)
    (s : StSum G) (ns : List Int) (h : runSumNet S c limit hashOf stash node ds = .ok (s, ns))
    (l0 : s.p0.lost = []) (l1 : s.p1.lost = []) :
    s.cardinality = ((allX ds).filter (fun p => p.1 ∈ allY ds)).length ∧
    (s.sum.toNat : Int) = (((allX ds).filter (fun p => p.1 ∈ allY ds)).map Prod.snd).sum % 2 ^ 64 ∧ ns.length = ds.length := by
  unfold runSumNet at h
  obtain ⟨h1, h2⟩ := runNet_runDays (step := fun s (d : DayIn G (Nat × Int) (Ct G)) => daySumNet c limit hashOf S.pk S.pk S.sk0 S.sk1 s d.xs d.ys d.coins)
    (step' := fun s d => daySum c limit hashOf S.pk S.sk0 S.sk1 s d.xs d.ys d.coins)
    (fun s d s' n e => ((C73_sum c limit hashOf S.pk S.sk0 S.sk1 s s' d.xs d.ys d.coins n).1 e).1) _ _ _ _ h
  obtain ⟨a, b⟩ := C44_sum S c limit hashOf hh B stash node ds hadm hlim hlimq hY hpos hsmall s h1 l0 l1
  exact ⟨a, b, h2⟩

/-- The secret-sharing protocol over the network. -/
def runSSNet (S : Setup G) (c : Codec G) (mont : Int → Option Mont) (a b : TPaillier)
    (hashOf : Nat → List Bool) (stash node : Nat) (ds : List (DayIn G (Nat × Int) Int)) : Outcome (StSS G × List Int) :=
  runNet (fun s d => daySSNet c mont a b hashOf S.pk S.pk S.sk0 S.sk1 s d.xs d.ys d.coins) (StSS.init stash node) ds

/-- The original protocol over the network. -/
def runOgNet (K : OgKeys G) (c cu : Codec G) (H : Nat → G) (hashOf : Nat → List Bool)
    (stash node : Nat) (ds : List (OgDay G)) : Outcome (OgSt G × List Int) :=
  runNet (fun s d => dayOgNet K c cu H hashOf s d.xs d.ys d.coins) ⟨Og0.init stash node, Og1.init stash node⟩ ds

/-- The deletion protocol over the network; per day the byte counts of both parties. -/
def runDelNet (ro : List UInt8 → Nat) (mont : Int → Option Mont) (h : Nat → List Bool) (k0 k1 : DKeys)
    (stash node : Nat) (ds : List DayDelIn) : Outcome (StDel × List (Nat × Nat)) :=
  runNet (fun s (d : DayDelIn) => dayDelNet ro mont h k0 k1 s d.xs d.ys d.coins) (StDel.init stash node) ds

/-- The deletion-psi protocol over the network. -/
def runDelPsiNet (ro : List UInt8 → Nat) (mont : Int → Option Mont) (h : Nat → List Bool) (k0 k1 : DKeys)
    (stash node : Nat) (ds : List DayPsiIn) : Outcome (StDelPsi × List (Nat × Nat)) :=
  runNet (fun s (d : DayPsiIn) => dayDelPsiNet ro mont h k0 k1 s d.xs d.ys d.coins) (StDelPsi.init stash node) ds

/-- **C73** A run over the network that ends with a result ends as the run by direct calls does: every result theorem about
runs (C42–C48) applies to it. -/
theorem C73_shares_run (S : Setup G) (c : Codec G) (mont : Int → Option Mont) (a b : TPaillier)
    (hashOf : Nat → List Bool) (stash node : Nat) (ds : List (DayIn G (Nat × Int) Int)) (s : StSS G) (ns : List Int)
    (h : runSSNet S c mont a b hashOf stash node ds = .ok (s, ns)) :
    runSS S c mont a b hashOf stash node ds = .ok s ∧ ns.length = ds.length := by
  unfold runSSNet at h
  exact runNet_runDays (step := fun s (d : DayIn G (Nat × Int) Int) => daySSNet c mont a b hashOf S.pk S.pk S.sk0 S.sk1 s d.xs d.ys d.coins)
    (step' := fun s d => daySS c mont a b hashOf S.pk S.sk0 S.sk1 s d.xs d.ys d.coins)
    (fun s d s' n e => ((C73_shares c mont a b hashOf S.pk S.sk0 S.sk1 s s' d.xs d.ys d.coins n).1 e).1) _ _ _ _ h

/-- **C73** (original) What party zero reports over the network is the intersection. -/
theorem C73_original_run (S : Setup G) (c cu : Codec G) (H : Nat → G) (hashOf : Nat → List Bool)
    (hh : ∀ e, (hashOf e).length = 256) (B stash node : Nat) (ds : List (OgDay G))
    (hA : OgAdmissible S B H [] [] ds) (s : OgSt G) (ns : List Int)
    (h : runOgNet S.og c cu H hashOf stash node ds = .ok (s, ns)) (hl : s.p1.lost = []) :
    s.p0.intersection.Perm ((ogX ds).filter (fun x => x ∈ ogY ds)) ∧ ns.length = ds.length := by
  unfold runOgNet at h
  obtain ⟨h1, h2⟩ := runNet_runDays (step := fun s (d : OgDay G) => dayOgNet S.og c cu H hashOf s d.xs d.ys d.coins)
    (step' := fun s d => dayOg S.og c cu H hashOf s d.xs d.ys d.coins)
    (fun s d s' n e => ((C73_original S.og c cu H hashOf s s' d.xs d.ys d.coins n).1 e).1) _ _ _ _ h
  exact ⟨Upsi.Proto.Props.C48_original S c cu H hashOf hh B stash node ds hA s h1 hl, h2⟩

/-- **C73** (deletion) What party zero reports over the network is the size of the intersection of the current sets. -/
theorem C73_deletion_run (K : Keys p0 q0 p1 q1 mont k0 k1) (ro : List UInt8 → Nat) (h : Nat → List Bool)
    (hh : ∀ e, (h e).length = 256) (B stash node : Nat) (ds : List DayDelIn)
    (hA : DelAdmissible B (p0 * q0) (p1 * q1) ds) (s : StDel) (ns : List (Nat × Nat))
    (hr : runDelNet ro mont h k0 k1 stash node ds = .ok (s, ns))
    (l0 : s.p0.lost = []) (l1 : s.p1.lost = []) (hc : ∀ f ∈ s.trace, f.Clean ro)
    (b0 : 2 * (mass (delX ds) * mass (delY ds)) < ((p0 * q0 : Nat) : Int))
    (b1 : 2 * (mass (delX ds) * mass (delY ds)) < ((p1 * q1 : Nat) : Int))
    (A C : Finset Nat) (hX : Carries (fun _ => 1) (delX ds) A) (hY : Carries (fun _ => 1) (delY ds) C) :
    s.result.toNat = (A ∩ C).card ∧ ns.length = ds.length := by
  unfold runDelNet at hr
  obtain ⟨h1, h2⟩ := runNet_runDays (step := fun s (d : DayDelIn) => dayDelNet ro mont h k0 k1 s d.xs d.ys d.coins)
    (step' := fun s d => dayDel ro mont h k0 k1 s d.xs d.ys d.coins)
    (fun s d s' n e => ((C73_deletion ro mont h k0 k1 s s' d.xs d.ys d.coins n.1 n.2).1 e).1) _ _ _ _ hr
  exact ⟨C46_cardinality K ro h hh B stash node ds hA s h1 l0 l1 hc b0 b1 A C hX hY, h2⟩

/-- **C73** (deletion-psi) What party zero reports over the network is the intersection of the current sets. -/
theorem C73_deletion_psi_run (K : Keys p0 q0 p1 q1 mont k0 k1) (ro : List UInt8 → Nat) (h : Nat → List Bool)
    (hh : ∀ e, (h e).length = 256) (v w : Nat → Int) (B stash node : Nat) (ds : List DayPsiIn)
    (hA : PsiAdmissible v w B (p0 * q0) (p1 * q1) ds) (s : StDelPsi) (ns : List (Nat × Nat))
    (hr : runDelPsiNet ro mont h k0 k1 stash node ds = .ok (s, ns))
    (l0 : s.p0.lost = []) (l1 : s.p1.lost = []) (hc : ∀ f ∈ s.trace, f.Clean ro)
    (ho : (∀ u ∈ s.updates, OrderOK u) ∨
      (∀ d ∈ ds, Disjoint (delKeys d.xs) (addKeys d.xs) ∧ Disjoint (delKeys d.ys) (addKeys d.ys))) :
    s.result.toNat = (holdings ∅ (ds.map (·.xs)) ∩ holdings ∅ (ds.map (·.ys))).card ∧
    Reports s.inter (holdings ∅ (ds.map (·.xs)) ∩ holdings ∅ (ds.map (·.ys))) ∧ ns.length = ds.length := by
  unfold runDelPsiNet at hr
  obtain ⟨h1, h2⟩ := runNet_runDays (step := fun s (d : DayPsiIn) => dayDelPsiNet ro mont h k0 k1 s d.xs d.ys d.coins)
    (step' := fun s d => dayDelPsi ro mont h k0 k1 s d.xs d.ys d.coins)
    (fun s d s' n e => ((C73_deletion_psi ro mont h k0 k1 s s' d.xs d.ys d.coins n.1 n.2).1 e).1) _ _ _ _ hr
  exact ⟨C47_cardinality K ro h hh v w B stash node ds hA s h1 l0 l1 hc,
    C47_intersection K ro h hh v w B stash node ds hA s h1 l0 l1 hc ho, h2⟩

section
open Upsi.Proto.Examples Upsi.Tree.Props

/-- Non-vacuity: two days of each protocol over the network. -/
theorem netCA_run : ∃ r, runCANet toySetup toyCodec65521 Upsi.Tree.Props.toyHash 4 1 (toyDays Unit) = .ok r ∧
    (r.1.p0.lost == [] && r.1.p1.lost == [] && r.1.cardinality == 2 && r.2 == [1061, 1304]) = true :=
  holds_ok (by decide +kernel)

theorem netPSI_run : ∃ r, runPSINet toySetup toyCodec65521 toyCodec65521 Upsi.Tree.Props.toyHash 4 1 (toyDays _) = .ok r ∧
    (r.1.p0.lost == [] && r.1.p1.lost == [] && r.1.intersection == [some 5, some 3] && r.2 == [1122, 1524]) = true :=
  holds_ok (by decide +kernel)

theorem netSum_run : ∃ r, runSumNet toySetup toyCodec65521 50 Upsi.Tree.Props.toyHash 4 1 toyDaysSum = .ok r ∧
    (r.1.p0.lost == [] && r.1.p1.lost == [] && r.1.cardinality == 2 && r.1.sum == 30 && r.2 == [1220, 1612]) = true :=
  holds_ok (by decide +kernel)

theorem netSS_run : ∃ r, runSSNet toySetup toyCodec65521 (fun _ => none) toyA toyB Upsi.Tree.Props.toyHash 4 1 toyDaysSS = .ok r ∧
    (r.1.p0.lost == [] && r.1.p1.lost == [] &&
      List.zipWith (fun x y => (x + y) % 77) r.1.shares0 r.1.shares1 == [5, 3] && r.2.length == 2) = true :=
  holds_ok (by decide +kernel)

theorem netOg_run : ∃ r, runOgNet toySetup.og toyCodec65521 toyCodec65521 ogHash Upsi.Tree.Props.toyHash 4 1 ogDays = .ok r ∧
    (r.1.p1.lost == [] && r.2.length == ogDays.length) = true :=
  holds_ok (by decide +kernel)

theorem netDel_run : ∃ r, runDelNet toyRo (fun _ => none) toyHash ⟨sk0, pk1⟩ ⟨sk1, pk0⟩ 4 1 toyDaysDel = .ok r ∧
    (r.1.p0.lost == [] && r.1.p1.lost == [] && r.1.trace.all (cleanB toyRo) && r.2.length == toyDaysDel.length) = true :=
  holds_ok (by decide +kernel)

theorem netDelPsi_run : ∃ r, runDelPsiNet toyRo (fun _ => none) toyHash ⟨bsk0, bpk1⟩ ⟨bsk1, bpk0⟩ 4 1 psiDays = .ok r ∧
    (r.1.p0.lost == [] && r.1.p1.lost == [] && r.1.trace.all (cleanB toyRo) && r.2.length == psiDays.length) = true :=
  holds_ok (by decide +kernel)

example : ∃ s ns, runOgNet toySetup.og toyCodec65521 toyCodec65521 ogHash Upsi.Tree.Props.toyHash 4 1 ogDays = .ok (s, ns) ∧
    s.p0.intersection.Perm ((ogX ogDays).filter (fun x => x ∈ ogY ogDays)) ∧ ns.length = ogDays.length := by
  obtain ⟨⟨s, ns⟩, hs, hp⟩ := netOg_run
  simp only [Bool.and_eq_true, beq_iff_eq] at hp
  exact ⟨s, ns, hs, C73_original_run _ _ _ _ _ Upsi.Tree.Props.toyHash_len 50 4 1 _ ogDays_adm s ns hs hp.1⟩

example : ∃ s ns, runDelNet toyRo (fun _ => none) toyHash ⟨sk0, pk1⟩ ⟨sk1, pk0⟩ 4 1 toyDaysDel = .ok (s, ns) ∧
    s.result.toNat = (({5, 8} : Finset Nat) ∩ {3, 8}).card ∧ ns.length = toyDaysDel.length := by
  obtain ⟨⟨s, ns⟩, hs, hp⟩ := netDel_run
  simp only [Bool.and_eq_true, beq_iff_eq, List.all_eq_true] at hp
  exact ⟨s, ns, hs, C73_deletion_run toyKeys toyRo toyHash toyHash_len 50 4 1 toyDaysDel toyDaysDel_adm s ns hs hp.1.1.1 hp.1.1.2
    (fun f hf => clean_of (hp.1.2 f hf)) (by decide +kernel) (by decide +kernel) _ _ toyX_carries toyY_carries⟩

example : ∃ s ns, runCANet toySetup toyCodec65521 Upsi.Tree.Props.toyHash 4 1 (toyDays Unit) = .ok (s, ns) ∧
    s.cardinality = ((allX (toyDays Unit)).toFinset ∩ (allY (toyDays Unit)).toFinset).card ∧ ns.length = 2 := by
  obtain ⟨⟨s, ns⟩, hs, hp⟩ := netCA_run
  simp only [Bool.and_eq_true, beq_iff_eq] at hp
  exact ⟨s, ns, hs, C73_cardinality_run _ _ _ Upsi.Tree.Props.toyHash_len 50 4 1 _ toyDays_adm s ns hs hp.1.1.1 hp.1.1.2
    (by simp [allX, toyDays]) (by simp [allY, toyDays])⟩

end
end Upsi.Main
