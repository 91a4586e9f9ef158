import Verif.Mock.DelProps
import Verif.Proto.DelPsiExamples
import Verif.Proto.OgExamples
/- Non-vacuity of C78: runs with mock trees of three elements, and the witnesses that its side conditions are needed. -/
namespace Upsi.Proto.Examples
open Upsi Upsi.Tree Upsi.Tree.Props Upsi.Num Upsi.Paillier Upsi.Proto Upsi.Mock Upsi.Setup

/-- Coins of `CreateMockTrees` that draw the elements `10 a + b` for the digits given. -/
def toyMock (ds : List (Nat × Nat)) : MockCoins where
  rnd i := List.replicate 13 0 ++ [(ds.getD i (0, 0)).1, (ds.getD i (0, 0)).2]
  hsh := (List.range ds.length).map toyHash
  zero i := 3 + i

theorem toyMock_wf (ds : List (Nat × Nat)) (n i : Nat) (h : 3 + i ≤ n) : (toyMock ds).WF ds.length n i where
  rnd i := by simp [toyMock]
  count := by simp [toyMock]
  hsh := by
    intro h hh; simp only [toyMock, List.mem_map] at hh
    obtain ⟨a, _, rfl⟩ := hh; exact toyHash_len _
  coin := by simp only [toyMock]; omega

/-- Party zero's mock elements: 7, 7 and 12. -/
def mock0 : MockCoins := toyMock [(0, 7), (0, 7), (1, 2)]
/-- Party one's: 12, 6 and 0; 12 is common to both. -/
def mock1 : MockCoins := toyMock [(1, 2), (0, 6), (0, 0)]

/-- The secret-sharing run with the given `--start_size` flags on the toy keys. -/
def mockSSRun (a b : Int) (m0 m1 : MockCoins) (ds : List (DayIn (ZMod 65521) (Nat × Int) Int)) :
    Outcome (StSS (ZMod 65521)) :=
  startSS toyHash toySetup.pk (fun _ => none) toyB 4 1 a b m0 m1 >>= fun s =>
    runSSFrom toySetup toyCodec65521 (fun _ => none) toyA toyB toyHash s ds

/-- The run of the cardinality/sum protocol with deletions. -/
def mockDelRun (a b : Int) (m0 m1 : MockCoins) (ds : List DayDelIn) : Outcome StDel :=
  startDel toyHash (fun _ => none) ⟨sk0, pk1⟩ ⟨sk1, pk0⟩ 4 1 a b m0 m1 >>= fun s =>
    runDelFrom toyRo (fun _ => none) toyHash ⟨sk0, pk1⟩ ⟨sk1, pk0⟩ ⟨s.1, s.2, 0, []⟩ ds

/-- The run of the intersection protocol with deletions. -/
def mockPsiRun (a b : Int) (m0 m1 : MockCoins) (ds : List DayPsiIn) : Outcome StDelPsi :=
  startDel toyHash (fun _ => none) ⟨bsk0, bpk1⟩ ⟨bsk1, bpk0⟩ 4 1 a b m0 m1 >>= fun s =>
    runDelPsiFrom toyRo (fun _ => none) toyHash ⟨bsk0, bpk1⟩ ⟨bsk1, bpk0⟩ ⟨s.1, s.2, 0, [], [], []⟩ ds

theorem mock0_elems : mockElements mock0.rnd 0 3 = .ok [7, 7, 12] := by rfl
theorem mock1_elems : mockElements mock1.rnd 0 3 = .ok [12, 6, 0] := by rfl

theorem mockSS_run : ∃ s, mockSSRun 3 3 mock0 mock1 toyDaysSS = .ok s ∧ (s.p0.lost == [] && s.p1.lost == []) = true :=
  holds_ok (by decide +kernel)

theorem toyDaysSS_mock : MockAdmissible toySetup 50 3 toyDaysSS where
  bound := by simp [toySetup]
  coins := toyDaysSS_adm.coins
  x := by simp [allX, toyDaysSS]
  y := by simp [allY, toyDaysSS]
  sizeX := by simp [allX, toyDaysSS]
  sizeY := by simp [allY, toyDaysSS]

/-- The hypotheses of `C78_shares` are met: the shares are those of 3 and 5, although both mock trees hold 12. -/
example : ∃ s, mockSSRun 3 3 mock0 mock1 toyDaysSS = .ok s ∧
    (List.zipWith (fun x y => (x + y) % 77) s.shares0 s.shares1).Perm [3, 5] := by
  obtain ⟨s', hr, hp⟩ := mockSS_run
  simp only [Bool.and_eq_true, beq_iff_eq] at hp
  obtain ⟨M0, M1, s, e0, e1, _, hs, hall⟩ := C78_shares toySetup toyCodec65521 toySSKeys toyHash toyHash_len 50 4 1 3
    (by norm_num) mock0 mock1 (toyMock_wf [(0, 7), (0, 7), (1, 2)] _ _ (by norm_num))
    (toyMock_wf [(1, 2), (0, 6), (0, 0)] _ _ (by norm_num)) toyDaysSS toyDaysSS_mock (by decide)
  have h0 : M0 = [7, 7, 12] := Outcome.ok.inj (e0.symm.trans mock0_elems)
  have h1 : M1 = [12, 6, 0] := Outcome.ok.inj (e1.symm.trans mock1_elems)
  subst h0 h1
  have hr' := hr
  rw [mockSSRun, hs, Outcome.bind_ok] at hr'
  exact ⟨s', hr, (hall s' (by decide) (by decide) (by decide) hr' hp.1 hp.2).2⟩

theorem mockDel_run : ∃ s, mockDelRun 3 3 mock0 mock1 toyDaysDel = .ok s ∧
    (s.p0.lost == [] && s.p1.lost == [] && s.trace.all (cleanB toyRo)) = true :=
  holds_ok (by decide +kernel)

theorem toyDaysDel_mock : DelMockAdmissible 50 (7 * 11) (11 * 13) 3 toyDaysDel where
  bound0 := by norm_num
  bound1 := by norm_num
  coins := toyDaysDel_adm.coins
  x := by simp [delX, toyDaysDel]
  y := by simp [delY, toyDaysDel]
  sizeX := by simp [delX, toyDaysDel]
  sizeY := by simp [delY, toyDaysDel]

/-- The hypotheses of `C78_sum` are met by a history with deletions: only 8 is held by both parties. -/
example : ∃ s, mockDelRun 3 3 mock0 mock1 toyDaysDel = .ok s ∧ s.result = 1 := by
  obtain ⟨s', hr, hp⟩ := mockDel_run
  simp only [Bool.and_eq_true, beq_iff_eq, List.all_eq_true] at hp
  obtain ⟨M0, M1, s0, s1, e0, e1, _, hs, hall⟩ := C78_sum toyKeys toyRo toyHash toyHash_len 50 4 1 3
    (by norm_num) mock0 mock1 (toyMock_wf [(0, 7), (0, 7), (1, 2)] _ _ (by norm_num))
    (toyMock_wf [(1, 2), (0, 6), (0, 0)] _ _ (by norm_num)) toyDaysDel toyDaysDel_mock (by decide) (by decide) (fun _ => 1)
    {5, 8} {3, 8} toyX_carries toyY_carries
  have h0 : M0 = [7, 7, 12] := Outcome.ok.inj (e0.symm.trans mock0_elems)
  have h1 : M1 = [12, 6, 0] := Outcome.ok.inj (e1.symm.trans mock1_elems)
  subst h0 h1
  have hr' := hr
  rw [mockDelRun, hs, Outcome.bind_ok] at hr'
  refine ⟨s', hr, ?_⟩
  rw [hall s' (by decide) (by decide) (by decide) hr' hp.1.1 hp.1.2 (fun f hf => clean_of (hp.2 f hf))]
  rfl

theorem mockPsi_run : ∃ s, mockPsiRun 3 3 mock0 mock1 psiDays = .ok s ∧
    (s.p0.lost == [] && s.p1.lost == [] && s.trace.all (cleanB toyRo)) = true :=
  holds_ok (by decide +kernel)

/-- The hypotheses of `C78_intersection` are met: the output is `{3, 8}`. -/
example : ∃ s, mockPsiRun 3 3 mock0 mock1 psiDays = .ok s ∧ s.result.toNat = 2 ∧ Reports s.inter {3, 8} := by
  obtain ⟨s', hr, hp⟩ := mockPsi_run
  simp only [Bool.and_eq_true, beq_iff_eq, List.all_eq_true] at hp
  obtain ⟨M0, M1, s0, s1, e0, e1, _, hs, hall⟩ := C78_intersection bigKeys toyRo toyHash toyHash_len _ _ 50 4 1 3
    (by norm_num) mock0 mock1 (toyMock_wf [(0, 7), (0, 7), (1, 2)] _ _ (by norm_num))
    (toyMock_wf [(1, 2), (0, 6), (0, 0)] _ _ (by norm_num)) psiDays psiDays_adm (by decide) (by decide)
  have h0 : M0 = [7, 7, 12] := Outcome.ok.inj (e0.symm.trans mock0_elems)
  have h1 : M1 = [12, 6, 0] := Outcome.ok.inj (e1.symm.trans mock1_elems)
  subst h0 h1
  have hr' := hr
  rw [mockPsiRun, hs, Outcome.bind_ok] at hr'
  obtain ⟨k1, k2⟩ := hall s' (by decide) (by decide) (by decide) hr' hp.1.1 hp.1.2 (fun f hf => clean_of (hp.2 f hf))
  refine ⟨s', hr, by rw [k1]; decide, ?_⟩
  rw [show ({3, 8} : Finset Nat) = _ from (by decide : _ = holdings ∅ (psiDays.map (·.xs)) ∩ holdings ∅ (psiDays.map (·.ys)))]
  refine k2 (Or.inr ?_)
  intro d hd
  simp only [psiDays, List.mem_cons, List.not_mem_nil, or_false] at hd
  rcases hd with rfl | rfl <;> exact ⟨by decide, by decide⟩

/-- **C78** Why the mock elements of a party must not be elements the other party adds: if party zero drew 9 and party
one adds 9 on day two, there is a third pair of shares, and it is of the payload *one* of the mock entry, not of 9. -/
theorem C78_collision_witness : ∃ s, mockSSRun 3 3 (toyMock [(0, 9), (0, 7), (1, 2)]) mock1 toyDaysSS = .ok s ∧
    (s.p0.lost == [] && s.p1.lost == [] &&
      List.zipWith (fun x y => (x + y) % 77) s.shares0 s.shares1 == [5, 1, 3]) = true :=
  holds_ok (by decide +kernel)

/-- **C78** The same for the protocol with deletions: party zero drew 3, which party one adds on day two and party zero
deletes from its own set; the result is 2 instead of 1. -/
theorem C78_collision_deletion_witness : ∃ s, mockDelRun 3 3 (toyMock [(0, 3), (0, 7), (1, 2)]) mock1 toyDaysDel = .ok s ∧
    (s.p0.lost == [] && s.p1.lost == [] && s.trace.all (cleanB toyRo) && s.result == 2) = true :=
  holds_ok (by decide +kernel)

/-- Party zero adds 3 and 0, party one adds 5. -/
def zeroDays : List (DayIn (ZMod 65521) (Nat × Int) Int) :=
  [⟨[(3, 10), (0, 20)], [5], toyCoinsSS [toyHash 0, toyHash 1] [toyHash 1]⟩]

/-- **C78** Why elements must not be zero: the element 0 matches every encryption of zero on its path, whatever the mock
elements are – six pairs of shares although the data sets have nothing in common. -/
theorem C78_zero_witness : ∃ s, mockSSRun 3 3 mock0 mock1 zeroDays = .ok s ∧
    (s.p0.lost == [] && s.p1.lost == [] &&
      List.zipWith (fun x y => (x + y) % 77) s.shares0 s.shares1 == [0, 0, 0, 0, 0, 0]) = true :=
  holds_ok (by decide +kernel)

/-- **C78** Why both parties need the same `--start_size`: the copy has the shape of the own tree, so with different
sizes an otherwise good run accesses memory outside the copy or the message. -/
theorem C78_sizes_witness : mockSSRun 3 1 mock0 (toyMock [(1, 2)]) toyDaysSS = .ub ∧
    mockSSRun 3 (-1) mock0 mock1 toyDaysSS = .ub ∧ mockDelRun 1 3 (toyMock [(1, 2)]) mock1 toyDaysDel = .ub :=
  ⟨isUb_eq (by decide +kernel), isUb_eq (by decide +kernel), isUb_eq (by decide +kernel)⟩

end Upsi.Proto.Examples
