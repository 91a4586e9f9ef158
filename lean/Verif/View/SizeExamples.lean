import Verif.View.SizeDel
import Verif.View.Share
import Verif.Proto.DelPsiExamples
/- Non-vacuity of C65 and the witness that message sizes depend on the elements. -/
namespace Upsi.View.Examples
open Upsi Upsi.ElGamal Upsi.Tree Upsi.Tree.Props Upsi.Num Upsi.Proto Upsi.Proto.Examples

/-- Day 1: party one adds 5 and 7, both identifiers addressing the left half of the tree. -/
def leakDay1 : List (DayIn (ZMod 65521) Nat Unit) :=
  [⟨[3], [5, 7], toyCoins 50 [Props.toyHash 0] [Props.toyHash 0, Props.toyHash 0]⟩]
/-- Day 2: party zero adds one element `x`; everything else is fixed. -/
def leakDay2 (x : Nat) : DayIn (ZMod 65521) Nat Unit := ⟨[x], [9], toyCoins 50 [Props.toyHash 2] [Props.toyHash 3]⟩

theorem leak_run : ∃ s, runCA toySetup toyCodec65521 Props.toyHash 4 1 leakDay1 = .ok s ∧
    (holds (daySizes (funcCA toyCodec65521) toyCodec65521 Props.toyHash toySetup.pk toySetup.sk1 s.p0 s.p1 (leakDay2 4).xs (leakDay2 4).ys (leakDay2 4).coins)
      (fun z => z.cands0 == 6) &&
     holds (daySizes (funcCA toyCodec65521) toyCodec65521 Props.toyHash toySetup.pk toySetup.sk1 s.p0 s.p1 (leakDay2 6).xs (leakDay2 6).ys (leakDay2 6).coins)
      (fun z => z.cands0 == 6) &&
     holds (daySizes (funcCA toyCodec65521) toyCodec65521 Props.toyHash toySetup.pk toySetup.sk1 s.p0 s.p1 (leakDay2 11).xs (leakDay2 11).ys (leakDay2 11).coins)
      (fun z => z.cands0 == 5)) = true :=
  holds_ok (by decide +kernel)

/-- **C65** (sizes are not independent of the elements) After the same history and with the same identifiers, keys and
coins, the number of candidates party zero sends for one new element is 6 if the element's path is in the half of party
one's tree that was updated, and 5 if it is not: the size of message I reveals something about party zero's
element. -/
theorem C65_sizes_leak : ∃ s z z', runCA toySetup toyCodec65521 Props.toyHash 4 1 leakDay1 = .ok s ∧
    daySizes (funcCA toyCodec65521) toyCodec65521 Props.toyHash toySetup.pk toySetup.sk1 s.p0 s.p1 (leakDay2 4).xs (leakDay2 4).ys (leakDay2 4).coins = .ok z ∧
    daySizes (funcCA toyCodec65521) toyCodec65521 Props.toyHash toySetup.pk toySetup.sk1 s.p0 s.p1 (leakDay2 11).xs (leakDay2 11).ys (leakDay2 11).coins = .ok z' ∧
    z.cands0 = 6 ∧ z'.cands0 = 5 := by
  obtain ⟨s, hs, hp⟩ := leak_run
  simp only [Bool.and_eq_true] at hp
  obtain ⟨z, hz, h1⟩ := holds_ok hp.1.1
  obtain ⟨z', hz', h2⟩ := holds_ok hp.2
  exact ⟨s, z, z', hs, hz, hz', by simpa using h1, by simpa using h2⟩

theorem leak_ok (x : Nat) : PublicOK (leakDay1 ++ [leakDay2 x]) where
  id0 := by
    intro d hd
    simp only [leakDay1, leakDay2, List.cons_append, List.nil_append, List.mem_cons, List.not_mem_nil, or_false] at hd
    rcases hd with rfl | rfl <;> exact ⟨rfl, by intro h hh; simp only [toyCoins, List.mem_cons, List.not_mem_nil, or_false] at hh; subst hh; exact toyHash_len _⟩
  id1 := by
    intro d hd
    simp only [leakDay1, leakDay2, List.cons_append, List.nil_append, List.mem_cons, List.not_mem_nil, or_false] at hd
    rcases hd with rfl | rfl
    · exact ⟨rfl, by intro h hh; simp only [toyCoins, List.mem_cons, List.not_mem_nil, or_false] at hh; rcases hh with rfl | rfl <;> exact toyHash_len _⟩
    · exact ⟨rfl, by intro h hh; simp only [toyCoins, List.mem_cons, List.not_mem_nil, or_false] at hh; subst hh; exact toyHash_len _⟩
  shuffle := by
    intro d hd l
    simp only [leakDay1, leakDay2, List.cons_append, List.nil_append, List.mem_cons, List.not_mem_nil, or_false] at hd
    rcases hd with rfl | rfl <;> exact List.reverse_perm l
  size0 := by simp [leakDay1, leakDay2, allX]
  size1 := by simp [leakDay1, leakDay2, allY]

/- The hypotheses of C65 are met by these days; the closed form gives the two numbers. -/
example : ∃ s z, runCA toySetup toyCodec65521 Props.toyHash 4 1 leakDay1 = .ok s ∧
    daySizes (funcCA toyCodec65521) toyCodec65521 Props.toyHash toySetup.pk toySetup.sk1 s.p0 s.p1 (leakDay2 11).xs (leakDay2 11).ys (leakDay2 11).coins = .ok z ∧
    z = sizesSpec 4 1 [[Props.toyHash 0]] [[Props.toyHash 0, Props.toyHash 0]] [Props.toyHash 2] [Props.toyHash 3] [Props.toyHash 11] [Props.toyHash 9] ∧
    z.cands0 = 5 := by
  obtain ⟨s, z, z', h1, _, h3, _, h5⟩ := C65_sizes_leak
  exact ⟨s, z', h1, h3, C65_sizes_cardinality toySetup toyCodec65521 Props.toyHash toyHash_len 4 1 leakDay1 (leakDay2 11) (leak_ok 11) s h1 z' h3, h5⟩

/- A history after which sizes hide everything: both halves of a tree of depth one were updated. -/
example : ∀ u, u < 2 ^ (Nat.log2 (idCount [[Props.toyHash 0, Props.toyHash 1]]) + 1) → touched [[Props.toyHash 0, Props.toyHash 1]] u = true := by
  decide +kernel

/-- The third day of `toyDaysDel`. -/
def delDay3 : DayDelIn := ⟨[], [(5, -1)], toyRound [] [toyHash 9], toyGc 4, toyGc 5⟩

/- Deletions: the third day of the history of C46 (party one removes an element). -/
example : ∃ s z, runDelDays toyRo (fun _ => none) toyHash ⟨sk0, pk1⟩ ⟨sk1, pk0⟩ 4 1 (toyDaysDel.take 2) = .ok s ∧
    RoundsOK ((toyDaysDel.take 2 ++ [delDay3]).map delRound) ∧
    roundSizes (fun _ => none) toyHash ⟨sk0, pk1⟩ ⟨sk1, pk0⟩ s.p0 s.p1 (delRound delDay3) = .ok z ∧
    z.cands1.length = 1 := by
  obtain ⟨s, hs, hp⟩ := (holds_ok (by decide +kernel) : ∃ s, runDelDays toyRo (fun _ => none) toyHash ⟨sk0, pk1⟩ ⟨sk1, pk0⟩ 4 1 (toyDaysDel.take 2) = .ok s ∧
    holds (roundSizes (fun _ => none) toyHash ⟨sk0, pk1⟩ ⟨sk1, pk0⟩ s.p0 s.p1 (delRound delDay3))
      (fun z => z.cands1.length == 1) = true)
  obtain ⟨z, hz, hl⟩ := holds_ok hp
  refine ⟨s, z, hs, ⟨?_, ?_, by simp [toyDaysDel, delDay3, delRound, rids0, idCount, toyRound], by simp [toyDaysDel, delDay3, delRound, rids1, idCount, toyRound]⟩, hz, by simpa using hl⟩
  · intro r hr
    simp only [toyDaysDel, delDay3, List.take_succ_cons, List.take_zero, List.cons_append, List.nil_append, List.map_cons, List.map_nil, List.mem_cons,
      List.not_mem_nil, or_false] at hr
    rcases hr with rfl | rfl | rfl <;> refine ⟨rfl, ?_⟩ <;> intro h hh <;>
      simp only [delDay3, delRound, toyRound, List.mem_cons, List.not_mem_nil, or_false] at hh
    · rcases hh with rfl | rfl <;> exact toyHash_len _
    · rcases hh with rfl | rfl <;> exact toyHash_len _
  · intro r hr
    simp only [toyDaysDel, delDay3, List.take_succ_cons, List.take_zero, List.cons_append, List.nil_append, List.map_cons, List.map_nil, List.mem_cons,
      List.not_mem_nil, or_false] at hr
    rcases hr with rfl | rfl | rfl <;> refine ⟨rfl, ?_⟩ <;> intro h hh <;>
      simp only [delDay3, delRound, toyRound, List.mem_cons, List.not_mem_nil, or_false] at hh
    · subst hh; exact toyHash_len _
    · rcases hh with rfl | rfl <;> exact toyHash_len _
    · subst hh; exact toyHash_len _

end Upsi.View.Examples
