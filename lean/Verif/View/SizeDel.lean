import Verif.View.SizeProps
import Verif.Proto.DelPsiProps
/- C65 for the protocols with deletions. -/
namespace Upsi.View
open Upsi Upsi.Tree Upsi.Tree.Props Upsi.Num Upsi.Proto Upsi.Paillier

/-! ### specification -/

/-- One exchange of messages I and II: the updates of the two parties and the coins. -/
structure Round where
  xs : List EP
  ys : List EP
  coins : RoundCoins

/-- What an observer sees of messages I and II: of each tree update the identifiers and the number of ciphertexts per
node, and for every new element the number of candidates. -/
structure DelSizes where
  ids0 : List (List Bool)
  nodes0 : List Nat
  cands0 : List Nat
  ids1 : List (List Bool)
  nodes1 : List Nat
  cands1 : List Nat
  deriving DecidableEq, Repr

/-- The sizes of a round with elements of hashes `hx`, `hy`; identifiers as in `sizesSpec`. -/
def delSizesSpec (stash node : Nat) (H0 H1 : List (List (List Bool))) (b0 b1 : List (List Bool)) (hx hy : List (List Bool)) : DelSizes where
  ids0 := b0
  nodes0 := updateSizes stash node H0 b0
  cands0 := hx.map (slots stash node H1)
  ids1 := b1
  nodes1 := updateSizes stash node H1 b1
  cands1 := hy.map (slots stash node (H0 ++ [b0]))

/-- The identifiers party zero sends in the given rounds. -/
def rids0 (rs : List Round) : List (List (List Bool)) := rs.map (fun r => r.coins.hsh0)
/-- The identifiers party one sends in the given rounds. -/
def rids1 (rs : List Round) : List (List (List Bool)) := rs.map (fun r => r.coins.hsh1)

/-- One 256-bit identifier per element and fewer than `2^30` elements on each side. -/
structure RoundsOK (rs : List Round) : Prop where
  id0 : ∀ r ∈ rs, Batch.WF (r.xs, r.coins.hsh0)
  id1 : ∀ r ∈ rs, Batch.WF (r.ys, r.coins.hsh1)
  size0 : idCount (rids0 rs) < 2 ^ 30
  size1 : idCount (rids1 rs) < 2 ^ 30

/-- Messages I and II of a round, as an observer sees them. -/
def roundSizes (mont : Int → Option Mont) (hashOf : Nat → List Bool) (k0 k1 : DKeys) (s0 s1 : DSt) (r : Round) : Outcome DelSizes := do
  let (_, m1, _) ← delGenI mont hashOf k0 s0 r.xs r.coins
  let (_, m2, _, _) ← delGenII mont hashOf k1 s1 m1 r.ys r.coins
  pure ⟨m1.updates.hashes, m1.updates.nodes.map List.length, m1.candidates.map List.length,
    m2.updates.hashes, m2.updates.nodes.map List.length, m2.candidates.map List.length⟩

/-! ### proofs -/

theorem forIdx_lengths {α β : Type} {f : Nat → α → Outcome (List β)} {g : α → Nat} (l : List α)
    (hf : ∀ i, ∀ a ∈ l, ∀ b, f i a = .ok b → b.length = g a) : ∀ (i : Nat) (bs : List (List β)), forIdx f i l = .ok bs →
    bs.map List.length = l.map g := by
  induction l with
  | nil => intro i bs h; simp only [forIdx, Outcome.ok.injEq] at h; subst h; rfl
  | cons a l ih =>
    intro i bs h
    simp only [forIdx, Outcome.bind_eq_ok, Outcome.pure_eq, Outcome.ok.injEq] at h
    obtain ⟨b, hb, bs', hbs, rfl⟩ := h
    rw [List.map_cons, List.map_cons, hf i a (List.mem_cons_self ..) b hb,
      ih (fun i a ha => hf i a (List.mem_cons_of_mem _ ha)) (i + 1) bs' hbs]

structure DelSizeInv (hashOf : Nat → List Bool) (stash node : Nat) (H0 H1 : List (List (List Bool))) (s0 s1 : DSt) : Prop where
  my0 : Sender (fun e : EP => hashOf e.1) stash node H0 s0.my
  my1 : Sender (fun e : EP => hashOf e.1) stash node H1 s1.my
  other0 : Shaped stash node H1 s0.other
  other1 : Shaped stash node H0 s1.other

theorem DelSizeInv.init (hashOf : Nat → List Bool) (stash node : Nat) :
    DelSizeInv hashOf stash node [] [] (DSt.init stash node) (DSt.init stash node) :=
  ⟨sender_empty _ _ _, sender_empty _ _ _, shaped_empty _ _ _ _, shaped_empty _ _ _ _⟩

theorem candidatesOf_sizes {mont : Int → Option Mont} {hashOf : Nat → List Bool} (hh : ∀ e, (hashOf e).length = 256) {pk : Public}
    {stash node : Nat} {H : List (List (List Bool))} {other : Upsi.Tree.Tree (Int × Int)} (ho : Shaped stash node H other) {es : List EP}
    {path : Nat → PathCoins} {r : List (List Item) × List (List EncElem)} (h : candidatesOf mont hashOf pk other es path = .ok r) :
    r.2.map List.length = (es.map (fun e => hashOf e.1)).map (slots stash node H) := by
  simp only [candidatesOf, Outcome.bind_eq_ok, Outcome.pure_eq, Outcome.ok.injEq] at h
  obtain ⟨gs, hg, ws, hw, rfl⟩ := h
  have e1 := forIdx_lengths (g := fun e : EP => slots stash node H (hashOf e.1)) es (fun i a _ b hb => by
    simp only [combineInit, Outcome.bind_eq_ok] at hb
    obtain ⟨p, hp, hb⟩ := hb
    rw [forIdx_length hb, shaped_path ho (hh _) hp]) 0 gs hg
  have e2 := forIdx_lengths (g := List.length) gs (fun i a _ b hb => forIdx_length hb) 0 ws hw
  rw [e2, e1, List.map_map]; rfl

theorem round_sizes {mont : Int → Option Mont} {hashOf : Nat → List Bool} (hh : ∀ e, (hashOf e).length = 256) {k0 k1 : DKeys}
    {stash node : Nat} {H0 H1 : List (List (List Bool))} {s0 s1 s0' s1' : DSt} (hI : DelSizeInv hashOf stash node H0 H1 s0 s1)
    {r : Round} (hb0 : Batch.WF (r.xs, r.coins.hsh0)) (hb1 : Batch.WF (r.ys, r.coins.hsh1))
    (t0 : idCount H0 + r.coins.hsh0.length < 2 ^ 30) (t1 : idCount H1 + r.coins.hsh1.length < 2 ^ 30) {m1 m2 : DelMsg}
    {g0 : List (List Item)} {g1 : List (List Int) × List (List Item)}
    (h1 : delGenI mont hashOf k0 s0 r.xs r.coins = .ok (s0', m1, g0)) (h2 : delGenII mont hashOf k1 s1 m1 r.ys r.coins = .ok (s1', m2, g1)) :
    DelSizes.mk m1.updates.hashes (m1.updates.nodes.map List.length) (m1.candidates.map List.length)
      m2.updates.hashes (m2.updates.nodes.map List.length) (m2.candidates.map List.length) =
      delSizesSpec stash node H0 H1 r.coins.hsh0 r.coins.hsh1 (r.xs.map (fun x => hashOf x.1)) (r.ys.map (fun y => hashOf y.1)) ∧
    Sender (fun e : EP => hashOf e.1) stash node (H0 ++ [r.coins.hsh0]) s0'.my ∧
    Sender (fun e : EP => hashOf e.1) stash node (H1 ++ [r.coins.hsh1]) s1'.my ∧
    Shaped stash node (H0 ++ [r.coins.hsh0]) s1'.other ∧ s0'.other = s0.other ∧
    m2.updates.shape = (r.coins.hsh1, (updateAddrs (Nat.log2 (idCount (H1 ++ [r.coins.hsh1]))) r.coins.hsh1).map
      (fun u => if u = 0 then stash else node)) := by
  simp only [delGenI, Outcome.bind_eq_ok, Outcome.pure_eq, Outcome.ok.injEq, Prod.mk.injEq] at h1
  obtain ⟨u0, hu0, c0, hc0, rfl, rfl, rfl⟩ := h1
  simp only [delGenII, Outcome.bind_eq_ok, Outcome.pure_eq, Outcome.ok.injEq, Prod.mk.injEq] at h2
  obtain ⟨other, ho, ys, hys, u1, hu1, c1, hc1, rfl, rfl, rfl⟩ := h2
  obtain ⟨a1, a2⟩ := sender_step (fun e : EP => hh e.1) (mergeBucket_post hashOf) hI.my0 hb0 t0 hu0
  obtain ⟨b1, b2⟩ := sender_step (fun e : EP => hh e.1) (mergeBucket_post hashOf) hI.my1 hb1 t1 hu1
  have o1 := shaped_step hI.other1 hb0.2 t0 a2 ho
  refine ⟨?_, a1, b1, o1, rfl, b2⟩
  obtain ⟨a3, a4⟩ := shape_lengths a2
  obtain ⟨b3, b4⟩ := shape_lengths b2
  rw [updateAddrs_sizes stash node H0 r.coins.hsh0 hb0.2 (by rw [idCount_snoc]; exact t0)] at a4
  rw [updateAddrs_sizes stash node H1 r.coins.hsh1 hb1.2 (by rw [idCount_snoc]; exact t1)] at b4
  simp only [delSizesSpec, DelSizes.mk.injEq]
  exact ⟨a3, a4, candidatesOf_sizes hh hI.other0 hc0, b3, b4, candidatesOf_sizes hh o1 hc1⟩

/-- A sequence of rounds. -/
def runRounds (mont : Int → Option Mont) (hashOf : Nat → List Bool) (k0 k1 : DKeys) : DSt × DSt → List Round → Outcome (DSt × DSt)
  | s, [] => .ok s
  | s, r :: rs => do
    let (a, b, _) ← roundDel mont hashOf k0 k1 s.1 s.2 r.xs r.ys r.coins
    runRounds mont hashOf k0 k1 (a, b) rs

theorem runRounds_append {mont : Int → Option Mont} {hashOf : Nat → List Bool} {k0 k1 : DKeys} (rs qs : List Round) : ∀ s s' s'',
    runRounds mont hashOf k0 k1 s rs = .ok s' → runRounds mont hashOf k0 k1 s' qs = .ok s'' →
    runRounds mont hashOf k0 k1 s (rs ++ qs) = .ok s'' := by
  induction rs with
  | nil => intro s s' s'' h1 h2; simp only [runRounds, Outcome.ok.injEq] at h1; subst h1; exact h2
  | cons r rs ih =>
    intro s s' s'' h1 h2
    simp only [runRounds, Outcome.bind_eq_ok] at h1
    obtain ⟨⟨a, b, o⟩, hr, h1⟩ := h1
    simp only [List.cons_append, runRounds, hr, Outcome.bind_ok]
    exact ih _ _ _ h1 h2

theorem runRounds_size {mont : Int → Option Mont} {hashOf : Nat → List Bool} (hh : ∀ e, (hashOf e).length = 256) {k0 k1 : DKeys}
    {stash node : Nat} (rs : List Round) : ∀ (H0 H1 : List (List (List Bool))) (s s' : DSt × DSt), DelSizeInv hashOf stash node H0 H1 s.1 s.2 →
    (∀ r ∈ rs, Batch.WF (r.xs, r.coins.hsh0)) → (∀ r ∈ rs, Batch.WF (r.ys, r.coins.hsh1)) →
    idCount (H0 ++ rids0 rs) < 2 ^ 30 → idCount (H1 ++ rids1 rs) < 2 ^ 30 → runRounds mont hashOf k0 k1 s rs = .ok s' →
    DelSizeInv hashOf stash node (H0 ++ rids0 rs) (H1 ++ rids1 rs) s'.1 s'.2 := by
  induction rs with
  | nil =>
    intro H0 H1 s s' hI _ _ _ _ h
    simp only [runRounds, Outcome.ok.injEq] at h
    subst h
    simpa [rids0, rids1] using hI
  | cons r rs ih =>
    intro H0 H1 s s' hI w0 w1 t0 t1 h
    have e0 : H0 ++ rids0 (r :: rs) = (H0 ++ [r.coins.hsh0]) ++ rids0 rs := by simp [rids0]
    have e1 : H1 ++ rids1 (r :: rs) = (H1 ++ [r.coins.hsh1]) ++ rids1 rs := by simp [rids1]
    rw [e0] at t0 ⊢
    rw [e1] at t1 ⊢
    simp only [runRounds, roundDel, Outcome.bind_eq_ok, Outcome.pure_eq, Outcome.ok.injEq, Prod.exists] at h
    obtain ⟨a, b, o, ⟨s0a, m1, g0, h1, s1a, m2, r1, g1, h2, s0b, r0, h3, h4⟩, h⟩ := h
    have t0' : idCount H0 + r.coins.hsh0.length < 2 ^ 30 := by rw [idCount_append, idCount_snoc] at t0; omega
    have t1' : idCount H1 + r.coins.hsh1.length < 2 ^ 30 := by rw [idCount_append, idCount_snoc] at t1; omega
    obtain ⟨_, k1, k2, k3, k4, k5⟩ := round_sizes hh hI (w0 r (by simp)) (w1 r (by simp)) t0' t1' h1 h2
    simp only [delRecvII, Outcome.bind_eq_ok, Outcome.pure_eq, Outcome.ok.injEq, Prod.mk.injEq] at h3
    obtain ⟨oo, ho, ys, _, rfl, rfl⟩ := h3
    simp only [Prod.mk.injEq] at h4
    obtain ⟨rfl, rfl, _⟩ := h4
    rw [k4] at ho
    exact ih _ _ _ s' ⟨k1, k2, shaped_step hI.other0 (w1 r (by simp)).2 t1' k5 ho, k3⟩ (fun q hq => w0 q (by simp [hq])) (fun q hq => w1 q (by simp [hq])) t0 t1 h

theorem sizes_of_rounds {mont : Int → Option Mont} {hashOf : Nat → List Bool} (hh : ∀ e, (hashOf e).length = 256) {k0 k1 : DKeys}
    {stash node : Nat} {rs : List Round} {r : Round} (hok : RoundsOK (rs ++ [r])) {s : DSt × DSt}
    (h : runRounds mont hashOf k0 k1 (DSt.init stash node, DSt.init stash node) rs = .ok s) {z : DelSizes}
    (hz : roundSizes mont hashOf k0 k1 s.1 s.2 r = .ok z) :
    z = delSizesSpec stash node (rids0 rs) (rids1 rs) r.coins.hsh0 r.coins.hsh1 (r.xs.map (fun x => hashOf x.1)) (r.ys.map (fun y => hashOf y.1)) := by
  have s0 := hok.size0
  have s1 := hok.size1
  have e0 : rids0 (rs ++ [r]) = rids0 rs ++ [r.coins.hsh0] := by simp [rids0]
  have e1 : rids1 (rs ++ [r]) = rids1 rs ++ [r.coins.hsh1] := by simp [rids1]
  rw [e0, idCount_snoc] at s0
  rw [e1, idCount_snoc] at s1
  have hI := runRounds_size hh rs [] [] _ s (DelSizeInv.init hashOf stash node) (fun q hq => hok.id0 q (by simp [hq])) (fun q hq => hok.id1 q (by simp [hq]))
    (by simp only [List.nil_append]; omega) (by simp only [List.nil_append]; omega) h
  simp only [List.nil_append] at hI
  simp only [roundSizes, Outcome.bind_eq_ok, Outcome.pure_eq, Outcome.ok.injEq] at hz
  obtain ⟨⟨s0a, m1, g0⟩, h1, ⟨s1a, m2, g1⟩, h2, rfl⟩ := hz
  exact (round_sizes hh hI (hok.id0 r (by simp)) (hok.id1 r (by simp)) s0 s1 h1 h2).1

/-- The one round of a day of the cardinality/sum protocol. -/
def delRound (d : DayDelIn) : Round := ⟨d.xs, d.ys, d.coins.round⟩

/-- **C65** (deletions: cardinality and sum) After any completed history the sizes of the next day's messages, including
the number of candidates of every single element, are given by a closed form in the identifiers sent so far and the
hashes of the elements updated on that day: whether an element is added or removed, its payload, the stored elements,
the number of matches, keys and coins have no influence. -/
theorem C65_sizes_deletion (ro : List UInt8 → Nat) (mont : Int → Option Mont) (hashOf : Nat → List Bool) (hh : ∀ e, (hashOf e).length = 256)
    (k0 k1 : DKeys) (stash node : Nat) (ds : List DayDelIn) (d : DayDelIn) (hok : RoundsOK ((ds ++ [d]).map delRound)) (s : StDel)
    (h : runDelDays ro mont hashOf k0 k1 stash node ds = .ok s) (z : DelSizes)
    (hz : roundSizes mont hashOf k0 k1 s.p0 s.p1 (delRound d) = .ok z) :
    z = delSizesSpec stash node (rids0 (ds.map delRound)) (rids1 (ds.map delRound)) d.coins.round.hsh0 d.coins.round.hsh1
      (d.xs.map (fun x => hashOf x.1)) (d.ys.map (fun y => hashOf y.1)) := by
  have key : ∀ (ds : List DayDelIn) (s s' : StDel),
      runDays (fun s (d : DayDelIn) => dayDel ro mont hashOf k0 k1 s d.xs d.ys d.coins) s ds = .ok s' →
      runRounds mont hashOf k0 k1 (s.p0, s.p1) (ds.map delRound) = .ok (s'.p0, s'.p1) := by
    intro ds
    induction ds with
    | nil => intro s s' h; simp only [runDays, Outcome.ok.injEq] at h; subst h; rfl
    | cons d ds ih =>
      intro s s' h
      simp only [runDays, dayDel, Outcome.bind_eq_ok, Outcome.pure_eq, Outcome.ok.injEq] at h
      obtain ⟨s1, ⟨⟨p0, p1, o⟩, hr, f1, _, f2, _, rfl⟩, h⟩ := h
      simp only [List.map_cons, runRounds, delRound, hr, Outcome.bind_ok]
      exact ih _ s' h
  rw [List.map_append, List.map_cons, List.map_nil] at hok
  exact sizes_of_rounds hh hok (key ds _ s h) hz

/-- The two rounds of a day of the intersection protocol: first the removals, then the additions. -/
def psiRound1 (d : DayPsiIn) : Round := ⟨deletionsOf d.xs, deletionsOf d.ys, d.coins.round1⟩
/-- The second round of a day. -/
def psiRound2 (d : DayPsiIn) : Round := ⟨additionsOf d.xs, additionsOf d.ys, d.coins.round2⟩
/-- All rounds of a history. -/
def psiRounds (ds : List DayPsiIn) : List Round := ds.flatMap (fun d => [psiRound1 d, psiRound2 d])

/-- **C65** (deletions: intersection) The same for both rounds of the next day.  (The number of removals and the number
of additions of a day are visible separately.) -/
theorem C65_sizes_deletion_intersection (ro : List UInt8 → Nat) (mont : Int → Option Mont) (hashOf : Nat → List Bool)
    (hh : ∀ e, (hashOf e).length = 256) (k0 k1 : DKeys) (stash node : Nat) (ds : List DayPsiIn) (d : DayPsiIn)
    (hok : RoundsOK (psiRounds ds ++ [psiRound1 d, psiRound2 d])) (s : StDelPsi)
    (h : runDelPsi ro mont hashOf k0 k1 stash node ds = .ok s) :
    (∀ z, roundSizes mont hashOf k0 k1 s.p0 s.p1 (psiRound1 d) = .ok z →
      z = delSizesSpec stash node (rids0 (psiRounds ds)) (rids1 (psiRounds ds)) d.coins.round1.hsh0 d.coins.round1.hsh1
        ((deletionsOf d.xs).map (fun x => hashOf x.1)) ((deletionsOf d.ys).map (fun y => hashOf y.1))) ∧
    (∀ a0 a1 o z, roundDel mont hashOf k0 k1 s.p0 s.p1 (deletionsOf d.xs) (deletionsOf d.ys) d.coins.round1 = .ok (a0, a1, o) →
      roundSizes mont hashOf k0 k1 a0 a1 (psiRound2 d) = .ok z →
      z = delSizesSpec stash node (rids0 (psiRounds ds) ++ [d.coins.round1.hsh0]) (rids1 (psiRounds ds) ++ [d.coins.round1.hsh1])
        d.coins.round2.hsh0 d.coins.round2.hsh1
        ((additionsOf d.xs).map (fun x => hashOf x.1)) ((additionsOf d.ys).map (fun y => hashOf y.1))) := by
  have key : ∀ (ds : List DayPsiIn) (s s' : StDelPsi),
      runDays (fun s (d : DayPsiIn) => dayDelPsi ro mont hashOf k0 k1 s d.xs d.ys d.coins) s ds = .ok s' →
      runRounds mont hashOf k0 k1 (s.p0, s.p1) (psiRounds ds) = .ok (s'.p0, s'.p1) := by
    intro ds
    induction ds with
    | nil => intro s s' h; simp only [runDays, Outcome.ok.injEq] at h; subst h; rfl
    | cons d ds ih =>
      intro s s' h
      simp only [runDays, dayDelPsi, Outcome.bind_eq_ok, Outcome.pure_eq, Outcome.ok.injEq] at h
      obtain ⟨s1, ⟨⟨p0, p1, o⟩, hr, ⟨q0, q1, o'⟩, hr', f1, _, f2, _, us, _, w, _, rfl⟩, h⟩ := h
      simp only [psiRounds, List.flatMap_cons, List.cons_append, List.nil_append, runRounds, psiRound1, psiRound2, hr, hr', Outcome.bind_ok]
      exact ih _ s' h
  have hrun := key ds _ s h
  refine ⟨fun z hz => ?_, fun a0 a1 o z hr hz => ?_⟩
  · refine sizes_of_rounds (rs := psiRounds ds) (r := psiRound1 d) hh ?_ hrun hz
    have s0 := hok.size0
    have s1 := hok.size1
    refine ⟨fun r hr => hok.id0 r ?_, fun r hr => hok.id1 r ?_, ?_, ?_⟩
    · simp only [List.mem_append, List.mem_cons, List.not_mem_nil, or_false] at hr ⊢; tauto
    · simp only [List.mem_append, List.mem_cons, List.not_mem_nil, or_false] at hr ⊢; tauto
    · simp only [rids0, idCount, List.map_append, List.map_cons, List.map_nil, List.sum_append, List.sum_cons, List.sum_nil] at s0 ⊢; omega
    · simp only [rids1, idCount, List.map_append, List.map_cons, List.map_nil, List.sum_append, List.sum_cons, List.sum_nil] at s1 ⊢; omega
  · have hr' : runRounds mont hashOf k0 k1 (s.p0, s.p1) [psiRound1 d] = .ok (a0, a1) := by
      simp only [runRounds, psiRound1, hr, Outcome.bind_ok]
    have := sizes_of_rounds (rs := psiRounds ds ++ [psiRound1 d]) (r := psiRound2 d) hh (by simpa using hok)
      (runRounds_append _ _ _ _ _ hrun hr') hz
    rw [this]
    simp only [rids0, rids1, List.map_append, List.map_cons, List.map_nil]
    rfl

end Upsi.View
