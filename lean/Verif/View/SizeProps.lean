import Verif.View.Size
/- C65: the sizes of the messages of the addition-only protocols. -/
namespace Upsi.View
open Upsi Upsi.ElGamal Upsi.Tree Upsi.Tree.Props Upsi.Num Upsi.Proto

/-! ### specification -/

/-- What an observer sees of messages I and II of a day without decrypting anything: of each tree update the identifiers
and the number of ciphertexts per node, of the candidates their number. -/
structure Sizes where
  ids0 : List (List Bool)
  nodes0 : List Nat
  cands0 : Nat
  ids1 : List (List Bool)
  nodes1 : List Nat
  cands1 : Nat
  deriving DecidableEq, Repr

/-- The nodes of an update with identifiers `b` after updates with identifiers `H`: all nodes on the paths of `b`, in
decreasing order, each with its full capacity. -/
def updateSizes (stash node : Nat) (H : List (List (List Bool))) (b : List (List Bool)) : List Nat :=
  ((List.range (2 ^ (Nat.log2 (idCount (H ++ [b])) + 1))).reverse.filter
    (fun u => b.any (fun h => onPath (Nat.log2 (idCount (H ++ [b]))) h u))).map (fun u => if u = 0 then stash else node)

/-- The sizes of a day on which party zero adds elements with hashes `hx` and party one elements with hashes `hy`, where
`H0`, `H1` are the identifiers sent on earlier days and `b0`, `b1` those of this day. -/
def sizesSpec (stash node : Nat) (H0 H1 : List (List (List Bool))) (b0 b1 : List (List Bool)) (hx hy : List (List Bool)) : Sizes where
  ids0 := b0
  nodes0 := updateSizes stash node H0 b0
  cands0 := (hx.map (slots stash node H1)).sum
  ids1 := b1
  nodes1 := updateSizes stash node H1 b1
  cands1 := (hx.map (slots stash node H1)).sum + (hy.map (slots stash node (H0 ++ [b0]))).sum

/-! ### proofs -/

theorem updateAddrs_sizes (stash node : Nat) (H : List (List (List Bool))) (b : List (List Bool)) (hw : ∀ h ∈ b, h.length = 256)
    (hle : idCount (H ++ [b]) < 2 ^ 30) :
    (updateAddrs (Nat.log2 (idCount (H ++ [b]))) b).map (fun u => if u = 0 then stash else node) = updateSizes stash node H b := by
  have hd : ∀ y ∈ b, Nat.log2 (idCount (H ++ [b])) ≤ y.length := fun y hy => by rw [hw y hy]; have := log2_le hle; omega
  obtain ⟨s1, s2⟩ := updateAddrs_spec hd
  unfold updateSizes
  congr 1
  refine strict_ext s1 ?_ (fun v => ?_)
  · apply List.Pairwise.filter
    rw [List.pairwise_reverse]
    exact List.pairwise_lt_range
  · rw [s2, List.mem_filter, List.mem_reverse, List.mem_range, List.any_eq_true]
    constructor
    · rintro ⟨x, hx, ha⟩
      exact ⟨Nat.lt_of_le_of_lt ha.le (leafAddr_bounds (hd x hx)).2, x, hx, (onPath_iff (hd x hx) v).2 ha⟩
    · rintro ⟨_, x, hx, ha⟩
      exact ⟨x, hx, (onPath_iff (hd x hx) v).1 ha⟩

theorem forIdx_length {α β : Type} {f : Nat → α → Outcome β} {i : Nat} {l : List α} {bs : List β} (h : forIdx f i l = .ok bs) : bs.length = l.length :=
  (forIdx_forall₂ l i bs h).length_eq.symm

/-- The lengths of the groups of a loop that produces one group per element. -/
theorem forIdx_groups {α β : Type} {f : Nat → α → Outcome (List β)} {g : α → Nat} (l : List α)
    (hf : ∀ i, ∀ a ∈ l, ∀ b, f i a = .ok b → b.length = g a) : ∀ (i : Nat) (bs : List (List β)), forIdx f i l = .ok bs →
    bs.flatten.length = (l.map g).sum := by
  induction l with
  | nil => intro i bs h; simp only [forIdx, Outcome.ok.injEq] at h; subst h; rfl
  | cons a l ih =>
    intro i bs h
    simp only [forIdx, Outcome.bind_eq_ok, Outcome.pure_eq, Outcome.ok.injEq] at h
    obtain ⟨b, hb, bs', hbs, rfl⟩ := h
    rw [List.flatten_cons, List.length_append, hf i a (List.mem_cons_self ..) b hb,
      ih (fun i a ha => hf i a (List.mem_cons_of_mem _ ha)) (i + 1) bs' hbs, List.map_cons, List.sum_cons]

variable {G : Type} [AddCommGroup G] [DecidableEq G] {P γ κ : Type}

/-- Messages I and II of a day, as an observer sees them. -/
def daySizes (F : Func G P γ κ) (c : Codec G) (hashOf : Nat → List Bool) (pk : PK G) (sk1 : Int)
    (s0 : St0 G P) (s1 : St1 γ) (xs : List P) (ys : List Nat) (ρ : Coins G P κ) : Outcome Sizes := do
  let (_, m1) ← genI F hashOf pk s0 xs ρ
  let (_, m2) ← genII F c hashOf pk sk1 s1 m1 ys ρ
  pure ⟨m1.updates.hashes, m1.updates.nodes.map List.length, m1.candidates.length,
    m2.updates.hashes, m2.updates.nodes.map List.length, m2.candidates.length⟩

/-- The two parties after updates with identifiers `H0` and `H1`. -/
structure SizeInv (F : Func G P γ κ) (hashOf : Nat → List Bool) (stash node : Nat) (H0 H1 : List (List (List Bool)))
    (s0 : St0 G P) (s1 : St1 γ) : Prop where
  my0 : Sender (fun p => hashOf (F.key p)) stash node H0 s0.my
  my1 : Sender hashOf stash node H1 s1.my
  other0 : Shaped stash node H1 s0.other
  other1 : Shaped stash node H0 s1.other

theorem SizeInv.init (F : Func G P γ κ) (hashOf : Nat → List Bool) (stash node : Nat) :
    SizeInv F hashOf stash node [] [] (St0.init stash node) (St1.init stash node) :=
  ⟨sender_empty _ _ _, sender_empty _ _ _, shaped_empty _ _ _ _, shaped_empty _ _ _ _⟩

theorem day_sizes {F : Func G P γ κ} {c : Codec G} {hashOf : Nat → List Bool} (hh : ∀ e, (hashOf e).length = 256) {pk : PK G} {sk1 : Int}
    {stash node : Nat} {H0 H1 : List (List (List Bool))} {s0 s0' : St0 G P} {s1 s1' : St1 γ} (hI : SizeInv F hashOf stash node H0 H1 s0 s1)
    {xs : List P} {ys : List Nat} {ρ : Coins G P κ} (hb0 : Batch.WF (xs, ρ.hsh0)) (hb1 : Batch.WF (ys, ρ.hsh1))
    (hp : ∀ l, (ρ.shuffle l).Perm l)
    (t0 : idCount H0 + ρ.hsh0.length < 2 ^ 30) (t1 : idCount H1 + ρ.hsh1.length < 2 ^ 30) {m1 m2 : ProtoMsg}
    (h1 : genI F hashOf pk s0 xs ρ = .ok (s0', m1)) (h2 : genII F c hashOf pk sk1 s1 m1 ys ρ = .ok (s1', m2)) :
    Sizes.mk m1.updates.hashes (m1.updates.nodes.map List.length) m1.candidates.length
      m2.updates.hashes (m2.updates.nodes.map List.length) m2.candidates.length =
      sizesSpec stash node H0 H1 ρ.hsh0 ρ.hsh1 (xs.map (fun x => hashOf (F.key x))) (ys.map hashOf) ∧
    Sender (fun p => hashOf (F.key p)) stash node (H0 ++ [ρ.hsh0]) s0'.my ∧ Sender hashOf stash node (H1 ++ [ρ.hsh1]) s1'.my ∧
    Shaped stash node (H0 ++ [ρ.hsh0]) s1'.other ∧ s0'.other = s0.other ∧
    m2.updates.shape = (ρ.hsh1, (updateAddrs (Nat.log2 (idCount (H1 ++ [ρ.hsh1]))) ρ.hsh1).map (fun u => if u = 0 then stash else node)) := by
  simp only [genI, Outcome.bind_eq_ok, Outcome.pure_eq, Outcome.ok.injEq, Prod.mk.injEq] at h1
  obtain ⟨u0, hu0, cs, hcs, rfl, rfl⟩ := h1
  simp only [genII, Outcome.bind_eq_ok, Outcome.pure_eq, Outcome.ok.injEq, Prod.mk.injEq] at h2
  obtain ⟨other, ho, cands, hc, own, hown, out, hout, u1, hu1, rfl, rfl⟩ := h2
  obtain ⟨a1, a2⟩ := sender_step (fun e => hh (F.key e)) (PostOK.id _) hI.my0 hb0 t0 hu0
  obtain ⟨b1, b2⟩ := sender_step hh (PostOK.id _) hI.my1 hb1 t1 hu1
  have o1 := shaped_step hI.other1 hb0.2 t0 a2 ho
  refine ⟨?_, a1, b1, o1, rfl, b2⟩
  obtain ⟨a3, a4⟩ := shape_lengths a2
  obtain ⟨b3, b4⟩ := shape_lengths b2
  have e1 : cs.flatten.length = (xs.map (fun x => slots stash node H1 (hashOf (F.key x)))).sum := by
    refine forIdx_groups xs (fun i a _ b hb => ?_) 0 cs hcs
    simp only [candI, Outcome.bind_eq_ok] at hb
    obtain ⟨path, hp, pay, _, hb⟩ := hb
    rw [forIdx_length hb, shaped_path hI.other0 (hh _) hp]
  have e2 : own.flatten.length = (ys.map (fun y => slots stash node (H0 ++ [ρ.hsh0]) (hashOf y))).sum := by
    refine forIdx_groups ys (fun i a _ b hb => ?_) 0 own hown
    simp only [candII, Outcome.bind_eq_ok, Outcome.pure_eq, Outcome.ok.injEq] at hb
    obtain ⟨path, hp, rfl⟩ := hb
    rw [List.length_map, shaped_path o1 (hh _) hp]
  have e3 : out.length = cs.flatten.length + own.flatten.length := by
    have := forIdx_length hout
    rw [List.length_mapIdx, (hp _).length_eq, List.length_append, forIdx_length hc] at this
    exact this
  rw [updateAddrs_sizes stash node H0 ρ.hsh0 hb0.2 (by rw [idCount_snoc]; exact t0)] at a4
  rw [updateAddrs_sizes stash node H1 ρ.hsh1 hb1.2 (by rw [idCount_snoc]; exact t1)] at b4
  simp only [sizesSpec, Sizes.mk.injEq, List.map_map, Function.comp_def]
  exact ⟨a3, a4, e1, b3, b4, by rw [e3, e1, e2]⟩

theorem exchange_size {F : Func G P γ κ} {c : Codec G} {hashOf : Nat → List Bool} (hh : ∀ e, (hashOf e).length = 256) {pk : PK G} {sk1 : Int}
    {stash node : Nat} {H0 H1 : List (List (List Bool))} {s0 s0' : St0 G P} {s1 s1' : St1 γ} (hI : SizeInv F hashOf stash node H0 H1 s0 s1)
    {xs : List P} {ys : List Nat} {ρ : Coins G P κ} (hb0 : Batch.WF (xs, ρ.hsh0)) (hb1 : Batch.WF (ys, ρ.hsh1))
    (hp : ∀ l, (ρ.shuffle l).Perm l)
    (t0 : idCount H0 + ρ.hsh0.length < 2 ^ 30) (t1 : idCount H1 + ρ.hsh1.length < 2 ^ 30) {cands : List (Ct G × κ)}
    (h : exchange F c hashOf pk sk1 s0 s1 xs ys ρ = .ok (s0', s1', cands)) :
    SizeInv F hashOf stash node (H0 ++ [ρ.hsh0]) (H1 ++ [ρ.hsh1]) s0' s1' := by
  simp only [exchange, Outcome.bind_eq_ok, Outcome.pure_eq, Outcome.ok.injEq, Prod.mk.injEq] at h
  obtain ⟨⟨s0a, m1⟩, h1, ⟨s1a, m2⟩, h2, ⟨s0b, cs⟩, h3, rfl, rfl, rfl⟩ := h
  obtain ⟨_, k1, k2, k3, k4, k5⟩ := day_sizes hh hI hb0 hb1 hp t0 t1 h1 h2
  simp only [recvII, Outcome.bind_eq_ok, Outcome.pure_eq, Outcome.ok.injEq, Prod.mk.injEq] at h3
  obtain ⟨o, ho, cc, _, rfl, rfl⟩ := h3
  rw [k4] at ho
  exact ⟨k1, k2, shaped_step hI.other0 hb1.2 t1 k5 ho, k3⟩

/-- The identifiers party zero sends in a history. -/
def ids0 (ds : List (DayIn G P κ)) : List (List (List Bool)) := ds.map (fun d => d.coins.hsh0)
/-- The identifiers party one sends in a history. -/
def ids1 (ds : List (DayIn G P κ)) : List (List (List Bool)) := ds.map (fun d => d.coins.hsh1)

/-- What C65 assumes of a history: one 256-bit identifier per element, fewer than `2^30` elements on each side, and the
shuffle is a permutation. -/
structure PublicOK (ds : List (DayIn G P κ)) : Prop where
  id0 : ∀ d ∈ ds, Batch.WF (d.xs, d.coins.hsh0)
  id1 : ∀ d ∈ ds, Batch.WF (d.ys, d.coins.hsh1)
  shuffle : ∀ d ∈ ds, ∀ l, (d.coins.shuffle l).Perm l
  size0 : (allX ds).length < 2 ^ 30
  size1 : (allY ds).length < 2 ^ 30

omit [AddCommGroup G] [DecidableEq G] in
theorem idCount_ids0 (ds : List (DayIn G P κ)) (h : ∀ d ∈ ds, Batch.WF (d.xs, d.coins.hsh0)) : idCount (ids0 ds) = (allX ds).length := by
  induction ds with
  | nil => rfl
  | cons d ds ih =>
    have h1 : d.coins.hsh0.length = d.xs.length := (h d (by simp)).1
    have := ih (fun e he => h e (by simp [he]))
    simp only [idCount, ids0, allX, List.map_cons, List.sum_cons, List.flatMap_cons, List.length_append] at this ⊢
    omega

omit [AddCommGroup G] [DecidableEq G] in
theorem idCount_ids1 (ds : List (DayIn G P κ)) (h : ∀ d ∈ ds, Batch.WF (d.ys, d.coins.hsh1)) : idCount (ids1 ds) = (allY ds).length := by
  induction ds with
  | nil => rfl
  | cons d ds ih =>
    have h1 : d.coins.hsh1.length = d.ys.length := (h d (by simp)).1
    have := ih (fun e he => h e (by simp [he]))
    simp only [idCount, ids1, allY, List.map_cons, List.sum_cons, List.flatMap_cons, List.length_append] at this ⊢
    omega

theorem idCount_append (H K : List (List (List Bool))) : idCount (H ++ K) = idCount H + idCount K := by simp [idCount]

/-- The invariant over histories, for any protocol whose day is built on the exchange of messages I and II. -/
theorem runDays_size {F : Func G P γ κ} {c : Codec G} {hashOf : Nat → List Bool} (hh : ∀ e, (hashOf e).length = 256) {pk : PK G} {sk1 : Int}
    {stash node : Nat} {σ : Type} {step : σ → DayIn G P κ → Outcome σ} (p0 : σ → St0 G P) (p1 : σ → St1 γ)
    (hstep : ∀ s d s', step s d = .ok s' → ∃ cands,
      exchange F c hashOf pk sk1 (p0 s) (p1 s) d.xs d.ys d.coins = .ok (p0 s', p1 s', cands)) (ds : List (DayIn G P κ)) :
    ∀ (H0 H1 : List (List (List Bool))) (s s' : σ), SizeInv F hashOf stash node H0 H1 (p0 s) (p1 s) →
    (∀ d ∈ ds, Batch.WF (d.xs, d.coins.hsh0)) → (∀ d ∈ ds, Batch.WF (d.ys, d.coins.hsh1)) → (∀ d ∈ ds, ∀ l, (d.coins.shuffle l).Perm l) →
    idCount (H0 ++ ids0 ds) < 2 ^ 30 → idCount (H1 ++ ids1 ds) < 2 ^ 30 → runDays step s ds = .ok s' →
    SizeInv F hashOf stash node (H0 ++ ids0 ds) (H1 ++ ids1 ds) (p0 s') (p1 s') := by
  induction ds with
  | nil =>
    intro H0 H1 s s' hI _ _ _ _ _ h
    simp only [runDays, Outcome.ok.injEq] at h
    subst h
    simpa [ids0, ids1] using hI
  | cons d ds ih =>
    intro H0 H1 s s' hI w0 w1 wp t0 t1 h
    simp only [runDays, Outcome.bind_eq_ok] at h
    obtain ⟨s1, hs1, h⟩ := h
    obtain ⟨cands, he⟩ := hstep s d s1 hs1
    have e0 : H0 ++ ids0 (d :: ds) = (H0 ++ [d.coins.hsh0]) ++ ids0 ds := by simp [ids0]
    have e1 : H1 ++ ids1 (d :: ds) = (H1 ++ [d.coins.hsh1]) ++ ids1 ds := by simp [ids1]
    rw [e0] at t0 ⊢
    rw [e1] at t1 ⊢
    have k := exchange_size hh hI (w0 d (by simp)) (w1 d (by simp)) (wp d (by simp))
      (by rw [idCount_append, idCount_snoc] at t0; omega) (by rw [idCount_append, idCount_snoc] at t1; omega) he
    exact ih _ _ s1 s' k (fun e he => w0 e (by simp [he])) (fun e he => w1 e (by simp [he])) (fun e he => wp e (by simp [he])) t0 t1 h

/-- The common form of C65. -/
theorem sizes_of_run {F : Func G P γ κ} {c : Codec G} {hashOf : Nat → List Bool} (hh : ∀ e, (hashOf e).length = 256) {pk : PK G} {sk1 : Int}
    {stash node : Nat} {σ : Type} {step : σ → DayIn G P κ → Outcome σ} (p0 : σ → St0 G P) (p1 : σ → St1 γ)
    (hstep : ∀ s d s', step s d = .ok s' → ∃ cands,
      exchange F c hashOf pk sk1 (p0 s) (p1 s) d.xs d.ys d.coins = .ok (p0 s', p1 s', cands))
    {init s : σ} (i0 : p0 init = St0.init stash node) (i1 : p1 init = St1.init stash node)
    {ds : List (DayIn G P κ)} {d : DayIn G P κ} (hok : PublicOK (ds ++ [d])) (h : runDays step init ds = .ok s) {z : Sizes}
    (hz : daySizes F c hashOf pk sk1 (p0 s) (p1 s) d.xs d.ys d.coins = .ok z) :
    z = sizesSpec stash node (ids0 ds) (ids1 ds) d.coins.hsh0 d.coins.hsh1 (d.xs.map (fun x => hashOf (F.key x))) (d.ys.map hashOf) := by
  have c0 := idCount_ids0 _ hok.id0
  have c1 := idCount_ids1 _ hok.id1
  have s0 := hok.size0
  have s1 := hok.size1
  rw [← c0] at s0
  rw [← c1] at s1
  have e0 : ids0 (ds ++ [d]) = ids0 ds ++ [d.coins.hsh0] := by simp [ids0]
  have e1 : ids1 (ds ++ [d]) = ids1 ds ++ [d.coins.hsh1] := by simp [ids1]
  rw [e0, idCount_snoc] at s0
  rw [e1, idCount_snoc] at s1
  have hI := runDays_size hh p0 p1 hstep ds [] [] init s (by rw [i0, i1]; exact SizeInv.init F hashOf stash node)
    (fun e he => hok.id0 e (by simp [he])) (fun e he => hok.id1 e (by simp [he])) (fun e he => hok.shuffle e (by simp [he]))
    (by simp only [List.nil_append]; omega) (by simp only [List.nil_append]; omega) h
  simp only [List.nil_append] at hI
  simp only [daySizes, Outcome.bind_eq_ok, Outcome.pure_eq, Outcome.ok.injEq] at hz
  obtain ⟨⟨s0a, m1⟩, h1, ⟨s1a, m2⟩, h2, rfl⟩ := hz
  exact (day_sizes hh hI (hok.id0 d (by simp)) (hok.id1 d (by simp)) (hok.shuffle d (by simp)) s0 s1 h1 h2).1


/-- **C65** (cardinality) After any completed history, the sizes of the messages of the next day are given by a closed
form in the identifiers sent so far and the hashes of the elements added on that day: the stored elements, their
number of matches, the paddings, keys and coins have no influence. -/
theorem C65_sizes_cardinality (S : Setup G) (c : Codec G) (hashOf : Nat → List Bool) (hh : ∀ e, (hashOf e).length = 256) (stash node : Nat)
    (ds : List (DayIn G Nat Unit)) (d : DayIn G Nat Unit) (hok : PublicOK (ds ++ [d])) (s : StCA G)
    (h : runCA S c hashOf stash node ds = .ok s) (z : Sizes)
    (hz : daySizes (funcCA c) c hashOf S.pk S.sk1 s.p0 s.p1 d.xs d.ys d.coins = .ok z) :
    z = sizesSpec stash node (ids0 ds) (ids1 ds) d.coins.hsh0 d.coins.hsh1 (d.xs.map hashOf) (d.ys.map hashOf) :=
  sizes_of_run hh StCA.p0 StCA.p1 (fun s d s' h => by
    simp only [dayCA, Outcome.bind_eq_ok, Outcome.pure_eq, Outcome.ok.injEq] at h
    obtain ⟨⟨p0, p1, cands⟩, he, rfl⟩ := h
    exact ⟨cands, he⟩) rfl rfl hok h hz

/-- **C65** (intersection) -/
theorem C65_sizes_intersection (S : Setup G) (c cu : Codec G) (hashOf : Nat → List Bool) (hh : ∀ e, (hashOf e).length = 256) (stash node : Nat)
    (ds : List (DayIn G Nat (Ct G))) (d : DayIn G Nat (Ct G)) (hok : PublicOK (ds ++ [d])) (s : StPSI G)
    (h : runPSI S c cu hashOf stash node ds = .ok s) (z : Sizes)
    (hz : daySizes (funcPSI c cu) c hashOf S.pk S.sk1 s.p0 s.p1 d.xs d.ys d.coins = .ok z) :
    z = sizesSpec stash node (ids0 ds) (ids1 ds) d.coins.hsh0 d.coins.hsh1 (d.xs.map hashOf) (d.ys.map hashOf) :=
  sizes_of_run hh StPSI.p0 StPSI.p1 (fun s d s' h => by
    simp only [dayPSI, Outcome.bind_eq_ok, Outcome.pure_eq, Outcome.ok.injEq] at h
    obtain ⟨_, _, ⟨p0, p1, cands⟩, he, _, _, rfl⟩ := h
    exact ⟨cands, he⟩) rfl rfl hok h hz

/-- **C65** (sum) -/
theorem C65_sizes_sum (S : Setup G) (c : Codec G) (limit : Nat) (hashOf : Nat → List Bool) (hh : ∀ e, (hashOf e).length = 256)
    (stash node : Nat) (ds : List (DayIn G (Nat × Int) (Ct G))) (d : DayIn G (Nat × Int) (Ct G)) (hok : PublicOK (ds ++ [d])) (s : StSum G)
    (h : runSum S c limit hashOf stash node ds = .ok s) (z : Sizes)
    (hz : daySizes (funcSum c) c hashOf S.pk S.sk1 s.p0 s.p1 d.xs d.ys d.coins = .ok z) :
    z = sizesSpec stash node (ids0 ds) (ids1 ds) d.coins.hsh0 d.coins.hsh1 (d.xs.map (fun x => hashOf x.1)) (d.ys.map hashOf) :=
  sizes_of_run hh StSum.p0 StSum.p1 (fun s d s' h => by
    simp only [daySum, Outcome.bind_eq_ok, Outcome.pure_eq, Outcome.ok.injEq] at h
    obtain ⟨⟨p0, p1, cands⟩, he, m3, _, sum1, _, m4, _, sum2, _, big, _, v, _, rfl⟩ := h
    exact ⟨cands, he⟩) rfl rfl hok h hz

/-- **C65** (sharing) -/
theorem C65_sizes_sharing (S : Setup G) (c : Codec G) (mont : Int → Option Mont) (a b : TPaillier) (hashOf : Nat → List Bool)
    (hh : ∀ e, (hashOf e).length = 256) (stash node : Nat) (ds : List (DayIn G (Nat × Int) Int)) (d : DayIn G (Nat × Int) Int)
    (hok : PublicOK (ds ++ [d])) (s : StSS G) (h : runSS S c mont a b hashOf stash node ds = .ok s) (z : Sizes)
    (hz : daySizes (funcSS c mont a b) c hashOf S.pk S.sk1 s.p0 s.p1 (d.xs.map getPayloadSS) d.ys d.coins = .ok z) :
    z = sizesSpec stash node (ids0 ds) (ids1 ds) d.coins.hsh0 d.coins.hsh1 (d.xs.map (fun x => hashOf x.1)) (d.ys.map hashOf) := by
  have hl : PublicOK (ds.map DayIn.loaded ++ [d.loaded]) := by
    have hm : ds.map DayIn.loaded ++ [d.loaded] = (ds ++ [d]).map DayIn.loaded := by simp
    rw [hm]
    refine ⟨fun e he => ?_, fun e he => ?_, fun e he => ?_, ?_, ?_⟩
    · obtain ⟨e, he', rfl⟩ := List.mem_map.1 he
      have := hok.id0 e he'
      exact ⟨by simpa [DayIn.loaded] using this.1, this.2⟩
    · obtain ⟨e, he', rfl⟩ := List.mem_map.1 he
      exact hok.id1 e he'
    · obtain ⟨e, he', rfl⟩ := List.mem_map.1 he
      exact hok.shuffle e he'
    · have : (allX ((ds ++ [d]).map DayIn.loaded)).length = (allX (ds ++ [d])).length := by
        simp [allX, List.length_flatMap, DayIn.loaded, List.map_map, Function.comp_def]
      rw [this]; exact hok.size0
    · have : (allY ((ds ++ [d]).map DayIn.loaded)).length = (allY (ds ++ [d])).length := by
        simp [allY, List.length_flatMap, DayIn.loaded, List.map_map, Function.comp_def]
      rw [this]; exact hok.size1
  have h' : runDays (fun (s : StSS G) (d : DayIn G (Nat × Int) Int) => daySSBody c mont a b hashOf S.pk S.sk0 S.sk1 s d.xs d.ys d.coins)
      (StSS.init stash node) (ds.map DayIn.loaded) = .ok s := by
    rw [runDays_map]; exact h
  have := sizes_of_run (F := funcSS c mont a b) (c := c) (pk := S.pk) (sk1 := S.sk1) hh StSS.p0 StSS.p1 (fun s d s' h => by
    simp only [daySSBody, Outcome.bind_eq_ok, Outcome.pure_eq, Outcome.ok.injEq] at h
    obtain ⟨⟨p0, p1, cands⟩, he, ⟨sh0, pays⟩, hl, sh1, hr1, rfl⟩ := h
    exact ⟨cands, he⟩) rfl rfl hl h' (z := z) hz
  rw [this]
  simp only [ids0, ids1, DayIn.loaded, List.map_map, Function.comp_def]
  rfl

/-- **C65** (when sizes hide everything) If every node of the tree was part of some update, every element gives equally
many candidates: one per slot of a full path. -/
theorem C65_constant (stash node : Nat) (H : List (List (List Bool))) (hle : idCount H < 2 ^ 30)
    (hall : ∀ u, u < 2 ^ (Nat.log2 (idCount H) + 1) → touched H u = true) (h : List Bool) (hh : h.length = 256) :
    slots stash node H h = stash + (Nat.log2 (idCount H) + 1) * node := by
  have hd : Nat.log2 (idCount H) ≤ h.length := by rw [hh]; have := log2_le hle; omega
  have hb := leafAddr_bounds hd
  simp only [slots, levels, hall 0 (Nat.pow_pos (by omega)), if_true]
  rw [List.filter_eq_self.2 (fun k _ => hall _ (Nat.lt_of_le_of_lt (Nat.div_le_self _ _) hb.2)), List.length_range]

/-- **C65** (bounds) Once the peer sent something, every element gives at least a stash and a root, and at most a stash
and a full path, of candidates. -/
theorem C65_bounds (stash node : Nat) (H : List (List (List Bool))) (h : List Bool) (hh : h.length = 256) (hle : idCount H < 2 ^ 30)
    (hw : ∀ b ∈ H, ∀ x ∈ b, x.length = 256) (hne : idCount H ≠ 0) :
    stash + node ≤ slots stash node H h ∧ slots stash node H h ≤ stash + (Nat.log2 (idCount H) + 1) * node :=
  slots_bounds stash node H h hh hle hw hne

end Upsi.View
