import Verif.Hide.OneCount
/-
Property theorems C80: what party one sends in the cardinality protocol hides its elements, but for the size of the
intersection, from a party zero that follows the protocol, under the decisional Diffie-Hellman assumption.
-/
namespace Upsi.Hide
open Upsi Upsi.ElGamal Upsi.Tree Upsi.Num Upsi.Proto Upsi.View Upsi.Tree.Props

variable {G : Type} [AddCommGroup G] [DecidableEq G]

/-! ### what appears in the statements -/

/-- The elements of a history are below `B` and its paddings between `B` and the group order (data_util.cc:24-31,
crypto_node.cc:105-116; see C36). -/
structure InRange (B q : Nat) (days : List (DayIn G Nat Unit)) : Prop where
  x : ∀ x ∈ allX days, x < B
  y : ∀ y ∈ allY days, y < B
  pads0 : ∀ d ∈ days, ∀ i j, B ≤ d.coins.pads0 i j ∧ d.coins.pads0 i j < q
  pads1 : ∀ d ∈ days, ∀ i j, B ≤ d.coins.pads1 i j ∧ d.coins.pads1 i j < q

/-- No tree of the history loses an element (C06). -/
def Keeps (hashOf : Nat → List Bool) (stash node : Nat) (days : List (DayIn G Nat Unit)) : Prop :=
  (∃ r, runBatches hashOf id (Tree.empty stash node) (days.map fun d => (d.xs, d.coins.hsh0)) = .ok r ∧ r.lost = []) ∧
  ∃ r, runBatches hashOf id (Tree.empty stash node) (days.map fun d => (d.ys, d.coins.hsh1)) = .ok r ∧ r.lost = []

/-- The size of the intersection (as a number of pairs of equal elements) after the first `m` days. -/
def commonAfter (days : List (DayIn G Nat Unit)) (m : Nat) : Nat := common (allX (days.take m)) (allY (days.take m))

/-! ### theorems -/

/-- **C80** Take two histories that start with empty trees in which party zero does the same, party one uses the same path
identifiers, as many entries are read each day (C65), and the intersection has the same size after each day.  Whatever test
party zero applies to party one's public key and to all it gets over all days, the probabilities that it says yes differ by no
more than the advantages of explicit distinguishers of Diffie-Hellman triples: for each history one per coin and one per mask party one draws. -/
theorem C80_cardinality (c : Codec G) {hashOf : Nat → List Bool} (hh : ∀ e, (hashOf e).length = 256) {g : G} {q : Nat} (hq : q.Prime)
    (hg : (q : Int) • g = 0) (sk0 : Int) (D : G → Transcript → Bool) {stash node : Nat} {days days' : List (DayIn G Nat Unit)}
    (hs : List.Forall₂ SameZero days days') (hf : FitsBoth days) (hf' : FitsBoth days') {B : Nat} (hB : B ≤ q) (hr : InRange B q days)
    (hr' : InRange B q days') (hk : Keeps hashOf stash node days) (hk' : Keeps hashOf stash node days')
    (hn : ∀ m, m < days.length → candsOf stash node hashOf days m = candsOf stash node hashOf days' m)
    (hc : ∀ m, m ≤ days.length → commonAfter days m = commonAfter days' m) :
    |accepts0 c hashOf g q sk0 D stash node days (placesOne stash node (ids1 days)) (candsOf stash node hashOf days) days.length -
      accepts0 c hashOf g q sk0 D stash node days' (placesOne stash node (ids1 days)) (candsOf stash node hashOf days) days.length| ≤
      hidingBound0 c hashOf g q sk0 D stash node days (placesOne stash node (ids1 days)) (placesOne_pos _ _ _) (candsOf stash node hashOf days) days.length +
      hidingBound0 c hashOf g q sk0 D stash node days' (placesOne stash node (ids1 days)) (placesOne_pos _ _ _) (candsOf stash node hashOf days) days.length := by
  refine hides0 hh hq hg sk0 D hs hf hf' (placesOne_pos _ _ _) (fun _ h => h) (fun _ _ => rfl) hn ?_
  intro m o o' ho ho'
  have hF := oneFacts hh stash node hf
  have hF' := oneFacts hh stash node hf'
  have hm : m < days.length := by rw [← hF.len]; exact (List.getElem?_eq_some_iff.1 ho).1
  have key := symRuns_count hh hB hF.runs (Holds.init hashOf B q stash node) hk
    (fun d hd => ⟨hf.id0 d hd, hf.id1 d hd, hr.pads0 d hd, hr.pads1 d hd⟩) hr.x hr.y hf.size0 hf.size1 m o ho
  have key' := symRuns_count hh hB hF'.runs (Holds.init hashOf B q stash node) hk'
    (fun d hd => ⟨hf'.id0 d hd, hf'.id1 d hd, hr'.pads0 d hd, hr'.pads1 d hd⟩) hr'.x hr'.y hf'.size0 hf'.size1 m o' ho'
  simp only [List.nil_append] at key key'
  have e1 := hc m hm.le
  have e2 := hc (m + 1) hm
  rw [commonAfter, commonAfter] at e1 e2
  omega

/-- The ciphertexts of messages II, from the coins and masks. -/
def ctReal {N : Nat → Nat} {D : Nat} (pk : PK G) (sk1 : Int) (outs : List SymOut) (coin mask : Slot → Int)
    (σ : (d : Fin D) → Equiv.Perm (Fin (N d))) : Slot → Ct G
  | .cand d k _ => partialDecrypt sk1 (exp (ctSym pk coin (symAt outs σ d k)) (mask (.cand d k 0)))
  | s => encrypt pk (coin s) (plainAt outs s)

/-- **C80** The places listed are the places used: no other coin or mask of party one has any influence on what party zero
sees. -/
theorem C80_places (c : Codec G) {hashOf : Nat → List Bool} (hh : ∀ e, (hashOf e).length = 256) (pk : PK G) (sk1 : Int) {stash node : Nat}
    {days : List (DayIn G Nat Unit)} (hf : FitsBoth days) (coin coin' mask mask' : Slot → Int)
    (σ : (d : Fin days.length) → Equiv.Perm (Fin (candsOf stash node hashOf days d)))
    (h : ∀ s ∈ placesOne stash node (ids1 days), coin s = coin' s)
    (hm : ∀ s ∈ placesMask (candsOf stash node hashOf days) days.length, mask s = mask' s) :
    view0 c hashOf pk sk1 [] (St0.init stash node) (St1.init stash node) (redrawOne coin mask σ 0 days) =
      view0 c hashOf pk sk1 [] (St0.init stash node) (St1.init stash node) (redrawOne coin' mask' σ 0 days) := by
  have hF := oneFacts hh stash node hf
  set outs := symRun hashOf 0 (SymSt.init stash node) days with houts
  have real : ∀ coin mask : Slot → Int, view0 c hashOf pk sk1 [] (St0.init stash node) (St1.init stash node) (redrawOne coin mask σ 0 days) =
      viewC c hashOf pk (sizesOf stash node (ids1 days)) (candsOf stash node hashOf days) (ctReal pk sk1 outs coin mask σ) 0 [] (St0.init stash node) days := by
    intro coin mask
    refine view0_eq hh σ hF.runs ?_ [] _ _ rfl rfl rfl rfl
    intro m o ho
    rw [Nat.zero_add]
    refine ⟨(hF.cands m o ho).symm, (hF.nodes m o ho).symm, fun i y hy => ?_, fun i j l a hl ha => ?_⟩
    · simp only [ctReal]
      rw [symAt_eq ho hy]
    · have hp : plainAt outs (.tree m i j 0) = a.2 := by
        simp only [plainAt, ho, Option.bind_some, hl, ha, Option.map_some, Option.getD_some]
      show encrypt pk (coin (.tree m i j 0)) (plainAt outs (.tree m i j 0)) = _
      rw [hp]
  rw [real, real]
  have hget : ∀ m, m < days.length → ∃ o, outs[m]? = some o := fun m hlt => ⟨_, List.getElem?_eq_getElem (by rw [hF.len]; exact hlt)⟩
  refine viewC_congr days 0 [] _ ?_ ?_
  · intro m k hlt hk
    rw [Nat.zero_add] at hk ⊢
    obtain ⟨o, ho⟩ := hget m hlt
    have hlen : k < (shuffleOf σ m o.cands).length := by rw [shuffleOf_length, hF.cands m o ho]; exact hk
    have hy := List.getElem?_eq_getElem hlen
    simp only [ctReal]
    rw [symAt_eq ho hy, hm _ (mem_placesMask hlt hk), ctSym, ctSym,
      h _ (hF.base m o ho _ (shuffleOf_mem σ (List.getElem_mem hlen))).1]
  · intro m i j hlt hj
    rw [Nat.zero_add] at hj ⊢
    show encrypt pk (coin (.tree m i j 0)) _ = encrypt pk (coin' (.tree m i j 0)) _
    rw [h _ (mem_placesOne_tree (by simpa [ids1] using hlt) hj)]

/-- **C80** What party zero sees is what it gets in a run of the protocol: a run completes exactly if the conversation ends
without an error, and then there is one message II per day. -/
theorem C80_run (S : Setup G) (c : Codec G) (hashOf : Nat → List Bool) (stash node : Nat) (days : List (DayIn G Nat Unit)) :
    (∃ s, runCA S c hashOf stash node days = .ok s) ↔
      ∃ got, got.length = days.length ∧ view0 c hashOf S.pk S.sk1 [] (St0.init stash node) (St1.init stash node) days = (got, .ok ()) := by
  have key : ∀ (ds : List (DayIn G Nat Unit)) (s : StCA G) (got : List ProtoMsg),
      (∃ s', runDays (fun s (d : DayIn G Nat Unit) => dayCA c hashOf S.pk S.sk0 S.sk1 s d.xs d.ys d.coins) s ds = .ok s') ↔
      ∃ more, more.length = ds.length ∧ view0 c hashOf S.pk S.sk1 got s.p0 s.p1 ds = (got ++ more, .ok ()) := by
    intro ds
    induction ds with
    | nil => intro s got; exact ⟨fun _ => ⟨[], rfl, by simp [view0]⟩, fun _ => ⟨s, rfl⟩⟩
    | cons d ds ih =>
      intro s got
      rw [runDays, view0]
      cases h1 : genI (funcCA c) hashOf S.pk s.p0 d.xs d.coins with
      | err e => simp [after, dayCA, exchange, Bind.bind, Outcome.bind, h1]
      | abort => simp [after, dayCA, exchange, Bind.bind, Outcome.bind, h1]
      | ub => simp [after, dayCA, exchange, Bind.bind, Outcome.bind, h1]
      | ok r1 =>
        obtain ⟨s0', m1⟩ := r1
        cases h2 : genII (funcCA c) c hashOf S.pk S.sk1 s.p1 m1 d.ys d.coins with
        | err e => simp [after, dayCA, exchange, Bind.bind, Outcome.bind, h1, h2]
        | abort => simp [after, dayCA, exchange, Bind.bind, Outcome.bind, h1, h2]
        | ub => simp [after, dayCA, exchange, Bind.bind, Outcome.bind, h1, h2]
        | ok r2 =>
          obtain ⟨s1', m2⟩ := r2
          cases h3 : recvII (funcCA c) c s0' m2 with
          | err e => simp [after, dayCA, exchange, Bind.bind, Outcome.bind, h1, h2, h3]
          | abort => simp [after, dayCA, exchange, Bind.bind, Outcome.bind, h1, h2, h3]
          | ub => simp [after, dayCA, exchange, Bind.bind, Outcome.bind, h1, h2, h3]
          | ok r3 =>
            obtain ⟨s0'', cands⟩ := r3
            have hday : dayCA c hashOf S.pk S.sk0 S.sk1 s d.xs d.ys d.coins = .ok ⟨s0'', s1', countLoop S.sk0 cands s.cardinality⟩ := by
              simp [dayCA, exchange, Bind.bind, Outcome.bind, h1, h2, h3, Pure.pure]
            rw [hday, Outcome.bind_ok]
            have := ih ⟨s0'', s1', countLoop S.sk0 cands s.cardinality⟩ (got ++ [m2])
            rw [this]
            simp only [after, h2, h3]
            constructor
            · rintro ⟨more, hl, hv⟩
              exact ⟨m2 :: more, by simp [hl], by rw [hv]; simp⟩
            · rintro ⟨more, hl, hv⟩
              cases more with
              | nil => simp at hl
              | cons m more =>
                have hpre : ∀ (ds : List (DayIn G Nat Unit)) (g0 : List ProtoMsg) (a : St0 G Nat) (b : St1 (Ct G)),
                    g0 <+: (view0 c hashOf S.pk S.sk1 g0 a b ds).1 := by
                  intro ds
                  induction ds with
                  | nil => intro g0 a b; exact List.prefix_refl _
                  | cons d ds ih2 =>
                    intro g0 a b
                    rw [view0]
                    simp only [after]
                    split
                    · split
                      · split
                        · exact (List.prefix_append _ _).trans (ih2 _ _ _)
                        all_goals exact List.prefix_append _ _
                      all_goals exact List.prefix_refl _
                    all_goals exact List.prefix_refl _
                have hp := hpre ds (got ++ [m2]) s0'' s1'
                rw [hv] at hp
                have : m2 = m := by
                  have := (List.prefix_append_right_inj got).1 hp
                  simpa using this
                subst this
                exact ⟨more, by simpa using hl, by rw [hv]; simp⟩
  have := key days (StCA.init stash node) []
  simpa [runCA, StCA.init] using this

end Upsi.Hide
