import Verif.Hide.PsiFinal
import Verif.Hide.OneProps
/-
Property theorems C82: what party one sends in the intersection protocol hides its elements, but for the intersection, from
a party zero that follows the protocol, under the decisional Diffie-Hellman assumption.
-/
namespace Upsi.Hide
open Upsi Upsi.ElGamal Upsi.Tree Upsi.Num Upsi.Proto Upsi.View Upsi.Tree.Props

variable {G : Type} [AddCommGroup G] [DecidableEq G]

/-! ### what appears in the statement -/

/-- How many pairs of elements equal to `v` there are after the first `m` days: if neither party has an element twice, 1 if
`v` is in the intersection, and 0 otherwise. -/
def sharedAfter (v : Nat) (days : List (DayIn G Nat Unit)) (m : Nat) : Nat := (allX (days.take m)).count v * (allY (days.take m)).count v

/-! ### theorems -/

/-- **C82** Take two histories that start with empty trees in which party zero does the same, party one uses the same path
identifiers, as many entries are read each day (C65), and the intersection is the same after each day.  Whatever test
party zero applies to party one's public key and to all it gets over all days, the probabilities that it says yes differ by no
more than the advantages of explicit distinguishers of Diffie-Hellman triples (for each history one per coin and two per
candidate), and four times the number of candidates over the group order. -/
theorem C82_psi (c cu : Codec G) {hashOf : Nat → List Bool} (hh : ∀ e, (hashOf e).length = 256) {g : G} {q : Nat} (hq : q.Prime)
    (hg : (q : Int) • g = 0) (sk0 : Int) (D : G → Transcript → Bool) {stash node : Nat} {days days' : List (DayIn G Nat (Ct G))}
    (hs : List.Forall₂ (fun d d' => SameZero (cardDay d) (cardDay d')) days days')
    (hf : FitsBoth (days.map cardDay)) (hf' : FitsBoth (days'.map cardDay)) {B : Nat} (hB : B ≤ q) (hr : InRange B q (days.map cardDay))
    (hr' : InRange B q (days'.map cardDay)) (hk : Keeps hashOf stash node (days.map cardDay)) (hk' : Keeps hashOf stash node (days'.map cardDay))
    (hn : ∀ m, m < days.length → candsOf stash node hashOf (days.map cardDay) m = candsOf stash node hashOf (days'.map cardDay) m)
    (hc : ∀ m, m ≤ days.length → ∀ v, sharedAfter v (days.map cardDay) m = sharedAfter v (days'.map cardDay) m) :
    |acceptsPsi c cu hashOf g q sk0 D stash node days (placesOne stash node (ids1 (days.map cardDay))) (candsOf stash node hashOf (days.map cardDay)) days.length -
      acceptsPsi c cu hashOf g q sk0 D stash node days' (placesOne stash node (ids1 (days.map cardDay))) (candsOf stash node hashOf (days.map cardDay)) days.length| ≤
      hidingBoundPsi c cu hashOf g q sk0 D stash node days (placesOne stash node (ids1 (days.map cardDay))) (placesOne_pos _ _ _)
        (candsOf stash node hashOf (days.map cardDay)) days.length +
      hidingBoundPsi c cu hashOf g q sk0 D stash node days' (placesOne stash node (ids1 (days.map cardDay))) (placesOne_pos _ _ _)
        (candsOf stash node hashOf (days.map cardDay)) days.length +
      4 * ((placesMask (candsOf stash node hashOf (days.map cardDay)) days.length).length : ℚ) / q := by
  refine hidesPsi hh hq hg sk0 D hs hf hf' (placesOne_pos _ _ _) (fun _ h => h) (fun _ _ => rfl) hn ?_
  intro m l l' hl hl' v
  have hF := oneFacts hh stash node hf
  have hF' := oneFacts hh stash node hf'
  have hm : m < days.length := by
    have h1 := (List.getElem?_eq_some_iff.1 hl).1
    have h2 := congrArg List.length (fullRun_fst hF.runs)
    rw [List.length_map, List.length_map, hF.len, List.length_map] at h2
    omega
  have key := fullRun_count hh hB hF.runs (Holds.init hashOf B q stash node) hk
    (fun d hd => ⟨hf.id0 d hd, hf.id1 d hd, hr.pads0 d hd, hr.pads1 d hd⟩) hr.x hr.y hf.size0 hf.size1 m l hl v
  have key' := fullRun_count hh hB hF'.runs (Holds.init hashOf B q stash node) hk'
    (fun d hd => ⟨hf'.id0 d hd, hf'.id1 d hd, hr'.pads0 d hd, hr'.pads1 d hd⟩) hr'.x hr'.y hf'.size0 hf'.size1 m l' hl' v
  simp only [List.nil_append] at key key'
  have e : ∀ i, i ≤ days.length → pairsOf v (allX ((days.map cardDay).take i)) (allY ((days.map cardDay).take i)) =
      pairsOf v (allX ((days'.map cardDay).take i)) (allY ((days'.map cardDay).take i)) := by
    intro i hi
    cases v with
    | ofNat v =>
      have := hc i hi v
      rw [sharedAfter, sharedAfter, ← pairsOf_nat, ← pairsOf_nat] at this
      exact this
    | negSucc v =>
      have hno : ∀ X : List Nat, (X.map fun x : Nat => (x : Int)).count (Int.negSucc v) = 0 := by
        intro X
        refine List.count_eq_zero.2 fun h => ?_
        obtain ⟨x, -, hx⟩ := List.mem_map.1 h
        omega
      simp only [pairsOf, hno]
  have e1 := e m hm.le
  have e2 := e (m + 1) hm
  omega

/-- The ciphertexts of messages II, from the coins and masks. -/
def ctRealPsi {N : Nat → Nat} {D : Nat} (pk : PK G) (sk1 : Int) (outs : List SymOut) (fulls : List (List (Sym × Int × Int))) (coin mask : Slot → Int)
    (σ : (d : Fin D) → Equiv.Perm (Fin (N d))) : Slot → Ct G
  | .cand d k 0 => partialDecrypt sk1 (exp (ctSym pk coin (symAt outs σ d k)) (mask (.cand d k 0)))
  | .cand d k _ => partialDecrypt sk1 (mul (encrypt pk (payAt fulls σ d k).1 (payAt fulls σ d k).2)
      (exp (exp (ctSym pk coin (symAt outs σ d k)) (mask (.cand d k 0))) (mask (.cand d k 1))))
  | s => encrypt pk (coin s) (plainAt outs s)

/-- **C82** The places listed are the places used: no other coin of party one, and no other mask than two for each
candidate, has any influence on what party zero sees. -/
theorem C82_places (c cu : Codec G) {hashOf : Nat → List Bool} (hh : ∀ e, (hashOf e).length = 256) (pk : PK G) (sk0 sk1 : Int) {stash node : Nat}
    {days : List (DayIn G Nat (Ct G))} (hf : FitsBoth (days.map cardDay)) (coin coin' mask mask' : Slot → Int)
    (σ : (d : Fin days.length) → Equiv.Perm (Fin (candsOf stash node hashOf (days.map cardDay) d)))
    (h : ∀ s ∈ placesOne stash node (ids1 (days.map cardDay)), coin s = coin' s)
    (hm : ∀ m k : Nat, m < days.length → k < candsOf stash node hashOf (days.map cardDay) m →
      mask (.cand m k 0) = mask' (.cand m k 0) ∧ mask (.cand m k 1) = mask' (.cand m k 1)) :
    viewPsi c cu hashOf pk sk0 sk1 [] (St0.init stash node) [] [] (St1.init stash node) (redrawPsi coin mask σ 0 days) =
      viewPsi c cu hashOf pk sk0 sk1 [] (St0.init stash node) [] [] (St1.init stash node) (redrawPsi coin' mask' σ 0 days) := by
  have hF := oneFacts hh stash node hf
  have hfst := fullRun_fst hF.runs
  set outs := symRun hashOf 0 (SymSt.init stash node) (days.map cardDay) with houts
  set fulls := fullRun hashOf 0 (SymSt.init stash node) (days.map cardDay) with hfulls
  have real : ∀ coin mask : Slot → Int, viewPsi c cu hashOf pk sk0 sk1 [] (St0.init stash node) [] [] (St1.init stash node) (redrawPsi coin mask σ 0 days) =
      viewGiven c cu hashOf pk sk0 (sizesOf stash node (ids1 (days.map cardDay))) (candsOf stash node hashOf (days.map cardDay))
        (ctRealPsi pk sk1 outs fulls coin mask σ) 0 [] (St0.init stash node) [] [] days := by
    intro coin mask
    refine viewPsi_eq hh σ hF.runs days rfl ?_ [] _ _ _ _ rfl rfl rfl rfl
    intro m o l ho hl
    rw [Nat.zero_add]
    refine ⟨(hF.cands m o ho).symm, (hF.nodes m o ho).symm, fun i y hy => ?_, fun i j l a hl ha => ?_⟩
    · simp only [ctRealPsi]
      rw [symAt_full hfst hl hy, payAt_eq (fulls := fulls) hl hy]
      exact ⟨rfl, rfl⟩
    · have hp : plainAt outs (.tree m i j 0) = a.2 := by
        simp only [plainAt, ho, Option.bind_some, hl, ha, Option.map_some, Option.getD_some]
      show encrypt pk (coin (.tree m i j 0)) (plainAt outs (.tree m i j 0)) = _
      rw [hp]
  rw [real, real]
  have hget : ∀ m, m < days.length → ∃ o, outs[m]? = some o := fun m hlt => ⟨_, List.getElem?_eq_getElem (by rw [hF.len, List.length_map]; exact hlt)⟩
  refine viewGiven_congr days 0 [] _ _ _ ?_ ?_
  · intro m k hlt hk
    rw [Nat.zero_add] at hk ⊢
    obtain ⟨o, ho⟩ := hget m hlt
    have hlen : k < (shuffleOf σ m o.cands).length := by rw [shuffleOf_length, hF.cands m o ho]; exact hk
    have hy := List.getElem?_eq_getElem hlen
    have hsym : ctSym pk coin (symAt outs σ m k) = ctSym pk coin' (symAt outs σ m k) := by
      rw [symAt_eq ho hy, ctSym, ctSym, h _ (hF.base m o ho _ (shuffleOf_mem σ (List.getElem_mem hlen))).1]
    simp only [ctRealPsi]
    rw [hsym, (hm m k hlt hk).1, (hm m k hlt hk).2]
    exact ⟨rfl, rfl⟩
  · intro m i j hlt hj
    rw [Nat.zero_add] at hj ⊢
    show encrypt pk (coin (.tree m i j 0)) _ = encrypt pk (coin' (.tree m i j 0)) _
    rw [h _ (mem_placesOne_tree (by simpa [ids1] using hlt) hj)]

/-- **C82** What party zero sees is what it gets in a run of the protocol: a run completes exactly if the conversation ends
without an error, and then there is one message II per day. -/
theorem C82_run (S : Setup G) (c cu : Codec G) (hashOf : Nat → List Bool) (stash node : Nat) (days : List (DayIn G Nat (Ct G))) :
    (∃ s, runPSI S c cu hashOf stash node days = .ok s) ↔
      ∃ got, got.length = days.length ∧ viewPsi c cu hashOf S.pk S.sk0 S.sk1 [] (St0.init stash node) [] [] (St1.init stash node) days = (got, .ok ()) := by
  have key : ∀ (ds : List (DayIn G Nat (Ct G))) (s : StPSI G) (got : List ProtoMsg),
      (∃ s', runDays (fun s (d : DayIn G Nat (Ct G)) => dayPSI c cu hashOf S.pk S.sk0 S.sk1 s d.xs d.ys d.coins) s ds = .ok s') ↔
      ∃ more, more.length = ds.length ∧ viewPsi c cu hashOf S.pk S.sk0 S.sk1 got s.p0 s.mapping s.intersection s.p1 ds = (got ++ more, .ok ()) := by
    intro ds
    induction ds with
    | nil => intro s got; exact ⟨fun _ => ⟨[], rfl, by simp [viewPsi]⟩, fun _ => ⟨s, rfl⟩⟩
    | cons d ds ih =>
      intro s got
      rw [runDays, viewPsi]
      cases h0 : recordAll cu S.pk d.xs s.mapping with
      | err e => simp [after, dayPSI, Bind.bind, Outcome.bind, h0]
      | abort => simp [after, dayPSI, Bind.bind, Outcome.bind, h0]
      | ub => simp [after, dayPSI, Bind.bind, Outcome.bind, h0]
      | ok mp =>
      cases h1 : genI (funcPSI c cu) hashOf S.pk s.p0 d.xs d.coins with
      | err e => simp [after, dayPSI, exchange, Bind.bind, Outcome.bind, h0, h1]
      | abort => simp [after, dayPSI, exchange, Bind.bind, Outcome.bind, h0, h1]
      | ub => simp [after, dayPSI, exchange, Bind.bind, Outcome.bind, h0, h1]
      | ok r1 =>
        obtain ⟨s0', m1⟩ := r1
        cases h2 : genII (funcPSI c cu) c hashOf S.pk S.sk1 s.p1 m1 d.ys d.coins with
        | err e => simp [after, dayPSI, exchange, Bind.bind, Outcome.bind, h0, h1, h2]
        | abort => simp [after, dayPSI, exchange, Bind.bind, Outcome.bind, h0, h1, h2]
        | ub => simp [after, dayPSI, exchange, Bind.bind, Outcome.bind, h0, h1, h2]
        | ok r2 =>
          obtain ⟨s1', m2⟩ := r2
          cases h3 : recvII (funcPSI c cu) c s0' m2 with
          | err e => simp [after, dayPSI, exchange, Bind.bind, Outcome.bind, h0, h1, h2, h3]
          | abort => simp [after, dayPSI, exchange, Bind.bind, Outcome.bind, h0, h1, h2, h3]
          | ub => simp [after, dayPSI, exchange, Bind.bind, Outcome.bind, h0, h1, h2, h3]
          | ok r3 =>
            obtain ⟨s0'', cands⟩ := r3
            cases h4 : psiLoop cu S.sk0 mp cands s.intersection with
            | err e => simp [after, dayPSI, exchange, Bind.bind, Outcome.bind, Pure.pure, h0, h1, h2, h3, h4]
            | abort => simp [after, dayPSI, exchange, Bind.bind, Outcome.bind, Pure.pure, h0, h1, h2, h3, h4]
            | ub => simp [after, dayPSI, exchange, Bind.bind, Outcome.bind, Pure.pure, h0, h1, h2, h3, h4]
            | ok out =>
            have hday : dayPSI c cu hashOf S.pk S.sk0 S.sk1 s d.xs d.ys d.coins = .ok ⟨s0'', s1', mp, out⟩ := by
              simp [dayPSI, exchange, Bind.bind, Outcome.bind, h0, h1, h2, h3, h4, Pure.pure]
            rw [hday, Outcome.bind_ok]
            have := ih ⟨s0'', s1', mp, out⟩ (got ++ [m2])
            rw [this]
            simp only [after, h2, h3, h4]
            constructor
            · rintro ⟨more, hl, hv⟩
              exact ⟨m2 :: more, by simp [hl], by rw [hv]; simp⟩
            · rintro ⟨more, hl, hv⟩
              cases more with
              | nil => simp at hl
              | cons m more =>
                have hpre : ∀ (ds : List (DayIn G Nat (Ct G))) (g0 : List ProtoMsg) (a : St0 G Nat) (mp : Mapping) (res : List (Option Nat)) (b : St1 (Ct G)),
                    g0 <+: (viewPsi c cu hashOf S.pk S.sk0 S.sk1 g0 a mp res b ds).1 := by
                  intro ds
                  induction ds with
                  | nil => intro g0 a mp res b; exact List.prefix_refl _
                  | cons d ds ih2 =>
                    intro g0 a mp res b
                    rw [viewPsi]
                    simp only [after]
                    split
                    · split
                      · split
                        · split
                          · split
                            · exact (List.prefix_append _ _).trans (ih2 _ _ _ _ _)
                            all_goals exact List.prefix_append _ _
                          all_goals exact List.prefix_append _ _
                        all_goals exact List.prefix_refl _
                      all_goals exact List.prefix_refl _
                    all_goals exact List.prefix_refl _
                have hp := hpre ds (got ++ [m2]) s0'' mp out s1'
                rw [hv] at hp
                have : m2 = m := by
                  have := (List.prefix_append_right_inj got).1 hp
                  simpa using this
                subst this
                exact ⟨more, by simpa using hl, by rw [hv]; simp⟩
  have := key days (StPSI.init stash node) []
  simpa [runPSI, StPSI.init] using this

end Upsi.Hide
