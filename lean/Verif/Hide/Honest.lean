import Verif.Hide.Props
/-
C79 for a party one that follows the protocol, and the connection with the runs of the protocol.
-/
namespace Upsi.Hide
open Upsi Upsi.ElGamal Upsi.Tree Upsi.Num Upsi.Proto Upsi.View Upsi.Tree.Props

variable {G : Type} [AddCommGroup G] [DecidableEq G] {P γ κ : Type}

/-! ### specification -/

/-- Party one following the protocol (party_one.cc:46-73 with 121-412, `GenerateMessageII`) from state `s` over days with its
elements and coins: its answer to the last of the messages it got.  It stops when a step fails. -/
def answers (F : Func G P γ κ) (c : Codec G) (hashOf : Nat → List Bool) (pk : PK G) (sk1 : Int) :
    St1 γ → List (DayIn G P κ) → List ProtoMsg → Option ProtoMsg
  | s, d :: ds, m :: ms =>
    match genII F c hashOf pk sk1 s m d.ys d.coins with
    | .ok (s', r) => if ms = [] then some r else answers F c hashOf pk sk1 s' ds ms
    | _ => none
  | _, _, _ => none

/-- The messages I of a history in which both parties follow the protocol. -/
def sentI (F : Func G P γ κ) (c : Codec G) (hashOf : Nat → List Bool) (pk : PK G) (sk1 : Int) :
    St0 G P → St1 γ → List (DayIn G P κ) → Outcome (List ProtoMsg)
  | _, _, [] => .ok []
  | s0, s1, d :: ds => do
    let (s0', m1) ← genI F hashOf pk s0 d.xs d.coins
    let (s1', m2) ← genII F c hashOf pk sk1 s1 m1 d.ys d.coins
    let (s0'', _) ← recvII F c s0' m2
    let ms ← sentI F c hashOf pk sk1 s0'' s1' ds
    pure (m1 :: ms)

/-! ### proofs -/

variable {F : Func G P γ κ}

theorem talk_sent {c : Codec G} {hashOf : Nat → List Bool} {pk : PK G} {sk1 : Int} (A : List ProtoMsg → Option ProtoMsg) (days : List (DayIn G P κ)) :
    ∀ (sent ms : List ProtoMsg) (s0 : St0 G P) (s1 : St1 γ),
    (∀ ms, ms ≠ [] → A (sent ++ ms) = answers F c hashOf pk sk1 s1 days ms) → sentI F c hashOf pk sk1 s0 s1 days = .ok ms →
    talk F c hashOf pk A sent s0 days = (sent ++ ms, .ok ()) := by
  induction days with
  | nil =>
    intro sent ms s0 s1 _ h
    simp only [sentI, Outcome.ok.injEq] at h
    subst h
    simp [talk]
  | cons d ds ih =>
    intro sent ms s0 s1 hA h
    simp only [sentI, Outcome.bind_eq_ok, Outcome.pure_eq, Outcome.ok.injEq] at h
    obtain ⟨⟨s0', m1⟩, h1, ⟨s1', m2⟩, h2, ⟨s0'', cs⟩, h3, ms', h4, rfl⟩ := h
    simp only at h2 h3 h4
    have ha : A (sent ++ [m1]) = some m2 := by
      rw [hA [m1] (by simp), answers, h2]
      simp
    simp only [talk, h1, after, ha, h3]
    rw [ih (sent ++ [m1]) ms' s0'' s1' (fun ns hns => ?_) h4]
    · simp
    · rw [List.append_assoc, hA ([m1] ++ ns) (by simp), List.singleton_append, answers, h2]
      simp [hns]

/-- A strategy that sends, with the identifiers `bs` of the days, full nodes. -/
def FullNodes (A : List ProtoMsg → Option ProtoMsg) (stash node : Nat) (H bs : List (List (List Bool))) : Prop :=
  ∀ sent m r, A (sent ++ [m]) = some r → ∃ b, bs[sent.length]? = some b ∧
    r.updates.shape = (b, (updateAddrs (Nat.log2 (idCount (H ++ bs.take (sent.length + 1)))) b).map (fun u => if u = 0 then stash else node))

theorem take_snoc {α : Type} {l : List α} {n : Nat} {a : α} (h : l[n]? = some a) : l.take (n + 1) = l.take n ++ [a] := by
  obtain ⟨h1, rfl⟩ := List.getElem?_eq_some_iff.1 h
  exact (List.take_append_getElem h1).symm

theorem idCount_take_le (H bs : List (List (List Bool))) (n : Nat) : idCount (H ++ bs.take n) ≤ idCount (H ++ bs) := by
  have : idCount (H ++ bs) = idCount (H ++ bs.take n) + idCount (bs.drop n) := by
    rw [← idCount_append, List.append_assoc, List.take_append_drop]
  omega

theorem copyAfter_shaped {c : Codec G} {A : List ProtoMsg → Option ProtoMsg} {stash node : Nat} {H bs : List (List (List Bool))}
    (hA : FullNodes A stash node H bs) (hw : ∀ b ∈ bs, ∀ h ∈ b, h.length = 256) (htot : idCount (H ++ bs) < 2 ^ 30) (ms : List ProtoMsg) :
    ∀ (sent : List ProtoMsg) (o o' : Upsi.Tree.Tree (Ct G)), Shaped stash node (H ++ bs.take sent.length) o →
    copyAfter F c A sent o ms = some o' → Shaped stash node (H ++ bs.take (sent.length + ms.length)) o' := by
  induction ms with
  | nil =>
    intro sent o o' hs h
    simp only [copyAfter, Option.some.injEq] at h
    subst h
    exact hs
  | cons m ms ih =>
    intro sent o o' hs h
    rw [copyAfter] at h
    cases hr : A (sent ++ [m]) with
    | none => rw [hr] at h; simp at h
    | some r =>
      rw [hr] at h
      simp only at h
      cases hc : recvC F c o r with
      | ok o1 =>
        rw [hc] at h
        simp only at h
        obtain ⟨b, hb, hshape⟩ := hA sent m r hr
        simp only [recvC, Outcome.bind_eq_ok, Outcome.pure_eq, Outcome.ok.injEq] at hc
        obtain ⟨o2, hc, -, -, rfl⟩ := hc
        have ht := take_snoc hb
        have hle := idCount_take_le H bs (sent.length + 1)
        rw [ht, ← List.append_assoc] at hshape hle
        have hs1 := shaped_step hs (hw b (List.mem_of_getElem? hb)) (by rw [idCount_snoc] at hle; omega) hshape hc
        have := ih (sent ++ [m]) o2 o' (by
          rw [List.length_append, List.length_singleton, ht, ← List.append_assoc]; exact hs1) h
        rw [List.length_append, List.length_singleton] at this
        rw [List.length_cons, show sent.length + (ms.length + 1) = sent.length + 1 + ms.length by omega]
        exact this
      | err e => rw [hc] at h; simp at h
      | abort => rw [hc] at h; simp at h
      | ub => rw [hc] at h; simp at h

theorem Shaped.whole {α : Type} {stash node : Nat} {H : List (List (List Bool))} {o : Upsi.Tree.Tree α} (h : Shaped stash node H o) : Whole o :=
  ⟨h.count, by rw [h.depth]; exact log2_le h.le⟩

theorem shaped_len {α : Type} {stash node : Nat} {H : List (List (List Bool))} {o : Upsi.Tree.Tree α} (h : Shaped stash node H o)
    {b : List Bool} (hb : b.length = 256) : lenAt o b = slots stash node H b := by
  obtain ⟨p, hp, hl⟩ := (Shaped.whole h).path hb
  rw [← hl, shaped_path h hb hp]

theorem slots_le (stash node : Nat) {H : List (List (List Bool))} (hle : idCount H < 2 ^ 30) (h : List Bool) :
    slots stash node H h ≤ stash + 30 * node := by
  rw [slots]
  have h1 : levels H h ≤ 30 := by
    rw [levels]
    refine (List.length_filter_le _ _).trans ?_
    rw [List.length_range]
    have := log2_le hle
    omega
  have h2 := Nat.mul_le_mul_right node h1
  split <;> omega

theorem honest_full (c : Codec G) {hashOf : Nat → List Bool} (hh : ∀ e, (hashOf e).length = 256) (pk : PK G) (sk1 : Int) {stash node : Nat}
    (days : List (DayIn G P κ)) : ∀ (H : List (List (List Bool))) (s1 : St1 γ), Sender hashOf stash node H s1.my →
    (∀ d ∈ days, Batch.WF (d.ys, d.coins.hsh1)) → idCount (H ++ ids1 days) < 2 ^ 30 →
    FullNodes (answers F c hashOf pk sk1 s1 days) stash node H (ids1 days) := by
  induction days with
  | nil => intro H s1 _ _ _ sent m r h; cases sent <;> simp [answers] at h
  | cons d ds ih =>
    intro H s1 hs hw htot sent m r h
    have e1 : H ++ ids1 (d :: ds) = (H ++ [d.coins.hsh1]) ++ ids1 ds := by simp [ids1]
    rw [e1] at htot
    have htot1 : idCount H + d.coins.hsh1.length < 2 ^ 30 := by rw [idCount_append, idCount_snoc] at htot; omega
    cases sent with
    | nil =>
      rw [List.nil_append, answers] at h
      cases hg : genII F c hashOf pk sk1 s1 m d.ys d.coins with
      | ok x =>
        obtain ⟨s1', r'⟩ := x
        rw [hg] at h
        simp only [if_true, Option.some.injEq] at h
        subst h
        simp only [genII, Outcome.bind_eq_ok, Outcome.pure_eq, Outcome.ok.injEq, Prod.mk.injEq] at hg
        obtain ⟨other, -, cands, -, own, -, out, -, u1, hu1, rfl, rfl⟩ := hg
        obtain ⟨-, b2⟩ := sender_step hh (PostOK.id _) hs (hw d (by simp)) htot1 hu1
        exact ⟨d.coins.hsh1, by simp [ids1], by simpa [ids1] using b2⟩
      | err e => rw [hg] at h; simp at h
      | abort => rw [hg] at h; simp at h
      | ub => rw [hg] at h; simp at h
    | cons m0 sent =>
      rw [List.cons_append, answers] at h
      cases hg : genII F c hashOf pk sk1 s1 m0 d.ys d.coins with
      | ok x =>
        obtain ⟨s1', r'⟩ := x
        rw [hg] at h
        simp only [List.append_eq_nil_iff, List.cons_ne_nil, and_false, if_false] at h
        simp only [genII, Outcome.bind_eq_ok, Outcome.pure_eq, Outcome.ok.injEq, Prod.mk.injEq] at hg
        obtain ⟨other, -, cands, -, own, -, out, -, u1, hu1, rfl, rfl⟩ := hg
        obtain ⟨b1, -⟩ := sender_step hh (PostOK.id _) hs (hw d (by simp)) htot1 hu1
        obtain ⟨b, k1, k2⟩ := ih (H ++ [d.coins.hsh1]) _ b1 (fun e he => hw e (by simp [he])) htot sent m r h
        refine ⟨b, by simpa [ids1] using k1, ?_⟩
        rw [k2]
        simp [ids1]
      | err e => rw [hg] at h; simp at h
      | abort => rw [hg] at h; simp at h
      | ub => rw [hg] at h; simp at h

/-! ### theorems -/

/-- **C79** What the conversation shows is what party zero sends in a run: if both parties follow the protocol and no step
fails, the conversation with party one's answers consists of the messages I of the run. -/
theorem C79_transcript (c : Codec G) (hashOf : Nat → List Bool) (pk : PK G) (sk1 : Int) (s0 : St0 G P) (s1 : St1 γ) (days : List (DayIn G P κ))
    (ms : List ProtoMsg) (h : sentI F c hashOf pk sk1 s0 s1 days = .ok ms) :
    talk F c hashOf pk (answers F c hashOf pk sk1 s1 days) [] s0 days = (ms, .ok ()) :=
  talk_sent _ days [] ms s0 s1 (fun _ _ => rfl) h

/-- **C79** Every completed run of the cardinality protocol has such messages. -/
theorem C79_run (S : Setup G) (c : Codec G) (hashOf : Nat → List Bool) (stash node : Nat) (days : List (DayIn G Nat Unit)) (s : StCA G)
    (h : runCA S c hashOf stash node days = .ok s) :
    ∃ ms, ms.length = days.length ∧
      talk (funcCA c) c hashOf S.pk (answers (funcCA c) c hashOf S.pk S.sk1 (St1.init stash node) days) [] (St0.init stash node) days = (ms, .ok ()) := by
  have key : ∀ (ds : List (DayIn G Nat Unit)) (a b : StCA G),
      runDays (fun s (d : DayIn G Nat Unit) => dayCA c hashOf S.pk S.sk0 S.sk1 s d.xs d.ys d.coins) a ds = .ok b →
      ∃ ms, ms.length = ds.length ∧ sentI (funcCA c) c hashOf S.pk S.sk1 a.p0 a.p1 ds = .ok ms := by
    intro ds
    induction ds with
    | nil => intro a b _; exact ⟨[], rfl, rfl⟩
    | cons d ds ih =>
      intro a b h
      simp only [runDays, Outcome.bind_eq_ok] at h
      obtain ⟨a', h1, h2⟩ := h
      simp only [dayCA, exchange, Outcome.bind_eq_ok, Outcome.pure_eq, Outcome.ok.injEq] at h1
      obtain ⟨⟨p0, p1, cands⟩, ⟨⟨s0', m1⟩, g1, ⟨s1', m2⟩, g2, ⟨s0'', cs⟩, g3, hx⟩, rfl⟩ := h1
      simp only [Prod.mk.injEq] at hx
      obtain ⟨rfl, rfl, rfl⟩ := hx
      obtain ⟨ms, hl, hms⟩ := ih _ b h2
      refine ⟨m1 :: ms, by simp [hl], ?_⟩
      simp only [sentI, g1, g2, g3, Outcome.bind_ok]
      simp only at hms
      rw [hms]
      rfl
  obtain ⟨ms, hl, hms⟩ := key days _ s h
  exact ⟨ms, hl, C79_transcript c hashOf S.pk S.sk1 _ _ days ms hms⟩

/-- **C79** (cardinality, honest party one) Party one, following the protocol with its own elements and coins and looking at
everything it gets, cannot tell two histories of party zero apart whose elements read the same numbers of entries (given
by C65's closed form in party one's own identifiers). -/
theorem C79_honest [Fintype G] (c : Codec G) {hashOf : Nat → List Bool} (hh : ∀ e, (hashOf e).length = 256) {g : G} {q : Nat}
    (hq : q.Prime) (hcard : Fintype.card G = q) (hg0 : g ≠ 0) (sk1 : Int) (D : G → Transcript → Bool) {s s' : St0 G Nat}
    (hs : Alike (funcCA c) hashOf s s') {days days' : List (DayIn G Nat Unit)}
    (hf : Fits days s.my.actualSize) (hf' : Fits days' s'.my.actualSize) (hids : idsOf days = idsOf days')
    {stash node : Nat} {H : List (List (List Bool))} (ho : Shaped stash node H s.other) (s1 : St1 (Ct G)) (h1 : Sender hashOf stash node H s1.my)
    (days1 : List (DayIn G Nat Unit)) (hw : ∀ d ∈ days1, Batch.WF (d.ys, d.coins.hsh1)) (htot : idCount (H ++ ids1 days1) < 2 ^ 30)
    (hleak : ∀ (n : Nat) d d', days[n]? = some d → days'[n]? = some d' →
      d.xs.map (fun x => slots stash node (H ++ (ids1 days1).take n) (hashOf x)) =
      d'.xs.map (fun x => slots stash node (H ++ (ids1 days1).take n) (hashOf x))) :
    |accepts (funcCA c) c hashOf g q sk1 (fun X => answers (funcCA c) c hashOf (joint g sk1 X) sk1 s1 days1) D s days
        (slotsOf 1 (stash + 30 * node) s (idsOf days)) -
      accepts (funcCA c) c hashOf g q sk1 (fun X => answers (funcCA c) c hashOf (joint g sk1 X) sk1 s1 days1) D s' days'
        (slotsOf 1 (stash + 30 * node) s (idsOf days))| ≤
      hidingBound (plainCA c g) c hashOf q sk1 (fun X => answers (funcCA c) c hashOf (joint g sk1 X) sk1 s1 days1) D s days
        (slotsOf 1 (stash + 30 * node) s (idsOf days)) +
      hidingBound (plainCA c g) c hashOf q sk1 (fun X => answers (funcCA c) c hashOf (joint g sk1 X) sk1 s1 days1) D s' days'
        (slotsOf 1 (stash + 30 * node) s (idsOf days)) := by
  refine C79_cardinality c hh hq hcard hg0 sk1 _ D hs hf hf' hids (fun X ms o hms d d' hd hd' => ?_)
  have hfull := honest_full (F := funcCA c) c hh (joint g sk1 X) sk1 days1 H s1 h1 hw htot
  have hbs : ∀ b ∈ ids1 days1, ∀ h ∈ b, h.length = 256 := by
    intro b hb
    obtain ⟨e, he, rfl⟩ := List.mem_map.1 hb
    exact (hw e he).2
  have hsh := copyAfter_shaped hfull hbs htot ms [] s.other o (by simpa using ho) hms
  rw [List.length_nil, Nat.zero_add] at hsh
  have hlen : ∀ x : Nat, lenAt o (hashOf x) = slots stash node (H ++ (ids1 days1).take ms.length) (hashOf x) := fun x => shaped_len hsh (hh x)
  constructor
  · have := hleak ms.length d d' hd hd'
    simpa only [funcCA, id, hlen] using this
  · intro p _
    show lenAt o (hashOf p) ≤ _
    rw [hlen]
    exact slots_le _ _ hsh.le _

end Upsi.Hide
