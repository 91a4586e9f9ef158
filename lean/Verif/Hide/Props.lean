import Verif.Hide.Main
import Verif.View.SizeProps
/-
Property theorems C79: what party zero sends hides its elements, under the decisional Diffie-Hellman assumption.
-/
namespace Upsi.Hide
open Upsi Upsi.ElGamal Upsi.Tree Upsi.Num Upsi.Proto Upsi.View Upsi.Tree.Props

variable {G : Type} [AddCommGroup G] [DecidableEq G] {P γ κ : Type}

/-! ### specification -/

/-- Two states of party zero that differ in the stored elements only: trees of the same sizes, the same copy of party one's
tree. -/
structure Alike (F : Func G P γ κ) (hashOf : Nat → List Bool) (s s' : St0 G P) : Prop where
  wf : TWF (fun p => hashOf (F.key p)) s.my
  wf' : TWF (fun p => hashOf (F.key p)) s'.my
  stash : s.my.stashSize = s'.my.stashSize
  node : s.my.nodeSize = s'.my.nodeSize
  depth : s.my.depth = s'.my.depth
  size : s.my.actualSize = s'.my.actualSize
  other : s.other = s'.other
  whole : Whole s.other

/-- The one thing about the elements that the protocol does not hide (C65): however the conversation goes, on each day the
numbers of entries on the paths of the elements of the two histories are the same, and at most `B`. -/
def SameLengths (F : Func G P γ κ) (c : Codec G) (hashOf : Nat → List Bool) (A : List ProtoMsg → Option ProtoMsg) (B : Nat)
    (other : Upsi.Tree.Tree (Ct G)) (days days' : List (DayIn G P κ)) : Prop :=
  ∀ ms o, copyAfter F c A [] other ms = some o → ∀ d d', days[ms.length]? = some d → days'[ms.length]? = some d' →
    d.xs.map (fun p => lenAt o (hashOf (F.key p))) = d'.xs.map (fun p => lenAt o (hashOf (F.key p))) ∧
    ∀ p ∈ d.xs, lenAt o (hashOf (F.key p)) ≤ B

/-- The sum of the advantages of the distinguishers of Diffie-Hellman triples that run the conversation once, with the
challenge in one of the `n` places, and of `n / q`. -/
def hidingBound {F : Func G P γ κ} {g : G} {T : Nat} (L : Plain F g T) (c : Codec G) (hashOf : Nat → List Bool) (q : Nat) (sk1 : Int)
    (A : G → List ProtoMsg → Option ProtoMsg) (D : G → Transcript → Bool) (s : St0 G P) (days : List (DayIn G P κ)) (U : List Slot) : ℚ :=
  ∑ k, ddhAdv g q (reduction g q sk1 (experiment L c hashOf sk1 A D s days U) k) + U.length / q

/-- The entries of the cardinality protocol: one ciphertext. -/
def plainCA (c : Codec G) (g : G) : Plain (funcCA c) g 1 where
  plain p k := if k = 0 then (p : Int) else 0
  entry ct := serNoPayload c (ct 0)
  pay _ := .ok ()
  good _ := True
  pos := by decide
  key _ := rfl
  enc _ _ _ _ := rfl
  payload _ _ _ _ _ := rfl
  entryT _ _ h := by rw [h 0 (by decide)]
  payT _ _ _ := rfl

/-- The entries of the intersection protocol: one ciphertext, which is also the payload; the element must not be a multiple
of the order. -/
def plainPSI (c cu : Codec G) (g : G) : Plain (funcPSI c cu) g 1 where
  plain p k := if k = 0 then (p : Int) else 0
  entry ct := serNoPayload c (ct 0)
  pay ct := .ok (ct 0)
  good p := (p : Int) • g ≠ 0
  pos := by decide
  key _ := rfl
  enc _ _ _ _ := rfl
  payload pk t p hpk hp := by
    show (pointToBytes cu ((p : Int) • pk.g) >>= fun _ => pure (encrypt pk (t 0) p)) = _
    rw [hpk, pointToBytes, if_neg hp]
    rfl
  entryT _ _ h := by rw [h 0 (by decide)]
  payT _ _ h := by rw [h 0 (by decide)]

/-- The entries of the sum protocol: two ciphertexts. -/
def plainSum (c : Codec G) (g : G) : Plain (funcSum c) g 2 where
  plain p k := if k = 0 then (p.1 : Int) else p.2
  entry ct := serElGamal c (ct 0) (ct 1)
  pay ct := .ok (ct 1)
  good _ := True
  pos := by decide
  key _ := rfl
  enc _ _ _ _ := rfl
  payload _ _ _ _ _ := rfl
  entryT _ _ h := by rw [h 0 (by decide), h 1 (by decide)]
  payT _ _ h := by rw [h 1 (by decide)]

/-! ### proofs -/

variable {F : Func G P γ κ} {g : G} {T : Nat}

/-- The common form of C79. -/
theorem hides_alike [Fintype G] (L : Plain F g T) (c : Codec G) {hashOf : Nat → List Bool} (hh : ∀ e, (hashOf e).length = 256) {q : Nat}
    (hq : q.Prime) (hcard : Fintype.card G = q) (hg0 : g ≠ 0) (sk1 : Int) (A : G → List ProtoMsg → Option ProtoMsg)
    (D : G → Transcript → Bool) {s s' : St0 G P} (hs : Alike F hashOf s s') {days days' : List (DayIn G P κ)}
    (hf : Fits days s.my.actualSize) (hf' : Fits days' s'.my.actualSize)
    (hgood : ∀ d ∈ days, ∀ p ∈ d.xs, L.good p) (hgood' : ∀ d ∈ days', ∀ p ∈ d.xs, L.good p)
    (hids : idsOf days = idsOf days') {B : Nat} (hleak : ∀ X, SameLengths F c hashOf (A X) B s.other days days') :
    |accepts F c hashOf g q sk1 A D s days (slotsOf T B s (idsOf days)) - accepts F c hashOf g q sk1 A D s' days' (slotsOf T B s (idsOf days))| ≤
      hidingBound L c hashOf q sk1 A D s days (slotsOf T B s (idsOf days)) +
      hidingBound L c hashOf q sk1 A D s' days' (slotsOf T B s (idsOf days)) := by
  -- the numbers of candidates, from the first history
  let len : G → List ProtoMsg → Nat → Nat := fun X ms i =>
    match copyAfter F c (A X) [] s.other ms, (hashes F hashOf days)[ms.length]? with
    | some o, some hs =>
      match hs[i]? with
      | some b => min B (lenAt o b)
      | none => 0
    | _, _ => 0
  have hB : ∀ X sent i, len X sent i ≤ B := by
    intro X sent i
    simp only [len]
    split
    · split
      · exact Nat.min_le_left ..
      · exact Nat.zero_le _
    · exact Nat.zero_le _
  have hday : ∀ n : Nat, (hashes F hashOf days)[n]? = (days[n]?).map (fun d : DayIn G P κ => d.xs.map (fun p => hashOf (F.key p))) := by
    intro n; rw [hashes, List.getElem?_map]
  have hday' : ∀ n : Nat, (hashes F hashOf days')[n]? = (days'[n]?).map (fun d : DayIn G P κ => d.xs.map (fun p => hashOf (F.key p))) := by
    intro n; rw [hashes, List.getElem?_map]
  have hlen : days.length = days'.length := by
    have := congrArg List.length hids
    simpa [idsOf] using this
  have hk : ∀ X, Known F c (A X) (len X) [] s.other (hashes F hashOf days) := by
    intro X ms o ho hs1 h1 i b hb
    rw [hday] at h1
    cases hd : days[ms.length]? with
    | none => rw [hd] at h1; simp at h1
    | some d =>
      rw [hd] at h1
      simp only [Option.map_some, Option.some.injEq] at h1
      subst h1
      have hb0 := hb
      rw [List.getElem?_map] at hb
      cases hp : d.xs[i]? with
      | none => rw [hp] at hb; simp at hb
      | some p =>
        rw [hp] at hb
        simp only [Option.map_some, Option.some.injEq] at hb
        subst hb
        refine ⟨hh _, ?_⟩
        have hlt : ms.length < days'.length := hlen ▸ (List.getElem?_eq_some_iff.1 hd).1
        have := (hleak X ms o ho d _ hd (List.getElem?_eq_getElem hlt)).2 p (List.mem_of_getElem? hp)
        simp only [List.nil_append, len, ho, hday, hd, Option.map_some, List.getElem?_map, hp]
        rw [Nat.min_eq_right this]
  have hk' : ∀ X, Known F c (A X) (len X) [] s.other (hashes F hashOf days') := by
    intro X ms o ho hs1 h1 i b hb
    rw [hday'] at h1
    cases hd' : days'[ms.length]? with
    | none => rw [hd'] at h1; simp at h1
    | some d' =>
      rw [hd'] at h1
      simp only [Option.map_some, Option.some.injEq] at h1
      subst h1
      rw [List.getElem?_map] at hb
      cases hp : d'.xs[i]? with
      | none => rw [hp] at hb; simp at hb
      | some p =>
        rw [hp] at hb
        simp only [Option.map_some, Option.some.injEq] at hb
        subst hb
        refine ⟨hh _, ?_⟩
        have hlt : ms.length < days.length := hlen ▸ (List.getElem?_eq_some_iff.1 hd').1
        have hd : days[ms.length]? = some days[ms.length] := List.getElem?_eq_getElem hlt
        obtain ⟨h1, h2⟩ := hleak X ms o ho _ _ hd hd'
        have h3 := congrArg (fun l => l[i]?) h1
        simp only [List.getElem?_map, hp, Option.map_some] at h3
        cases hq : days[ms.length].xs[i]? with
        | none => rw [hq] at h3; simp at h3
        | some p0 =>
          rw [hq] at h3
          simp only [Option.map_some, Option.some.injEq] at h3
          have h4 := h2 p0 (List.mem_of_getElem? hq)
          simp only [List.nil_append, len, ho, hday, hd, Option.map_some, List.getElem?_map, hq]
          rw [Nat.min_eq_right h4, h3]
  have key := hides L c hh hq hcard hg0 sk1 A D hs.wf hs.wf' hs.stash hs.node hs.depth hs.size hs.other hs.whole hf hf' hgood hgood'
    hids (U := slotsOf T B s (idsOf days)) (usedSlots_nodup T B _ 0) (fun sl => Iff.rfl) hB hk hk'
  refine key.trans (le_of_eq ?_)
  rw [hidingBound, hidingBound, Finset.sum_add_distrib]
  ring

/-! ### theorems -/

/-- **C79** (cardinality) Party one, following any strategy and looking at everything it gets over several days, says yes with
almost the same probability for any two histories with the same identifiers and the same numbers of candidates: the
difference is at most the advantages of distinguishers of Diffie-Hellman triples, each of which runs the conversation
once, plus `2 n / q`. -/
theorem C79_cardinality [Fintype G] (c : Codec G) {hashOf : Nat → List Bool} (hh : ∀ e, (hashOf e).length = 256) {g : G} {q : Nat}
    (hq : q.Prime) (hcard : Fintype.card G = q) (hg0 : g ≠ 0) (sk1 : Int) (A : G → List ProtoMsg → Option ProtoMsg)
    (D : G → Transcript → Bool) {s s' : St0 G Nat} (hs : Alike (funcCA c) hashOf s s') {days days' : List (DayIn G Nat Unit)}
    (hf : Fits days s.my.actualSize) (hf' : Fits days' s'.my.actualSize) (hids : idsOf days = idsOf days') {B : Nat}
    (hleak : ∀ X, SameLengths (funcCA c) c hashOf (A X) B s.other days days') :
    |accepts (funcCA c) c hashOf g q sk1 A D s days (slotsOf 1 B s (idsOf days)) -
      accepts (funcCA c) c hashOf g q sk1 A D s' days' (slotsOf 1 B s (idsOf days))| ≤
      hidingBound (plainCA c g) c hashOf q sk1 A D s days (slotsOf 1 B s (idsOf days)) +
      hidingBound (plainCA c g) c hashOf q sk1 A D s' days' (slotsOf 1 B s (idsOf days)) :=
  hides_alike (plainCA c g) c hh hq hcard hg0 sk1 A D hs hf hf' (fun _ _ _ _ => trivial) (fun _ _ _ _ => trivial) hids hleak

/-- **C79** (intersection) The same for the messages of the intersection protocol, for elements that are no multiples of the
order. -/
theorem C79_intersection [Fintype G] (c cu : Codec G) {hashOf : Nat → List Bool} (hh : ∀ e, (hashOf e).length = 256) {g : G} {q : Nat}
    (hq : q.Prime) (hcard : Fintype.card G = q) (hg0 : g ≠ 0) (sk1 : Int) (A : G → List ProtoMsg → Option ProtoMsg)
    (D : G → Transcript → Bool) {s s' : St0 G Nat} (hs : Alike (funcPSI c cu) hashOf s s') {days days' : List (DayIn G Nat (Ct G))}
    (hf : Fits days s.my.actualSize) (hf' : Fits days' s'.my.actualSize)
    (hx : ∀ d ∈ days, ∀ x ∈ d.xs, (x : Int) • g ≠ 0) (hx' : ∀ d ∈ days', ∀ x ∈ d.xs, (x : Int) • g ≠ 0)
    (hids : idsOf days = idsOf days') {B : Nat} (hleak : ∀ X, SameLengths (funcPSI c cu) c hashOf (A X) B s.other days days') :
    |accepts (funcPSI c cu) c hashOf g q sk1 A D s days (slotsOf 1 B s (idsOf days)) -
      accepts (funcPSI c cu) c hashOf g q sk1 A D s' days' (slotsOf 1 B s (idsOf days))| ≤
      hidingBound (plainPSI c cu g) c hashOf q sk1 A D s days (slotsOf 1 B s (idsOf days)) +
      hidingBound (plainPSI c cu g) c hashOf q sk1 A D s' days' (slotsOf 1 B s (idsOf days)) :=
  hides_alike (plainPSI c cu g) c hh hq hcard hg0 sk1 A D hs hf hf' hx hx' hids hleak

/-- **C79** (sum) Message I of a day of the sum protocol hides the elements and the values. -/
theorem C79_sum [Fintype G] (c : Codec G) {hashOf : Nat → List Bool} (hh : ∀ e, (hashOf e).length = 256) {g : G} {q : Nat}
    (hq : q.Prime) (hcard : Fintype.card G = q) (hg0 : g ≠ 0) (sk1 : Int) (A : G → List ProtoMsg → Option ProtoMsg)
    (D : G → Transcript → Bool) {s s' : St0 G (Nat × Int)} (hs : Alike (funcSum c) hashOf s s') {d d' : DayIn G (Nat × Int) (Ct G)}
    (hf : Fits [d] s.my.actualSize) (hf' : Fits [d'] s'.my.actualSize) (hids : d.coins.hsh0 = d'.coins.hsh0) {B : Nat}
    (hleak : d.xs.map (fun p => lenAt s.other (hashOf p.1)) = d'.xs.map (fun p => lenAt s.other (hashOf p.1)))
    (hB : ∀ p ∈ d.xs, lenAt s.other (hashOf p.1) ≤ B) :
    |accepts (funcSum c) c hashOf g q sk1 A D s [d] (slotsOf 2 B s [d.coins.hsh0]) -
      accepts (funcSum c) c hashOf g q sk1 A D s' [d'] (slotsOf 2 B s [d.coins.hsh0])| ≤
      hidingBound (plainSum c g) c hashOf q sk1 A D s [d] (slotsOf 2 B s [d.coins.hsh0]) +
      hidingBound (plainSum c g) c hashOf q sk1 A D s' [d'] (slotsOf 2 B s [d.coins.hsh0]) := by
  refine hides_alike (plainSum c g) c hh hq hcard hg0 sk1 A D hs hf hf' (fun _ _ _ _ => trivial) (fun _ _ _ _ => trivial)
    (by simp [idsOf, hids]) (B := B) (fun X ms o ho e e' he he' => ?_)
  cases ms with
  | nil =>
    simp only [copyAfter, Option.some.injEq] at ho
    subst ho
    simp only [List.length_nil, List.getElem?_cons_zero, Option.some.injEq] at he he'
    subst he; subst he'
    exact ⟨hleak, hB⟩
  | cons m ms => simp at he

theorem talkC_congr (L : Plain F g T) (c : Codec G) (A : List ProtoMsg → Option ProtoMsg) {len : List ProtoMsg → Nat → Nat} {B : Nat}
    (hB : ∀ sent i, len sent i ≤ B) (ps : List PubDay) :
    ∀ (hss : List (List (List Bool))) (ct ct' : Slot → Ct G) (sent : List ProtoMsg) (other : Upsi.Tree.Tree (Ct G)), Whole other →
    List.Forall₂ (fun (hs : List (List Bool)) (p : PubDay) => hs.length = p.hsh.length) hss ps → Known F c A len sent other hss →
    (∀ s ∈ usedSlots T B 0 ps, ct s = ct' s) → talkC L c A ct sent other hss ps = talkC L c A ct' sent other hss ps := by
  induction ps with
  | nil => intro hss ct ct' sent other _ h _ _; cases h; rfl
  | cons p ps ih =>
    intro hss ct ct' sent other hw h hk heq
    obtain ⟨hs, hss', hl, h', rfl⟩ : ∃ hs hss', hs.length = p.hsh.length ∧
        List.Forall₂ (fun (hs : List (List Bool)) (p : PubDay) => hs.length = p.hsh.length) hss' ps ∧ hss = hs :: hss' := by
      cases h with | cons a b => exact ⟨_, _, a, b, rfl⟩
    rw [talkC, talkC, msgC_congr L hl (fun i b path hb hp => ?_) heq]
    · refine after_congr _ _ fun m _ => ?_
      cases hr : A (sent ++ [m]) with
      | none => rfl
      | some r => exact after_congr _ _ fun o ho => ih _ _ _ _ _ (recvC_whole hw ho) h' (hk.tail hr ho) fun s hs => heq _ (mem_next hs)
    · have := (hk.head hb).2
      rw [lenAt, hp] at this
      simp only at this
      rw [this]; exact hB _ _

/-- **C79** The places listed are the places used: with at most `B` candidates per element, no other coin of the history has
any influence on what party one sees. -/
theorem C79_places (c : Codec G) {hashOf : Nat → List Bool} (hh : ∀ e, (hashOf e).length = 256) (pk : PK G)
    (A : List ProtoMsg → Option ProtoMsg) {s : St0 G Nat} (ht : TWF hashOf s.my) (hw : Whole s.other) {days : List (DayIn G Nat Unit)}
    (hf : Fits days s.my.actualSize) {B : Nat} (hB : SameLengths (funcCA c) c hashOf A B s.other days days) (coin coin' : Slot → Int)
    (h : ∀ sl ∈ slotsOf 1 B s (idsOf days), coin sl = coin' sl) :
    talk (funcCA c) c hashOf pk A [] s (drawDays coin days) = talk (funcCA c) c hashOf pk A [] s (drawDays coin' days) := by
  let len : List ProtoMsg → Nat → Nat := fun ms i =>
    match copyAfter (funcCA c) c A [] s.other ms, (hashes (funcCA c) hashOf days)[ms.length]? with
    | some o, some hs =>
      match hs[i]? with
      | some b => min B (lenAt o b)
      | none => 0
    | _, _ => 0
  have hlB : ∀ sent i, len sent i ≤ B := by
    intro sent i
    simp only [len]
    split
    · split
      · exact Nat.min_le_left ..
      · exact Nat.zero_le _
    · exact Nat.zero_le _
  have hday : ∀ n : Nat, (hashes (funcCA c) hashOf days)[n]? = (days[n]?).map (fun d : DayIn G Nat Unit => d.xs.map (fun p => hashOf p)) := by
    intro n; rw [hashes, List.getElem?_map]; rfl
  have hk : Known (funcCA c) c A len [] s.other (hashes (funcCA c) hashOf days) := by
    intro ms o ho hs1 h1 i b hb
    rw [hday] at h1
    cases hd : days[ms.length]? with
    | none => rw [hd] at h1; simp at h1
    | some d =>
      rw [hd] at h1
      simp only [Option.map_some, Option.some.injEq] at h1
      subst h1
      rw [List.getElem?_map] at hb
      cases hp : d.xs[i]? with
      | none => rw [hp] at hb; simp at hb
      | some p =>
        rw [hp] at hb
        simp only [Option.map_some, Option.some.injEq] at hb
        subst hb
        refine ⟨hh _, ?_⟩
        have : lenAt o (hashOf p) ≤ B := (hB ms o ho d d hd hd).2 p (List.mem_of_getElem? hp)
        simp only [List.nil_append, len, ho, hday, hd, Option.map_some, List.getElem?_map, hp]
        rw [Nat.min_eq_right this]
  rw [talk_eq (plainCA c pk.g) c hh rfl A days s [] coin ht hf (fun _ _ _ _ => trivial),
    talk_eq (plainCA c pk.g) c hh rfl A days s [] coin' ht hf (fun _ _ _ _ => trivial)]
  refine talkC_congr _ c A hlB _ _ _ _ _ _ hw
    (pubDays_length s.my.stashSize s.my.nodeSize _ s.my.depth s.my.actualSize _ (hashes_length hf.1)) hk fun sl hsl => ?_
  rw [cts, cts, h sl hsl]

end Upsi.Hide
