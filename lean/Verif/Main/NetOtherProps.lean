import Verif.Main.NetOther
import Verif.Main.NetProps
import Verif.Proto.OgProps
import Verif.Proto.DelPsiProps
/- C73 for the original protocol and the protocols with deletions. -/
namespace Upsi.Main
open Upsi Upsi.Rec Upsi.ElGamal Upsi.Tree Upsi.Proto Upsi.Setup Upsi.Wire Upsi.Num

attribute [local irreducible] int32 maxMessage

variable {G : Type} [AddCommGroup G] [DecidableEq G]

/-- The five messages of a day of the original protocol. -/
def SentOg (K : OgKeys G) (c cu : Codec G) (H : Nat → G) (hashOf : Nat → List Bool) (s : OgSt G) (xs ys : List Nat) (ρ : OgCoins G)
    (m1 : OgMsgI) (m2 : OgMsgII) (m3 : List (List EncElem)) (m4 m5 : List Bytes) : Prop :=
  ∃ p1 p0 p0', ogSendI c H hashOf K.pk1 K.b s.p1 ys ρ = .ok (p1, m1) ∧
    ogSendII c cu hashOf K.pk0 K.pk1 K.a s.p0 m1 xs ρ = .ok (p0, m2) ∧ ogSendIII c K.pk0 K.b m2 ρ = .ok m3 ∧
    ogSendIV c H K.a p0 m3 xs ρ = .ok (p0', m4) ∧ ogSendV c K.b m4 = .ok m5

theorem addComm5 (a b c d e : Nat) : addComm (addComm (addComm (addComm (addComm 0 a) b) c) d) e = int32 ((a + b + c + d + e : Nat) : Int) := by
  have h : ∀ (z : Int) (n : Nat), addComm (int32 z) n = int32 (z + n) := fun z n => int32_add z n
  have h0 : addComm 0 a = int32 (0 + a) := rfl
  rw [h0, h, h, h, h]
  congr 1
  omega

/-- **C73** (original protocol) A day over the network ends with a result exactly if the day by direct calls does and all five
messages are at most 1 GiB; the result is then the same and party zero's byte count is that of the five messages. -/
theorem C73_original (K : OgKeys G) (c cu : Codec G) (H : Nat → G) (hashOf : Nat → List Bool) (s s' : OgSt G) (xs ys : List Nat)
    (ρ : OgCoins G) (n : Int) :
    dayOgNet K c cu H hashOf s xs ys ρ = .ok (s', n) ↔
      dayOg K c cu H hashOf s xs ys ρ = .ok s' ∧
      ∃ m1 m2 m3 m4 m5, SentOg K c cu H hashOf s xs ys ρ m1 m2 m3 m4 m5 ∧
        (serClient (ogI m1)).length ≤ maxMessage ∧ (serServer (ogII m2)).length ≤ maxMessage ∧
        (serClient (.og (.iii m3))).length ≤ maxMessage ∧ (serServer (.og (.iv m4))).length ≤ maxMessage ∧
        (serClient (.og (.v m5))).length ≤ maxMessage ∧
        n = int32 ((serClient (ogI m1)).length + (serServer (ogII m2)).length + (serClient (.og (.iii m3))).length +
          (serServer (.og (.iv m4))).length + (serClient (.og (.v m5))).length : Nat) := by
  simp only [dayOgNet, dayOg, SentOg, Outcome.bind_eq_ok, Outcome.pure_eq, Outcome.ok.injEq, Prod.exists, Prod.mk.injEq,
    toServer_iff, toClient_iff]
  constructor
  · rintro ⟨p1, m1, h1, r1, ⟨rfl, l1⟩, m1', e1, p0, m2, h2, r2, ⟨rfl, l2⟩, m3, h3, r3, ⟨rfl, l3⟩, m3', e3, p0', m4, h4, r4, ⟨rfl, l4⟩,
      m5, h5, r5, ⟨rfl, l5⟩, m5', e5, p0'', h6, rfl, rfl⟩
    simp only [ogI, getOgI, getOgIII, getOgV, Option.getD_some, Outcome.ok.injEq] at e1 e3 e5
    subst e1 e3 e5
    exact ⟨⟨p1, m1, h1, p0, m2, h2, m3, h3, p0', m4, h4, m5, h5, p0'', h6, rfl⟩, m1, m2, m3, m4, m5,
      ⟨p1, p0, p0', h1, h2, h3, h4, h5⟩, l1, l2, l3, l4, l5, addComm5 _ _ _ _ _⟩
  · rintro ⟨⟨p1, m1, h1, p0, m2, h2, m3, h3, p0', m4, h4, m5, h5, p0'', h6, rfl⟩, m1', m2', m3', m4', m5',
      ⟨q1, q0, q0', h1', h2', h3', h4', h5'⟩, l1, l2, l3, l4, l5, rfl⟩
    have e := h1.symm.trans h1'
    simp only [Outcome.ok.injEq, Prod.mk.injEq] at e
    obtain ⟨-, rfl⟩ := e
    have e := h2.symm.trans h2'
    simp only [Outcome.ok.injEq, Prod.mk.injEq] at e
    obtain ⟨rfl, rfl⟩ := e
    have e := Outcome.ok.inj (h3.symm.trans h3')
    subst e
    have e := h4.symm.trans h4'
    simp only [Outcome.ok.injEq, Prod.mk.injEq] at e
    obtain ⟨-, rfl⟩ := e
    have e := Outcome.ok.inj (h5.symm.trans h5')
    subst e
    exact ⟨p1, m1, h1, _, ⟨rfl, l1⟩, m1, rfl, p0, m2, h2, _, ⟨rfl, l2⟩, m3, h3, _, ⟨rfl, l3⟩, m3, rfl, p0', m4, h4, _, ⟨rfl, l4⟩,
      m5, h5, _, ⟨rfl, l5⟩, m5, rfl, p0'', h6, rfl, addComm5 _ _ _ _ _⟩

/-! ### deletions -/

/-- Reading back what was written. -/
theorem group_unpack (m : DelMsg) : groupFormat.unpack (groupFormat.pack m) = m := by
  rcases m with ⟨u, c⟩
  by_cases h : c = [] <;> simp [groupFormat, h]

theorem flat_unpack (m : DelMsg) : flatFormat.unpack (flatFormat.pack m) = ⟨m.updates, [m.candidates.flatten]⟩ := by
  rcases m with ⟨u, c⟩
  simp only [flatFormat, Option.getD_some, DelMsg.mk.injEq, List.cons.injEq, and_true, true_and]
  split
  · rename_i h; rw [h]; rfl
  · rfl

/-- The messages I and II of a round. -/
def SentDel (mont : Int → Option Mont) (hashOf : Nat → List Bool) (k0 k1 : DKeys) (s0 s1 : DSt) (xs ys : List EP) (ρ : RoundCoins)
    (m1 m2 : DelMsg) : Prop :=
  ∃ s0' g0 s1' r1 g1, delGenI mont hashOf k0 s0 xs ρ = .ok (s0', m1, g0) ∧ delGenII mont hashOf k1 s1 m1 ys ρ = .ok (s1', m2, r1, g1)

theorem forIdx_const_iff {f : α → Outcome β} (l : List α) : ∀ (i : Nat) (bs : List β),
    forIdx (fun _ => f) i l = .ok bs ↔ List.Forall₂ (fun a b => f a = .ok b) l bs := by
  induction l with
  | nil => intro i bs; simp [forIdx, eq_comm]
  | cons a as ih =>
    intro i bs
    simp only [forIdx, Outcome.bind_eq_ok, Outcome.pure_eq, Outcome.ok.injEq, ih, List.forall₂_cons_left_iff]
    constructor
    · rintro ⟨b, h1, bs', h2, rfl⟩; exact ⟨b, bs', h1, h2, rfl⟩
    · rintro ⟨b, bs', h1, h2, rfl⟩; exact ⟨b, h1, bs', h2, rfl⟩

/-- What the responder computes from one candidate. -/
def respOne (sk : Upsi.Paillier.Private) (w : EncElem) : Outcome Int := do
  let c ← deserOnly w
  sk.decrypt c

theorem combineResp_iff (sk : Upsi.Paillier.Private) (ws : List EncElem) (l : List Int) :
    combineResp sk ws = .ok l ↔ List.Forall₂ (fun w y => respOne sk w = .ok y) ws l := by
  simp only [combineResp, Outcome.bind_eq_ok, respOne]
  constructor
  · rintro ⟨cs, h1, h2⟩
    rw [forIdx_const_iff] at h1 h2
    exact forall₂_comp h1 h2 (fun a b c x y => ⟨b, x, y⟩)
  · intro h
    induction h with
    | nil => exact ⟨[], by simp [forIdx], by simp [forIdx]⟩
    | cons h _ ih =>
      obtain ⟨c, h1, h2⟩ := h
      obtain ⟨cs, i1, i2⟩ := ih
      rw [forIdx_const_iff] at i1 i2
      exact ⟨c :: cs, (forIdx_const_iff _ _ _).2 (.cons h1 i1), (forIdx_const_iff _ _ _).2 (.cons h2 i2)⟩

/-- One flat list of candidates gives the concatenation of what the groups give. -/
theorem combineResp_flat (sk : Upsi.Paillier.Private) : ∀ (gs : List (List EncElem)) (l : List Int),
    combineResp sk gs.flatten = .ok l ↔ ∃ ys, forIdx (fun _ ws => combineResp sk ws) 0 gs = .ok ys ∧ l = ys.flatten := by
  intro gs
  induction gs with
  | nil =>
    intro l
    rw [combineResp_iff]
    simp [forIdx]
  | cons g gs ih =>
    intro l
    rw [combineResp_iff, List.flatten_cons]
    constructor
    · intro h
      obtain ⟨l1, l2, h1, h2, rfl⟩ : ∃ l1 l2, List.Forall₂ (fun w y => respOne sk w = .ok y) g l1 ∧
          List.Forall₂ (fun w y => respOne sk w = .ok y) gs.flatten l2 ∧ l = l1 ++ l2 := by
        refine ⟨l.take g.length, l.drop g.length, ?_, ?_, (List.take_append_drop _ _).symm⟩
        · have := List.forall₂_take g.length h
          rwa [List.take_left] at this
        · have := List.forall₂_drop g.length h
          rwa [List.drop_left] at this
      rw [← combineResp_iff, ih] at h2
      obtain ⟨ys, h2, rfl⟩ := h2
      rw [forIdx_const_iff] at h2
      exact ⟨l1 :: ys, (forIdx_const_iff _ _ _).2 (.cons ((combineResp_iff _ _ _).2 h1) h2), by simp⟩
    · rintro ⟨ys, h, rfl⟩
      rw [forIdx_const_iff, List.forall₂_cons_left_iff] at h
      obtain ⟨y, ys', h1, h2, rfl⟩ := h
      have := (ih ys'.flatten).2 ⟨ys', (forIdx_const_iff _ _ _).2 h2, rfl⟩
      rw [combineResp_iff] at h1 this
      exact List.rel_append h1 this

/-- Party one gives the same from the flat list, up to the grouping of its responses. -/
theorem delGenII_flat (mont : Int → Option Mont) (hashOf : Nat → List Bool) (k : DKeys) (s : DSt) (m : DelMsg) (es : List EP) (ρ : RoundCoins)
    (s' : DSt) (m' : DelMsg) (r : List (List Int)) (g : List (List Item)) :
    delGenII mont hashOf k s ⟨m.updates, [m.candidates.flatten]⟩ es ρ = .ok (s', m', r, g) ↔
      ∃ ys, delGenII mont hashOf k s m es ρ = .ok (s', m', ys, g) ∧ r = [ys.flatten] := by
  simp only [delGenII, Outcome.bind_eq_ok, Outcome.pure_eq, Outcome.ok.injEq, Prod.exists, Prod.mk.injEq, forIdx]
  constructor
  · rintro ⟨o, h1, _, ⟨l, hl, _, rfl, rfl⟩, u, h2, gs, ws, h3, rfl, rfl, rfl, rfl⟩
    obtain ⟨ys, h4, rfl⟩ := (combineResp_flat _ _ _).1 hl
    exact ⟨ys, ⟨o, h1, ys, h4, u, h2, gs, ws, h3, rfl, rfl, rfl, rfl⟩, rfl⟩
  · rintro ⟨ys, ⟨o, h1, _, h4, u, h2, gs, ws, h3, rfl, rfl, rfl, rfl⟩, rfl⟩
    exact ⟨o, h1, _, ⟨_, (combineResp_flat _ _ _).2 ⟨_, h4, rfl⟩, _, rfl, rfl⟩, u, h2, gs, ws, h3, rfl, rfl, rfl, rfl⟩

theorem delRecvII_flat (k : DKeys) (s : DSt) (m : DelMsg) (s' : DSt) (r : List (List Int)) :
    delRecvII k s ⟨m.updates, [m.candidates.flatten]⟩ = .ok (s', r) ↔ ∃ ys, delRecvII k s m = .ok (s', ys) ∧ r = [ys.flatten] := by
  simp only [delRecvII, Outcome.bind_eq_ok, Outcome.pure_eq, Outcome.ok.injEq, Prod.mk.injEq, forIdx]
  constructor
  · rintro ⟨o, h1, _, ⟨l, hl, _, rfl, rfl⟩, rfl, rfl⟩
    obtain ⟨ys, h4, rfl⟩ := (combineResp_flat _ _ _).1 hl
    exact ⟨ys, ⟨o, h1, ys, h4, rfl, rfl⟩, rfl⟩
  · rintro ⟨ys, ⟨o, h1, _, h4, rfl, rfl⟩, rfl⟩
    exact ⟨o, h1, _, ⟨_, (combineResp_flat _ _ _).2 ⟨_, h4, rfl⟩, _, rfl, rfl⟩, rfl, rfl⟩

/-- A round of deletion-psi over the network. -/
theorem roundNet_group (mont : Int → Option Mont) (hashOf : Nat → List Bool) (k0 k1 : DKeys) (s0 s1 : DSt) (xs ys : List EP)
    (ρ : RoundCoins) (a b : DSt) (o : RoundOut) (n0 n1 : Nat) :
    roundNet groupFormat mont hashOf k0 k1 s0 s1 xs ys ρ = .ok (a, b, o, n0, n1) ↔
      roundDel mont hashOf k0 k1 s0 s1 xs ys ρ = .ok (a, b, o) ∧
      ∃ m1 m2, SentDel mont hashOf k0 k1 s0 s1 xs ys ρ m1 m2 ∧ (serClient (.p0 (.i (groupFormat.pack m1)))).length ≤ maxMessage ∧
        (serServer (.p1 (.ii (groupFormat.pack m2)))).length ≤ maxMessage ∧
        n0 = (serClient (.p0 (.i (groupFormat.pack m1)))).length ∧ n1 = (serPMsg (groupFormat.pack m2)).length := by
  simp only [roundNet, roundDel, SentDel, Outcome.bind_eq_ok, Outcome.pure_eq, Outcome.ok.injEq, Prod.exists, Prod.mk.injEq,
    toServer_iff, toClient_iff]
  constructor
  · rintro ⟨s0', m1, g0, h1, r1, ⟨rfl, l1⟩, m1', e1, s1', m2, y1, g1, h2, r2, ⟨rfl, l2⟩, m2', e2, s0'', y0, h3, rfl, rfl, rfl, rfl, rfl⟩
    simp only [getDelI, getDelII, group_unpack, Outcome.ok.injEq] at e1 e2
    subst e1 e2
    exact ⟨⟨s0', m1, g0, h1, s1', m2, y1, g1, h2, s0'', y0, h3, rfl, rfl, rfl⟩, m1, m2, ⟨s0', g0, s1', y1, g1, h1, h2⟩, l1, l2, rfl, rfl⟩
  · rintro ⟨⟨s0', m1, g0, h1, s1', m2, y1, g1, h2, s0'', y0, h3, rfl, rfl, rfl⟩, m1', m2', ⟨t0', g0', t1', y1', g1', h1', h2'⟩, l1, l2, rfl, rfl⟩
    have e := h1.symm.trans h1'
    simp only [Outcome.ok.injEq, Prod.mk.injEq] at e
    obtain ⟨-, rfl, -⟩ := e
    have e := h2.symm.trans h2'
    simp only [Outcome.ok.injEq, Prod.mk.injEq] at e
    obtain ⟨-, rfl, -, -⟩ := e
    exact ⟨s0', m1, g0, h1, _, ⟨rfl, l1⟩, m1, by rw [getDelI, group_unpack], s1', m2, y1, g1, h2, _, ⟨rfl, l2⟩, m2,
      by rw [getDelII, group_unpack], s0'', y0, h3, rfl, rfl, rfl, rfl, rfl⟩

/-- A round of deletion over the network: the responses arrive without their grouping. -/
theorem roundNet_flat (mont : Int → Option Mont) (hashOf : Nat → List Bool) (k0 k1 : DKeys) (s0 s1 : DSt) (xs ys : List EP)
    (ρ : RoundCoins) (a b : DSt) (o : RoundOut) (n0 n1 : Nat) :
    roundNet flatFormat mont hashOf k0 k1 s0 s1 xs ys ρ = .ok (a, b, o, n0, n1) ↔
      (∃ o', roundDel mont hashOf k0 k1 s0 s1 xs ys ρ = .ok (a, b, o') ∧
        o = ⟨o'.items0, [o'.resp1.flatten], o'.items1, [o'.resp0.flatten]⟩) ∧
      ∃ m1 m2, SentDel mont hashOf k0 k1 s0 s1 xs ys ρ m1 m2 ∧ (serClient (.p0 (.i (flatFormat.pack m1)))).length ≤ maxMessage ∧
        (serServer (.p1 (.ii (flatFormat.pack m2)))).length ≤ maxMessage ∧
        n0 = (serClient (.p0 (.i (flatFormat.pack m1)))).length ∧ n1 = (serPMsg (flatFormat.pack m2)).length := by
  simp only [roundNet, roundDel, SentDel, Outcome.bind_eq_ok, Outcome.pure_eq, Outcome.ok.injEq, Prod.exists, Prod.mk.injEq,
    toServer_iff, toClient_iff]
  constructor
  · rintro ⟨s0', m1, g0, h1, r1, ⟨rfl, l1⟩, m1', e1, s1', m2, y1, g1, h2, r2, ⟨rfl, l2⟩, m2', e2, s0'', y0, h3, rfl, rfl, rfl, rfl, rfl⟩
    simp only [getDelI, getDelII, flat_unpack, Outcome.ok.injEq] at e1 e2
    subst e1 e2
    obtain ⟨z1, k2, rfl⟩ := (delGenII_flat _ _ _ _ _ _ _ _ _ _ _).1 h2
    obtain ⟨z0, k3, rfl⟩ := (delRecvII_flat _ _ _ _ _).1 h3
    exact ⟨⟨_, ⟨s0', m1, g0, h1, s1', m2, z1, g1, k2, s0'', z0, k3, rfl, rfl, rfl⟩, rfl⟩, m1, m2, ⟨s0', g0, s1', z1, g1, h1, k2⟩, l1, l2, rfl, rfl⟩
  · rintro ⟨⟨_, ⟨s0', m1, g0, h1, s1', m2, z1, g1, h2, s0'', z0, h3, rfl, rfl, rfl⟩, rfl⟩, m1', m2', ⟨t0', g0', t1', y1', g1', h1', h2'⟩, l1, l2, rfl, rfl⟩
    have e := h1.symm.trans h1'
    simp only [Outcome.ok.injEq, Prod.mk.injEq] at e
    obtain ⟨-, rfl, -⟩ := e
    have e := h2.symm.trans h2'
    simp only [Outcome.ok.injEq, Prod.mk.injEq] at e
    obtain ⟨-, rfl, -, -⟩ := e
    exact ⟨s0', m1, g0, h1, _, ⟨rfl, l1⟩, _, by rw [getDelI, flat_unpack], s1', m2, _, g1, (delGenII_flat _ _ _ _ _ _ _ _ _ _ _).2 ⟨z1, h2, rfl⟩,
      _, ⟨rfl, l2⟩, _, by rw [getDelII, flat_unpack], s0'', _, (delRecvII_flat _ _ _ _ _).2 ⟨z0, h3, rfl⟩, rfl, rfl, rfl, rfl, rfl⟩

theorem addComm64_small (a b : Nat) (h : a + b < 2 ^ 64) : addComm64 a b = a + b := Nat.mod_eq_of_lt h

theorem inner_le (m : PMsg) : (serPMsg m).length ≤ (serServer (.p1 (.ii m))).length := by
  simp only [serServer, serP1, encFields, encField, List.flatMap_cons, List.flatMap_nil, List.append_nil, List.length_append]
  omega

theorem maxMessage_lt : maxMessage < 2 ^ 31 := by
  unfold maxMessage; norm_num

/-- **C73** (deletion) A day over the network ends with a result exactly if the day by direct calls does and both messages are
at most 1 GiB; the result is the same although the candidates travel as one flat list, and the parties' byte counts are the
sizes of the request and of message II. -/
theorem C73_deletion (ro : List UInt8 → Nat) (mont : Int → Option Mont) (hashOf : Nat → List Bool) (k0 k1 : DKeys) (s s' : StDel)
    (xs ys : List EP) (ρ : DelCoins) (n0 n1 : Nat) :
    dayDelNet ro mont hashOf k0 k1 s xs ys ρ = .ok (s', n0, n1) ↔
      dayDel ro mont hashOf k0 k1 s xs ys ρ = .ok s' ∧
      ∃ m1 m2, SentDel mont hashOf k0 k1 s.p0 s.p1 xs ys ρ.round m1 m2 ∧
        (serClient (.p0 (.i (flatFormat.pack m1)))).length ≤ maxMessage ∧
        (serServer (.p1 (.ii (flatFormat.pack m2)))).length ≤ maxMessage ∧
        n0 = (serClient (.p0 (.i (flatFormat.pack m1)))).length ∧ n1 = (serPMsg (flatFormat.pack m2)).length := by
  have hM := maxMessage_lt
  simp only [dayDelNet, dayDel, Outcome.bind_eq_ok, Outcome.pure_eq, Outcome.ok.injEq, Prod.exists, Prod.mk.injEq, roundNet_flat]
  constructor
  · rintro ⟨p0, p1, _, c0, c1, ⟨⟨o, h, rfl⟩, m1, m2, hs, l1, l2, rfl, rfl⟩, f1, h1, f2, h2, rfl, rfl, rfl⟩
    have := inner_le (flatFormat.pack m2)
    simp only [List.flatten_cons, List.flatten_nil, List.append_nil] at h1 h2
    refine ⟨⟨p0, p1, o, h, f1, h1, f2, h2, rfl⟩, m1, m2, hs, l1, l2, ?_, ?_⟩
    · rw [addComm64_small _ _ (by omega), Nat.zero_add]
    · rw [addComm64_small _ _ (by omega), Nat.zero_add]
  · rintro ⟨⟨p0, p1, o, h, f1, h1, f2, h2, rfl⟩, m1, m2, hs, l1, l2, rfl, rfl⟩
    have := inner_le (flatFormat.pack m2)
    refine ⟨p0, p1, _, _, _, ⟨⟨o, h, rfl⟩, m1, m2, hs, l1, l2, rfl, rfl⟩, f1, by simpa using h1, f2, by simpa using h2, rfl, ?_, ?_⟩
    · rw [addComm64_small _ _ (by omega), Nat.zero_add]
    · rw [addComm64_small _ _ (by omega), Nat.zero_add]

/-- **C73** (deletion-psi) A day over the network, two rounds of messages. -/
theorem C73_deletion_psi (ro : List UInt8 → Nat) (mont : Int → Option Mont) (hashOf : Nat → List Bool) (k0 k1 : DKeys) (s s' : StDelPsi)
    (xs ys : List EP) (ρ : DelPsiCoins) (n0 n1 : Nat) :
    dayDelPsiNet ro mont hashOf k0 k1 s xs ys ρ = .ok (s', n0, n1) ↔
      dayDelPsi ro mont hashOf k0 k1 s xs ys ρ = .ok s' ∧
      ∃ a0 a1 o m1 m2 m3 m4,
        roundDel mont hashOf k0 k1 s.p0 s.p1 (deletionsOf xs) (deletionsOf ys) ρ.round1 = .ok (a0, a1, o) ∧
        SentDel mont hashOf k0 k1 s.p0 s.p1 (deletionsOf xs) (deletionsOf ys) ρ.round1 m1 m2 ∧
        SentDel mont hashOf k0 k1 a0 a1 (additionsOf xs) (additionsOf ys) ρ.round2 m3 m4 ∧
        (serClient (.p0 (.i (groupFormat.pack m1)))).length ≤ maxMessage ∧
        (serServer (.p1 (.ii (groupFormat.pack m2)))).length ≤ maxMessage ∧
        (serClient (.p0 (.i (groupFormat.pack m3)))).length ≤ maxMessage ∧
        (serServer (.p1 (.ii (groupFormat.pack m4)))).length ≤ maxMessage ∧
        n0 = (serClient (.p0 (.i (groupFormat.pack m1)))).length + (serClient (.p0 (.i (groupFormat.pack m3)))).length ∧
        n1 = (serPMsg (groupFormat.pack m2)).length + (serPMsg (groupFormat.pack m4)).length := by
  have hM := maxMessage_lt
  simp only [dayDelPsiNet, dayDelPsi, Outcome.bind_eq_ok, Outcome.pure_eq, Outcome.ok.injEq, Prod.exists, Prod.mk.injEq, roundNet_group]
  constructor
  · rintro ⟨a0, a1, o1, c0, c1, ⟨h, m1, m2, hs, l1, l2, rfl, rfl⟩, b0, b1, o2, d0, d1, ⟨h', m3, m4, hs', l3, l4, rfl, rfl⟩,
      f0, h0, f1, h1, us, hu, r, inter, hi, rfl, rfl, rfl⟩
    have := inner_le (groupFormat.pack m2)
    have := inner_le (groupFormat.pack m4)
    refine ⟨⟨a0, a1, o1, h, b0, b1, o2, h', f0, h0, f1, h1, us, hu, r, inter, hi, rfl⟩, a0, a1, o1, m1, m2, m3, m4, h, hs, hs',
      l1, l2, l3, l4, ?_, ?_⟩
    · rw [addComm64_small 0 _ (by omega), addComm64_small _ _ (by omega), Nat.zero_add]
    · rw [addComm64_small 0 _ (by omega), addComm64_small _ _ (by omega), Nat.zero_add]
  · rintro ⟨⟨a0, a1, o1, h, b0, b1, o2, h', f0, h0, f1, h1, us, hu, r, inter, hi, rfl⟩, a0', a1', o1', m1, m2, m3, m4, h'', hs, hs',
      l1, l2, l3, l4, rfl, rfl⟩
    have := inner_le (groupFormat.pack m2)
    have := inner_le (groupFormat.pack m4)
    have e := h.symm.trans h''
    simp only [Outcome.ok.injEq, Prod.mk.injEq] at e
    obtain ⟨rfl, rfl, rfl⟩ := e
    refine ⟨a0, a1, o1, _, _, ⟨h, m1, m2, hs, l1, l2, rfl, rfl⟩, b0, b1, o2, _, _, ⟨h', m3, m4, hs', l3, l4, rfl, rfl⟩,
      f0, h0, f1, h1, us, hu, r, inter, hi, rfl, ?_, ?_⟩
    · rw [addComm64_small 0 _ (by omega), addComm64_small _ _ (by omega), Nat.zero_add]
    · rw [addComm64_small 0 _ (by omega), addComm64_small _ _ (by omega), Nat.zero_add]

end Upsi.Main
