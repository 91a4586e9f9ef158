import Verif.Main.Net
import Mathlib.Tactic.Ring
/- Property theorems C73: the protocols over the network, the size limit and the byte counts. -/
namespace Upsi.Main
open Upsi Upsi.Rec Upsi.ElGamal Upsi.Tree Upsi.Proto Upsi.Setup Upsi.Wire Upsi.Num

theorem toServer_iff {m r : CMsg} : toServer m = .ok r ↔ r = m ∧ (serClient m).length ≤ maxMessage := by
  unfold toServer
  by_cases h : (serClient m).length ≤ maxMessage
  · rw [if_pos h, C72_client m (lt_of_le_of_lt h (by unfold maxMessage; norm_num))]
    simp [h, eq_comm]
  · simp [h]

theorem toClient_iff {m r : SMsg} : toClient m = .ok r ↔ r = m ∧ (serServer m).length ≤ maxMessage := by
  unfold toClient
  by_cases h : (serServer m).length ≤ maxMessage
  · rw [if_pos h, C72_server m (lt_of_le_of_lt h (by unfold maxMessage; norm_num))]
    simp [h, eq_comm]
  · simp [h]

theorem ofPMsg_toPMsg (m : ProtoMsg) : ofPMsg (toPMsg m) = m := by
  rcases m with ⟨u, c⟩
  unfold ofPMsg toPMsg
  by_cases h : c = []
  · simp [h]
  · simp [h]

theorem int32_add (a : Int) (n : Nat) : int32 (int32 a + n) = int32 (a + n) := by
  unfold int32
  omega

theorem int32_add₂ (a : Int) (n m : Nat) : int32 (int32 a + n + m) = int32 (a + n + m) := by
  unfold int32
  omega

attribute [local irreducible] int32 maxMessage

variable {G : Type} [AddCommGroup G] [DecidableEq G]

/-- The messages I and II of a day. -/
def Sent (F : Func G P γ κ) (c : Codec G) (hashOf : Nat → List Bool) (pk : PK G) (sk1 : Int) (s0 : St0 G P) (s1 : St1 γ)
    (xs : List P) (ys : List Nat) (ρ : Coins G P κ) (m1 m2 : ProtoMsg) : Prop :=
  ∃ s0' s1', genI F hashOf pk s0 xs ρ = .ok (s0', m1) ∧ genII F c hashOf pk sk1 s1 m1 ys ρ = .ok (s1', m2)

theorem exchangeNet_iff (F : Func G P γ κ) (c : Codec G) (hashOf : Nat → List Bool) (pk : PK G) (sk1 : Int)
    (s0 : St0 G P) (s1 : St1 γ) (xs : List P) (ys : List Nat) (ρ : Coins G P κ) (a : St0 G P) (b : St1 γ)
    (cs : List (Ct G × κ)) (n : Int) :
    exchangeNet F c hashOf pk pk sk1 s0 s1 xs ys ρ = .ok (a, b, cs, n) ↔
      exchange F c hashOf pk sk1 s0 s1 xs ys ρ = .ok (a, b, cs) ∧
      ∃ m1 m2, Sent F c hashOf pk sk1 s0 s1 xs ys ρ m1 m2 ∧ (serClient (reqI m1)).length ≤ maxMessage ∧
        (serServer (resII m2)).length ≤ maxMessage ∧
        n = int32 ((serClient (reqI m1)).length + (serServer (resII m2)).length : Nat) := by
  unfold exchangeNet exchange Sent
  cases h1 : genI F hashOf pk s0 xs ρ with
  | ok r =>
    rcases r with ⟨s0', m1⟩
    simp only [Outcome.bind_ok, Outcome.bind_eq_ok, toServer_iff, toClient_iff, Outcome.pure_eq, Outcome.ok.injEq, Prod.exists,
      Prod.mk.injEq]
    constructor
    · rintro ⟨r1, ⟨rfl, l1⟩, m1', e1, s1', m2, h2, r2, ⟨rfl, l2⟩, m2', e2, s0'', cands, h3, rfl, rfl, rfl, rfl⟩
      simp only [reqI, getI, resII, getII, Outcome.ok.injEq, ofPMsg_toPMsg] at e1 e2
      subst e1 e2
      refine ⟨⟨s1', m2, h2, s0'', cands, h3, rfl, rfl, rfl⟩, m1, m2, ⟨s0', s1', ⟨rfl, rfl⟩, h2⟩, l1, l2, ?_⟩
      unfold addComm
      rw [int32_add]
      congr 1
      push_cast
      ring
    · rintro ⟨⟨s1', m2, h2, s0'', cands, h3, rfl, rfl, rfl⟩, m1', m2', ⟨_, s1'', ⟨rfl, rfl⟩, h2'⟩, l1, l2, rfl⟩
      obtain ⟨rfl, rfl⟩ : s1' = s1'' ∧ m2 = m2' := by
        have := h2.symm.trans h2'
        simpa using this
      refine ⟨_, ⟨rfl, l1⟩, m1, by simp [reqI, getI, ofPMsg_toPMsg], s1', m2, h2, _, ⟨rfl, l2⟩, m2, by simp [resII, getII, ofPMsg_toPMsg],
        s0'', cands, h3, rfl, rfl, rfl, ?_⟩
      unfold addComm
      rw [int32_add]
      congr 1
      push_cast
      ring
  | err e => simp
  | abort => simp
  | ub => simp

/-- **C73** (cardinality) A day over the network ends with a result exactly if the day by direct calls does and both messages
are at most 1 GiB; the result is then the same, and the byte count party one records is the number of bytes of both
messages (as a 32-bit number). -/
theorem C73_cardinality (c : Codec G) (hashOf : Nat → List Bool) (pk : PK G) (sk0 sk1 : Int) (s s' : StCA G)
    (xs ys : List Nat) (ρ : Coins G Nat Unit) (n : Int) :
    dayCANet c hashOf pk pk sk0 sk1 s xs ys ρ = .ok (s', n) ↔
      dayCA c hashOf pk sk0 sk1 s xs ys ρ = .ok s' ∧
      ∃ m1 m2, Sent (funcCA c) c hashOf pk sk1 s.p0 s.p1 xs ys ρ m1 m2 ∧ (serClient (reqI m1)).length ≤ maxMessage ∧
        (serServer (resII m2)).length ≤ maxMessage ∧
        n = int32 ((serClient (reqI m1)).length + (serServer (resII m2)).length : Nat) := by
  simp only [dayCANet, dayCA, Outcome.bind_eq_ok, Outcome.pure_eq, Outcome.ok.injEq, Prod.exists, Prod.mk.injEq, exchangeNet_iff]
  constructor
  · rintro ⟨a, b, cs, k, ⟨h, m⟩, rfl, rfl⟩
    exact ⟨⟨a, b, cs, h, rfl⟩, m⟩
  · rintro ⟨⟨a, b, cs, h, rfl⟩, m⟩
    exact ⟨a, b, cs, n, ⟨h, m⟩, rfl, rfl⟩

/-- **C73** (PSI) -/
theorem C73_psi (c cu : Codec G) (hashOf : Nat → List Bool) (pk : PK G) (sk0 sk1 : Int) (s s' : StPSI G)
    (xs ys : List Nat) (ρ : Coins G Nat (Ct G)) (n : Int) :
    dayPSINet c cu hashOf pk pk sk0 sk1 s xs ys ρ = .ok (s', n) ↔
      dayPSI c cu hashOf pk sk0 sk1 s xs ys ρ = .ok s' ∧
      ∃ m1 m2, Sent (funcPSI c cu) c hashOf pk sk1 s.p0 s.p1 xs ys ρ m1 m2 ∧ (serClient (reqI m1)).length ≤ maxMessage ∧
        (serServer (resII m2)).length ≤ maxMessage ∧
        n = int32 ((serClient (reqI m1)).length + (serServer (resII m2)).length : Nat) := by
  simp only [dayPSINet, dayPSI, Outcome.bind_eq_ok, Outcome.pure_eq, Outcome.ok.injEq, Prod.exists, Prod.mk.injEq, exchangeNet_iff]
  constructor
  · rintro ⟨m, hm, a, b, cs, k, ⟨h, hs⟩, out, ho, rfl, rfl⟩
    exact ⟨⟨m, hm, a, b, cs, h, out, ho, rfl⟩, hs⟩
  · rintro ⟨⟨m, hm, a, b, cs, h, out, ho, rfl⟩, hs⟩
    exact ⟨m, hm, a, b, cs, n, ⟨h, hs⟩, out, ho, rfl, rfl⟩

/-- The messages III and IV of a day of the sum protocol (`m3` and `m4` are the serialized ciphertexts in them). -/
def SentSum (c : Codec G) (hashOf : Nat → List Bool) (pk : PK G) (sk0 sk1 : Int) (s : StSum G)
    (xs : List (Nat × Int)) (ys : List Nat) (ρ : Coins G (Nat × Int) (Ct G)) (m3 m4 : CtProto) : Prop :=
  ∃ p0 p1 cands sum1, exchange (funcSum c) c hashOf pk sk1 s.p0 s.p1 xs ys ρ = .ok (p0, p1, cands) ∧
    serializeCt c (sumLoop sk0 cands s.cardinality (encrypt pk (ρ.last 0 0) 0)).2 = .ok m3 ∧
    deserializeCt c m3 = .ok sum1 ∧ serializeCt c (partialDecrypt sk1 sum1) = .ok m4

/-- **C73** (sum) -/
theorem C73_sum (c : Codec G) (limit : Nat) (hashOf : Nat → List Bool) (pk : PK G) (sk0 sk1 : Int) (s s' : StSum G)
    (xs : List (Nat × Int)) (ys : List Nat) (ρ : Coins G (Nat × Int) (Ct G)) (n : Int) :
    daySumNet c limit hashOf pk pk sk0 sk1 s xs ys ρ = .ok (s', n) ↔
      daySum c limit hashOf pk sk0 sk1 s xs ys ρ = .ok s' ∧
      ∃ m1 m2 m3 m4, Sent (funcSum c) c hashOf pk sk1 s.p0 s.p1 xs ys ρ m1 m2 ∧ SentSum c hashOf pk sk0 sk1 s xs ys ρ m3 m4 ∧
        (serClient (reqI m1)).length ≤ maxMessage ∧ (serServer (resII m2)).length ≤ maxMessage ∧
        (serClient (.p0 (.iiiSum (some m3)))).length ≤ maxMessage ∧ (serServer (.p1 (.iv (some m4)))).length ≤ maxMessage ∧
        n = int32 ((serClient (reqI m1)).length + (serServer (resII m2)).length + (serClient (.p0 (.iiiSum (some m3)))).length +
          (serServer (.p1 (.iv (some m4)))).length : Nat) := by
  have hc : ∀ (k x y : Nat), addComm (addComm (int32 k) x) y = int32 ((k + x + y : Nat) : Int) := by
    intro k x y
    unfold addComm
    rw [int32_add, int32_add₂]
    congr 1
  simp only [daySumNet, daySum, SentSum, Outcome.bind_eq_ok, Outcome.pure_eq, Outcome.ok.injEq, Prod.exists, Prod.mk.injEq, exchangeNet_iff,
    toServer_iff, toClient_iff]
  constructor
  · rintro ⟨a, b, cs, k, ⟨h, m1, m2, hs, l1, l2, rfl⟩, m3, h3, r3, ⟨rfl, l3⟩, m3', e3, sum1, d1, m4, h4, r4, ⟨rfl, l4⟩, m4', e4, sum2, d2,
      big, hb, v, hv, rfl, rfl⟩
    simp only [getIII, getIV, Option.getD_some, Outcome.ok.injEq] at e3 e4
    subst e3 e4
    exact ⟨⟨a, b, cs, h, m3, h3, sum1, d1, m4, h4, sum2, d2, big, hb, v, hv, rfl⟩, m1, m2, m3, m4, hs, ⟨a, b, cs, sum1, h, h3, d1, h4⟩,
      l1, l2, l3, l4, hc _ _ _⟩
  · rintro ⟨⟨a, b, cs, h, m3, h3, sum1, d1, m4, h4, sum2, d2, big, hb, v, hv, rfl⟩, m1, m2, m3', m4', hs, ⟨a', b', cs', sum1', h', h3', d1', h4'⟩,
      l1, l2, l3, l4, rfl⟩
    have e := h.symm.trans h'
    simp only [Outcome.ok.injEq, Prod.mk.injEq] at e
    obtain ⟨-, -, rfl⟩ := e
    have e3 := Outcome.ok.inj (h3.symm.trans h3')
    subst e3
    have e4 := Outcome.ok.inj (d1.symm.trans d1')
    subst e4
    have e5 := Outcome.ok.inj (h4.symm.trans h4')
    subst e5
    exact ⟨a, b, cs, _, ⟨h, m1, m2, hs, l1, l2, rfl⟩, m3, h3, _, ⟨rfl, l3⟩, m3, rfl, sum1, d1, m4, h4, _, ⟨rfl, l4⟩, m4, rfl, sum2, d2,
      big, hb, v, hv, rfl, hc _ _ _⟩

/-- The payloads of message III of a day of the secret-sharing protocol. -/
def SentSS (c : Codec G) (mont : Int → Option Mont) (a b : TPaillier) (hashOf : Nat → List Bool) (pk : PK G) (sk0 sk1 : Int)
    (s : StSS G) (xs : List (Nat × Int)) (ys : List Nat) (ρ : Coins G (Nat × Int) Int) (pays : List Bytes) : Prop :=
  ∃ p0 p1 cands sh0, exchange (funcSS c mont a b) c hashOf pk sk1 s.p0 s.p1 (xs.map getPayloadSS) ys ρ = .ok (p0, p1, cands) ∧
    ssLoop mont a sk0 ρ.last 0 cands s.shares0 [] = .ok (sh0, pays)

/-- **C73** (secret shares) -/
theorem C73_shares (c : Codec G) (mont : Int → Option Mont) (a b : TPaillier) (hashOf : Nat → List Bool) (pk : PK G) (sk0 sk1 : Int)
    (s s' : StSS G) (xs : List (Nat × Int)) (ys : List Nat) (ρ : Coins G (Nat × Int) Int) (n : Int) :
    daySSNet c mont a b hashOf pk pk sk0 sk1 s xs ys ρ = .ok (s', n) ↔
      daySS c mont a b hashOf pk sk0 sk1 s xs ys ρ = .ok s' ∧
      ∃ m1 m2 pays, Sent (funcSS c mont a b) c hashOf pk sk1 s.p0 s.p1 (xs.map getPayloadSS) ys ρ m1 m2 ∧
        SentSS c mont a b hashOf pk sk0 sk1 s xs ys ρ pays ∧
        (serClient (reqI m1)).length ≤ maxMessage ∧ (serServer (resII m2)).length ≤ maxMessage ∧
        (serClient (.p0 (.iiiSS pays))).length ≤ maxMessage ∧
        n = int32 ((serClient (reqI m1)).length + (serServer (resII m2)).length + (serClient (.p0 (.iiiSS pays))).length : Nat) := by
  have hc : ∀ (k x : Nat), addComm (int32 k) x = int32 ((k + x : Nat) : Int) := by
    intro k x
    unfold addComm
    rw [int32_add]
    congr 1
  simp only [daySSNet, daySS, daySSBody, SentSS, Outcome.bind_eq_ok, Outcome.pure_eq, Outcome.ok.injEq, Prod.exists, Prod.mk.injEq,
    exchangeNet_iff, toServer_iff]
  constructor
  · rintro ⟨p0, p1, cs, k, ⟨h, m1, m2, hs, l1, l2, rfl⟩, sh0, pays, hl, r3, ⟨rfl, l3⟩, pays', e3, sh1, hr, rfl, rfl⟩
    simp only [getShares, Outcome.ok.injEq] at e3
    subst e3
    exact ⟨⟨p0, p1, cs, h, sh0, pays, hl, sh1, hr, rfl⟩, m1, m2, pays, hs, ⟨p0, p1, cs, sh0, h, hl⟩, l1, l2, l3, hc _ _⟩
  · rintro ⟨⟨p0, p1, cs, h, sh0, pays, hl, sh1, hr, rfl⟩, m1, m2, pays', hs, ⟨p0', p1', cs', sh0', h', hl'⟩, l1, l2, l3, rfl⟩
    have e := h.symm.trans h'
    simp only [Outcome.ok.injEq, Prod.mk.injEq] at e
    obtain ⟨-, -, rfl⟩ := e
    have e3 := hl.symm.trans hl'
    simp only [Outcome.ok.injEq, Prod.mk.injEq] at e3
    obtain ⟨-, rfl⟩ := e3
    exact ⟨p0, p1, cs, _, ⟨h, m1, m2, hs, l1, l2, rfl⟩, sh0, pays, hl, _, ⟨rfl, l3⟩, pays, rfl, sh1, hr, rfl, hc _ _⟩

/-- A run over the network is a run by direct calls when every day is. -/
theorem runNet_runDays {step : σ → δ → Outcome (σ × ν)} {step' : σ → δ → Outcome σ}
    (h : ∀ s d s' n, step s d = .ok (s', n) → step' s d = .ok s') : ∀ (ds : List δ) (s s' : σ) (ns : List ν),
    runNet step s ds = .ok (s', ns) → runDays step' s ds = .ok s' ∧ ns.length = ds.length := by
  intro ds
  induction ds with
  | nil =>
    intro s s' ns e
    simp only [runNet, Outcome.ok.injEq, Prod.mk.injEq] at e
    exact ⟨by rw [runDays, e.1], by simp [← e.2]⟩
  | cons d ds ih =>
    intro s s' ns e
    simp only [runNet, Outcome.bind_eq_ok, Prod.exists, Outcome.pure_eq, Outcome.ok.injEq, Prod.mk.injEq] at e
    obtain ⟨s1, n, e1, s2, ns', e2, rfl, rfl⟩ := e
    obtain ⟨i1, i2⟩ := ih _ _ _ e2
    exact ⟨by rw [runDays, h _ _ _ _ e1, Outcome.bind_ok, i1], by simp [i2]⟩

/-- **C73** A message of at most 1 GiB reaches the peer unchanged; a longer one never reaches it: the step fails. -/
theorem C73_limit (m : CMsg) (r : SMsg) :
    ((serClient m).length ≤ 1073741824 → toServer m = .ok m) ∧ (1073741824 < (serClient m).length → ∃ e, toServer m = .err e) ∧
    ((serServer r).length ≤ 1073741824 → toClient r = .ok r) ∧ (1073741824 < (serServer r).length → ∃ e, toClient r = .err e) := by
  have hM : maxMessage = 1073741824 := by unfold maxMessage; norm_num
  refine ⟨fun h => toServer_iff.2 ⟨rfl, by omega⟩, fun h => ?_, fun h => toClient_iff.2 ⟨rfl, by omega⟩, fun h => ?_⟩
  · exact ⟨_, by rw [toServer, if_neg (by omega)]⟩
  · exact ⟨_, by rw [toClient, if_neg (by omega)]⟩

end Upsi.Main
