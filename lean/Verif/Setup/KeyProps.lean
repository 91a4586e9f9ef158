import Verif.Setup.KeyLemmas
import Verif.Paillier.Threshold
import Verif.ElGamal.Props
import Verif.Curve.OracleProps
import Verif.Curve.CipherProps
/- Property theorems C55 (key setup). -/
namespace Upsi.Setup
open Upsi Upsi.Rec Upsi.ElGamal Upsi.Paillier Upsi.Num

/-- What the files of `fs` say: reading message type `N` from `name` gives `m`. -/
def Reads {N : Type} (fs : FS) (parse : Bytes → N) (name : String) (m : N) : Prop := readKey parse name fs = .ok m

/-- Two file systems agree outside the files of the given names. -/
def SameExcept (fs fs' : FS) (names : List String) : Prop :=
  fs'.writable = fs.writable ∧ ∀ n, n ∉ names.map canon → fs'.data n = fs.data n

theorem Reads.keep {N : Type} {fs fs' : FS} {parse : Bytes → N} {name : String} {m : N} {names : List String}
    (h : Reads fs parse name m) (hs : SameExcept fs fs' names) (hn : canon name ∉ names.map canon) :
    Reads fs' parse name m := by
  unfold Reads readKey readProtoFromFile openRead at *
  rw [hs.2 _ hn]
  exact h

theorem SameExcept.trans {a b c : FS} {l l' : List String} (h : SameExcept a b l) (h' : SameExcept b c l') :
    SameExcept a c (l ++ l') := by
  refine ⟨h'.1.trans h.1, fun n hn => ?_⟩
  rw [List.map_append, List.mem_append, not_or] at hn
  rw [h'.2 n hn.2, h.2 n hn.1]

theorem write_spec {M N : Type} {ser : M → Bytes} {parse : Bytes → N} {m : M} {name : String} {fs fs' : FS} {m' : N}
    (hp : (ser m).length < 2 ^ 31 → parse (ser m) = m') (h : writeKey ser m name fs = .ok fs') :
    (∀ name', canon name' = canon name → Reads fs' parse name' m') ∧ SameExcept fs fs' [name] := by
  obtain ⟨hl, _, rfl⟩ := writeKey_ok h
  refine ⟨fun name' hn => ?_, rfl, fun n hn => ?_⟩
  · rw [Reads, readKey_same hl hn, hp hl]
  · simp only [List.map_cons, List.map_nil, List.mem_singleton] at hn
    simp [FS.set, hn]

section
variable {G : Type} [AddCommGroup G] [DecidableEq G]

theorem pointToBytes_inv {c : Codec G} {x : G} {b : Bytes} (h : pointToBytes c x = .ok b) : x ≠ 0 ∧ b = c.enc x := by
  unfold pointToBytes at h
  split at h
  · simp at h
  · exact ⟨by assumption, by simpa using h.symm⟩

theorem serializePublicKey_inv {c : Codec G} {pk : PK G} {m : PkProto} (h : serializePublicKey c pk = .ok m) :
    pk.g ≠ 0 ∧ pk.y ≠ 0 ∧ m = ⟨c.enc pk.g, c.enc pk.y⟩ := by
  simp only [serializePublicKey, Outcome.bind_eq_ok, Outcome.pure_eq, Outcome.ok.injEq] at h
  obtain ⟨a, ha, b, hb, rfl⟩ := h
  obtain ⟨h1, rfl⟩ := pointToBytes_inv ha
  obtain ⟨h2, rfl⟩ := pointToBytes_inv hb
  exact ⟨h1, h2, rfl⟩

theorem serializePublicKey_ok (c : Codec G) {pk : PK G} (hg : pk.g ≠ 0) (hy : pk.y ≠ 0) :
    serializePublicKey c pk = .ok ⟨c.enc pk.g, c.enc pk.y⟩ := by
  simp [serializePublicKey, Curve.pointToBytes_ok c hg, Curve.pointToBytes_ok c hy]

theorem deserializePublicKey_ok (c : Codec G) {g y : G} (hg : g ≠ 0) (hy : y ≠ 0) :
    deserializePublicKey c ⟨c.enc g, c.enc y⟩ = .ok ⟨g, y⟩ := by
  simp [deserializePublicKey, Curve.createECPoint_enc c hg, Curve.createECPoint_enc c hy]

/-- Private keys drawn by the group lie in `[1, order)`. -/
theorem privateKey_range {coin order : Nat} {x : Int} (h : Curve.generatePrivateKey coin order = .ok x) :
    1 ≤ x ∧ x < order := by
  obtain ⟨h1, _, h3⟩ := Curve.C58_between 1 order
  by_cases ho : (1 : Int) < order
  · obtain ⟨v, e, l, u⟩ := h1 ho coin
    have : x = v := Outcome.ok.inj (h.symm.trans e)
    omega
  · have := h3 (by omega) coin
    unfold Curve.generatePrivateKey at h
    rw [this] at h
    simp at h

theorem genPair_spec {c : Codec G} {g : G} {order coin : Nat} {pubFn prvFn : String} {fs fs' : FS}
    (h : generateElGamalKeyPair c g order coin pubFn prvFn fs = .ok fs') (hne : canon pubFn ≠ canon prvFn) :
    ∃ x, Curve.generatePrivateKey coin order = .ok x ∧ 1 ≤ x ∧ x < order ∧ g ≠ 0 ∧ x • g ≠ 0 ∧
      (∀ n, canon n = canon pubFn → Reads fs' PkProto.parse n ⟨c.enc g, c.enc (x • g)⟩) ∧
      (∀ n, canon n = canon prvFn → Reads fs' SkProto.parse n ⟨natBytes x.toNat⟩) ∧
      SameExcept fs fs' [pubFn, prvFn] := by
  simp only [generateElGamalKeyPair, Outcome.bind_eq_ok] at h
  obtain ⟨x, hx, pub, hpub, prv, hprv, f1, h1, h2⟩ := h
  obtain ⟨hr1, hr2⟩ := privateKey_range hx
  obtain ⟨hg, hy, rfl⟩ := serializePublicKey_inv hpub
  have hprv' : prv = ⟨natBytes x.toNat⟩ := by
    simp only [serializePrivateKey, keyPair, toBytes_ok (show (0 : Int) ≤ x by omega), Outcome.bind_ok, Outcome.pure_eq,
      Outcome.ok.injEq] at hprv
    exact hprv.symm
  subst hprv'
  obtain ⟨a1, a2⟩ := write_spec (PkProto.parse_ser _) h1
  obtain ⟨b1, b2⟩ := write_spec (SkProto.parse_ser _) h2
  refine ⟨x, hx, hr1, hr2, hg, hy, fun n hn => (a1 n hn).keep b2 ?_, b1, a2.trans b2⟩
  simp only [List.map_cons, List.map_nil, List.mem_singleton, hn]
  exact hne

theorem genPair_succeeds {c : Codec G} {g : G} {order coin : Nat} {pubFn prvFn : String} {fs : FS} {x : Int}
    (hx : Curve.generatePrivateKey coin order = .ok x) (hg : g ≠ 0) (hy : x • g ≠ 0)
    (hw : fs.writable (canon pubFn) = true) (hw' : fs.writable (canon prvFn) = true)
    (hl : (PkProto.ser ⟨c.enc g, c.enc (x • g)⟩).length < 2 ^ 31) (hl' : (SkProto.ser ⟨natBytes x.toNat⟩).length < 2 ^ 31) :
    ∃ fs', generateElGamalKeyPair c g order coin pubFn prvFn fs = .ok fs' := by
  obtain ⟨hr1, hr2⟩ := privateKey_range hx
  have e : serializePublicKey c (keyPair g x).1 = .ok ⟨c.enc g, c.enc (x • g)⟩ := serializePublicKey_ok c hg hy
  have e' : serializePrivateKey (keyPair g x).2 = .ok ⟨natBytes x.toNat⟩ := by
    simp [serializePrivateKey, keyPair, toBytes_ok (show (0 : Int) ≤ x by omega)]
  simp only [generateElGamalKeyPair, hx, Outcome.bind_ok, e, e', writeKey_succeeds hl hw]
  exact ⟨_, writeKey_succeeds hl' hw'⟩

theorem joint_run {c : Codec G} {g y0 y1 : G} (hg : g ≠ 0) (h0 : y0 ≠ 0) (h1 : y1 ≠ 0) {f0 f1 outFn : String} {fs : FS}
    (r0 : Reads fs PkProto.parse f0 ⟨c.enc g, c.enc y0⟩) (r1 : Reads fs PkProto.parse f1 ⟨c.enc g, c.enc y1⟩) :
    computeJointElGamalPublicKey c [f0, f1] outFn fs =
      (serializePublicKey c ⟨g, y0 + y1⟩ >>= fun m => writeKey PkProto.ser m outFn fs) := by
  have hs : readShares c fs [f0, f1] = .ok [⟨g, y0⟩, ⟨g, y1⟩] := by
    rw [readShares, r0, Outcome.bind_ok, deserializePublicKey_ok c hg h0, Outcome.bind_ok, readShares, r1, Outcome.bind_ok,
      deserializePublicKey_ok c hg h1]
    rfl
  have hj : fromShares [(⟨g, y0⟩ : PK G), ⟨g, y1⟩] = .ok ⟨g, y0 + y1⟩ := by
    simp [fromShares, addShares]
  rw [computeJointElGamalPublicKey, if_neg (by simp), hs, Outcome.bind_ok, hj, Outcome.bind_ok]

theorem joint_spec {c : Codec G} {g y0 y1 : G} (hg : g ≠ 0) (h0 : y0 ≠ 0) (h1 : y1 ≠ 0) {f0 f1 outFn : String} {fs fs' : FS}
    (r0 : Reads fs PkProto.parse f0 ⟨c.enc g, c.enc y0⟩) (r1 : Reads fs PkProto.parse f1 ⟨c.enc g, c.enc y1⟩)
    (h : computeJointElGamalPublicKey c [f0, f1] outFn fs = .ok fs') :
    y0 + y1 ≠ 0 ∧ (∀ n, canon n = canon outFn → Reads fs' PkProto.parse n ⟨c.enc g, c.enc (y0 + y1)⟩) ∧
      SameExcept fs fs' [outFn] := by
  rw [joint_run hg h0 h1 r0 r1, Outcome.bind_eq_ok] at h
  obtain ⟨m, hm, hw⟩ := h
  obtain ⟨_, hy, rfl⟩ := serializePublicKey_inv hm
  obtain ⟨a1, a2⟩ := write_spec (PkProto.parse_ser _) hw
  exact ⟨hy, a1, a2⟩

end

theorem tkProto_inv {k : TKey} {m : TkProto} (h : tkProto k = .ok m) : m.key = k := by
  simp only [tkProto, Outcome.bind_eq_ok, Outcome.pure_eq, Outcome.ok.injEq] at h
  obtain ⟨a, ha, b, hb, rfl⟩ := h
  simp [TkProto.key, ofBytes_toBytes ha, ofBytes_toBytes hb]

theorem genThreshold_spec {k : TCoins} {f0 f1 : String} {fs fs' : FS} (hne : canon f0 ≠ canon f1)
    (h : generateThresholdPaillierKeys k f0 f1 fs = .ok fs') :
    ∃ k0 k1 m0 m1, thresholdKeys k.p k.q k.r1 k.r2 k.sk1 = .ok (k0, k1) ∧ TkProto.key m0 = k0 ∧ TkProto.key m1 = k1 ∧
      (∀ n, canon n = canon f0 → Reads fs' TkProto.parse n m0) ∧ (∀ n, canon n = canon f1 → Reads fs' TkProto.parse n m1) ∧
      SameExcept fs fs' [f0, f1] := by
  simp only [generateThresholdPaillierKeys, Outcome.bind_eq_ok, Prod.exists] at h
  obtain ⟨k0, k1, hk, m0, hm0, m1, hm1, fs1, h1, h2⟩ := h
  obtain ⟨a1, a2⟩ := write_spec (TkProto.parse_ser _) h1
  obtain ⟨b1, b2⟩ := write_spec (TkProto.parse_ser _) h2
  refine ⟨k0, k1, m0, m1, hk, tkProto_inv hm0, tkProto_inv hm1, fun n hn => (a1 n hn).keep b2 ?_, b1, a2.trans b2⟩
  simp only [List.map_cons, List.map_nil, List.mem_singleton, hn]
  exact hne

/-! ### the three setups -/

/-- The files written by `addition/setup.cc` (keys). -/
def additionFiles (out : String) : List String :=
  [out ++ "p0/" ++ "/elgamal.pub", out ++ "p0/" ++ "/elgamal.key", out ++ "p1/" ++ "/elgamal.pub", out ++ "p1/" ++ "/elgamal.key",
   out ++ "p0/" ++ "shared.pub", out ++ "p1/" ++ "shared.pub", out ++ "p0/" ++ "paillier.key", out ++ "p1/" ++ "paillier.key"]

theorem name_ne (out d f d' f' : String) (h : (d.toList ++ f.toList).head? = some 'p')
    (h' : (d'.toList ++ f'.toList).head? = some 'p') (hn : squeeze (d.toList ++ f.toList) ≠ squeeze (d'.toList ++ f'.toList)) :
    canon (out ++ d ++ f) ≠ canon (out ++ d' ++ f') := fun e => hn ((canon_out_iff out d f d' f' h h').1 e)

theorem name_eq (out d f d' f' : String) (h : (d.toList ++ f.toList).head? = some 'p')
    (h' : (d'.toList ++ f'.toList).head? = some 'p') (hn : squeeze (d.toList ++ f.toList) = squeeze (d'.toList ++ f'.toList)) :
    canon (out ++ d ++ f) = canon (out ++ d' ++ f') := (canon_out_iff out d f d' f' h h').2 hn

section
variable {G : Type} [AddCommGroup G] [DecidableEq G]

theorem deserializePrivateKey_nat {x : Int} (h : 0 ≤ x) : deserializePrivateKey ⟨natBytes x.toNat⟩ = .ok x := by
  simp [deserializePrivateKey, ofBytes_natBytes, h]

/-- **C55** When `addition/setup.cc` succeeds, for any output directory, codec, group and coins, the two parties
started on that directory read: the same joint public key, which belongs to the sum of their private keys; their own
private keys, as drawn; and the two halves of one threshold Paillier key.  Setup touched no other file. -/
theorem C55_addition (c : Codec G) (g : G) (order coin0 coin1 : Nat) (k : TCoins) (out : String) (fs fs' : FS)
    (h : setupAddition c g order coin0 coin1 k out fs = .ok fs') :
    ∃ x0 x1 k0 k1, Curve.generatePrivateKey coin0 order = .ok x0 ∧ Curve.generatePrivateKey coin1 order = .ok x1 ∧
      thresholdKeys k.p k.q k.r1 k.r2 k.sk1 = .ok (k0, k1) ∧
      additionParty c out "p0" fs' = .ok ⟨(keyPair g (x0 + x1)).1, x0, k0⟩ ∧
      additionParty c out "p1" fs' = .ok ⟨(keyPair g (x0 + x1)).1, x1, k1⟩ ∧
      SameExcept fs fs' (additionFiles out) := by
  simp only [setupAddition, generateThresholdKeys, Outcome.bind_eq_ok] at h
  obtain ⟨f1, h1, f2, h2, f3, h3, f4, h4, h5⟩ := h
  have nn : ∀ (d f d' f' : String), (d.toList ++ f.toList).head? = some 'p' → (d'.toList ++ f'.toList).head? = some 'p' →
      squeeze (d.toList ++ f.toList) ≠ squeeze (d'.toList ++ f'.toList) →
      canon (out ++ d ++ f) ≠ canon (out ++ d' ++ f') := fun d f d' f' => name_ne out d f d' f'
  have ne := fun (d f d' f' : String) a b e => name_eq out d f d' f' a b e
  obtain ⟨x0, hx0, p0, q0, hg, hy0, a1, a2, a3⟩ := genPair_spec h1 (nn _ _ _ _ (by decide) (by decide) (by decide))
  obtain ⟨x1, hx1, p1, q1, -, hy1, b1, b2, b3⟩ := genPair_spec h2 (nn _ _ _ _ (by decide) (by decide) (by decide))
  have r0 : Reads f2 PkProto.parse (out ++ "p0/" ++ "elgamal.pub") ⟨c.enc g, c.enc (x0 • g)⟩ := by
    refine (a1 _ (ne _ _ _ _ (by decide) (by decide) (by decide))).keep b3 ?_
    simp only [List.map_cons, List.map_nil, List.mem_cons, List.not_mem_nil, or_false, not_or]
    exact ⟨nn _ _ _ _ (by decide) (by decide) (by decide), nn _ _ _ _ (by decide) (by decide) (by decide)⟩
  have r1 : Reads f2 PkProto.parse (out ++ "p1/" ++ "elgamal.pub") ⟨c.enc g, c.enc (x1 • g)⟩ :=
    b1 _ (ne _ _ _ _ (by decide) (by decide) (by decide))
  obtain ⟨hj, c1, c2⟩ := joint_spec hg hy0 hy1 r0 r1 h3
  have r0' := r0.keep c2 (by
    simp only [List.map_cons, List.map_nil, List.mem_singleton]
    exact nn _ _ _ _ (by decide) (by decide) (by decide))
  have r1' := r1.keep c2 (by
    simp only [List.map_cons, List.map_nil, List.mem_singleton]
    exact nn _ _ _ _ (by decide) (by decide) (by decide))
  obtain ⟨-, d1, d2⟩ := joint_spec hg hy0 hy1 r0' r1' h4
  obtain ⟨k0, k1, m0, m1, hk, hm0, hm1, e1, e2, e3⟩ := genThreshold_spec (nn _ _ _ _ (by decide) (by decide) (by decide)) h5
  have hsum : x0 • g + x1 • g = (x0 + x1) • g := by module
  rw [hsum] at hj
  refine ⟨x0, x1, k0, k1, hx0, hx1, hk, ?_, ?_, ?_⟩
  · have s1 : Reads fs' PkProto.parse (out ++ "p0" ++ "/shared.pub") ⟨c.enc g, c.enc (x0 • g + x1 • g)⟩ := by
      refine ((c1 _ (ne _ _ _ _ (by decide) (by decide) (by decide))).keep d2 ?_).keep e3 ?_
      · simp only [List.map_cons, List.map_nil, List.mem_singleton]
        exact nn _ _ _ _ (by decide) (by decide) (by decide)
      · simp only [List.map_cons, List.map_nil, List.mem_cons, List.not_mem_nil, or_false, not_or]
        exact ⟨nn _ _ _ _ (by decide) (by decide) (by decide), nn _ _ _ _ (by decide) (by decide) (by decide)⟩
    have s2 : Reads fs' SkProto.parse (out ++ "p0" ++ "/elgamal.key") ⟨natBytes x0.toNat⟩ := by
      refine ((((a2 _ (ne _ _ _ _ (by decide) (by decide) (by decide))).keep b3 ?_).keep c2 ?_).keep d2 ?_).keep e3 ?_ <;>
        simp only [List.map_cons, List.map_nil, List.mem_cons, List.not_mem_nil, or_false, not_or]
      · exact ⟨nn _ _ _ _ (by decide) (by decide) (by decide), nn _ _ _ _ (by decide) (by decide) (by decide)⟩
      · exact nn _ _ _ _ (by decide) (by decide) (by decide)
      · exact nn _ _ _ _ (by decide) (by decide) (by decide)
      · exact ⟨nn _ _ _ _ (by decide) (by decide) (by decide), nn _ _ _ _ (by decide) (by decide) (by decide)⟩
    have s3 := e1 (out ++ "p0" ++ "/paillier.key") (ne _ _ _ _ (by decide) (by decide) (by decide))
    rw [hsum] at s1
    unfold Reads at s1 s2 s3
    simp only [additionParty, s1, s2, s3, valueOf_ok, Outcome.bind_ok, deserializePublicKey_ok c hg hj,
      deserializePrivateKey_nat (show 0 ≤ x0 by omega), hm0, Outcome.pure_eq, keyPair]
  · have s1 : Reads fs' PkProto.parse (out ++ "p1" ++ "/shared.pub") ⟨c.enc g, c.enc (x0 • g + x1 • g)⟩ := by
      refine (d1 _ (ne _ _ _ _ (by decide) (by decide) (by decide))).keep e3 ?_
      simp only [List.map_cons, List.map_nil, List.mem_cons, List.not_mem_nil, or_false, not_or]
      exact ⟨nn _ _ _ _ (by decide) (by decide) (by decide), nn _ _ _ _ (by decide) (by decide) (by decide)⟩
    have s2 : Reads fs' SkProto.parse (out ++ "p1" ++ "/elgamal.key") ⟨natBytes x1.toNat⟩ := by
      refine (((b2 _ (ne _ _ _ _ (by decide) (by decide) (by decide))).keep c2 ?_).keep d2 ?_).keep e3 ?_ <;>
        simp only [List.map_cons, List.map_nil, List.mem_cons, List.not_mem_nil, or_false, not_or]
      · exact nn _ _ _ _ (by decide) (by decide) (by decide)
      · exact nn _ _ _ _ (by decide) (by decide) (by decide)
      · exact ⟨nn _ _ _ _ (by decide) (by decide) (by decide), nn _ _ _ _ (by decide) (by decide) (by decide)⟩
    have s3 := e2 (out ++ "p1" ++ "/paillier.key") (ne _ _ _ _ (by decide) (by decide) (by decide))
    rw [hsum] at s1
    unfold Reads at s1 s2 s3
    simp only [additionParty, s1, s2, s3, valueOf_ok, Outcome.bind_ok, deserializePublicKey_ok c hg hj,
      deserializePrivateKey_nat (show 0 ≤ x1 by omega), hm1, Outcome.pure_eq, keyPair]
  · exact (((a3.trans b3).trans c2).trans d2).trans e3

/-- **C55** ... so the keys work together: whatever either party encrypts under its joint key is opened by the other's
partial decryption followed by the own decryption, in either order, and every threshold Paillier ciphertext is opened by
either party with the other's partial decryption. -/
theorem C55_addition_works (c : Codec G) (g : G) (order coin0 coin1 : Nat) (k : TCoins) (out : String) (fs fs' : FS)
    (h : setupAddition c g order coin0 coin1 k out fs = .ok fs') (p q : Nat) (hp : k.p = p) (hq : k.q = q)
    (hpq : Primes p q 1) :
    ∃ a b, additionParty c out "p0" fs' = .ok a ∧ additionParty c out "p1" fs' = .ok b ∧ a.pk = b.pk ∧
      (∀ (r : Int) (m : G), decrypt b.sk (ElGamal.partialDecrypt a.sk (encryptPoint a.pk r m)) = m ∧
        decrypt a.sk (ElGamal.partialDecrypt b.sk (encryptPoint b.pk r m)) = m) ∧
      (∀ (ct : Int) (m : Nat), m < p * q → IsEnc (p * q) 1 ct m →
        (∃ part, Paillier.partialDecrypt b.paillier ct = .ok part ∧ decryptT a.paillier ct part = .ok m) ∧
        (∃ part, Paillier.partialDecrypt a.paillier ct = .ok part ∧ decryptT b.paillier ct part = .ok m)) := by
  obtain ⟨x0, x1, k0, k1, _, _, hk, ha, hb, _⟩ := C55_addition c g order coin0 coin1 k out fs fs' h
  refine ⟨_, _, ha, hb, rfl, fun r m => ?_, fun ct m hm hc => ?_⟩
  · constructor <;> simp only [decrypt, ElGamal.partialDecrypt, encryptPoint, keyPair] <;> module
  · rw [hp, hq] at hk
    have := C23_decrypt hpq (C23_keys (by have := hpq.p5; omega) (by have := hpq.q5; omega) hk) hc
    rw [Nat.mod_eq_of_lt hm] at this
    exact this

/-- **C55** After `original/setup.cc` each party holds its own key pair and the peer's public key. -/
theorem C55_original (c : Codec G) (g : G) (order coin0 coin1 : Nat) (out : String) (fs fs' : FS)
    (h : setupOriginal c g order coin0 coin1 out fs = .ok fs') :
    ∃ x0 x1, Curve.generatePrivateKey coin0 order = .ok x0 ∧ Curve.generatePrivateKey coin1 order = .ok x1 ∧
      originalParty c out "p0" "p1" fs' = .ok ⟨(keyPair g x0).1, (keyPair g x1).1, x0⟩ ∧
      originalParty c out "p1" "p0" fs' = .ok ⟨(keyPair g x1).1, (keyPair g x0).1, x1⟩ ∧
      SameExcept fs fs' [out ++ "p0/" ++ "/elgamal.pub", out ++ "p0/" ++ "/elgamal.key", out ++ "p1/" ++ "/elgamal.pub",
        out ++ "p1/" ++ "/elgamal.key"] := by
  simp only [setupOriginal, generateElGamalKeys, Outcome.bind_eq_ok] at h
  obtain ⟨f1, h1, h2⟩ := h
  have nn := fun (d f d' f' : String) a b e => name_ne out d f d' f' a b e
  have ne := fun (d f d' f' : String) a b e => name_eq out d f d' f' a b e
  obtain ⟨x0, hx0, p0, q0, hg, hy0, a1, a2, a3⟩ := genPair_spec h1 (nn _ _ _ _ (by decide) (by decide) (by decide))
  obtain ⟨x1, hx1, p1, q1, -, hy1, b1, b2, b3⟩ := genPair_spec h2 (nn _ _ _ _ (by decide) (by decide) (by decide))
  have r0 : Reads fs' PkProto.parse (out ++ "p0" ++ "/elgamal.pub") ⟨c.enc g, c.enc (x0 • g)⟩ := by
    refine (a1 _ (ne _ _ _ _ (by decide) (by decide) (by decide))).keep b3 ?_
    simp only [List.map_cons, List.map_nil, List.mem_cons, List.not_mem_nil, or_false, not_or]
    exact ⟨nn _ _ _ _ (by decide) (by decide) (by decide), nn _ _ _ _ (by decide) (by decide) (by decide)⟩
  have r1 : Reads fs' PkProto.parse (out ++ "p1" ++ "/elgamal.pub") ⟨c.enc g, c.enc (x1 • g)⟩ :=
    b1 _ (ne _ _ _ _ (by decide) (by decide) (by decide))
  have s0 : Reads fs' SkProto.parse (out ++ "p0" ++ "/elgamal.key") ⟨natBytes x0.toNat⟩ := by
    refine (a2 _ (ne _ _ _ _ (by decide) (by decide) (by decide))).keep b3 ?_
    simp only [List.map_cons, List.map_nil, List.mem_cons, List.not_mem_nil, or_false, not_or]
    exact ⟨nn _ _ _ _ (by decide) (by decide) (by decide), nn _ _ _ _ (by decide) (by decide) (by decide)⟩
  have s1 : Reads fs' SkProto.parse (out ++ "p1" ++ "/elgamal.key") ⟨natBytes x1.toNat⟩ :=
    b2 _ (ne _ _ _ _ (by decide) (by decide) (by decide))
  unfold Reads at r0 r1 s0 s1
  refine ⟨x0, x1, hx0, hx1, ?_, ?_, a3.trans b3⟩
  · simp only [originalParty, r0, r1, s0, valueOf_ok, Outcome.bind_ok, deserializePublicKey_ok c hg hy0,
      deserializePublicKey_ok c hg hy1, deserializePrivateKey_nat (show 0 ≤ x0 by omega), Outcome.pure_eq, keyPair]
  · simp only [originalParty, r0, r1, s1, valueOf_ok, Outcome.bind_ok, deserializePublicKey_ok c hg hy0,
      deserializePublicKey_ok c hg hy1, deserializePrivateKey_nat (show 0 ≤ x1 by omega), Outcome.pure_eq, keyPair]

end

theorem paillierKeyPair_inv {ml p q : Int} {m : PubProto × PrivProto} (h : paillierKeyPair ml p q 1 = .ok m) :
    0 ≤ p ∧ 0 ≤ q ∧ ((ofBytes m.1.n : Nat) : Int) = p * q ∧ m.1.s = 1 ∧ ((ofBytes m.2.p : Nat) : Int) = p ∧
      ((ofBytes m.2.q : Nat) : Int) = q ∧ m.2.s = 1 := by
  unfold paillierKeyPair at h
  split at h
  · simp at h
  · simp only [Outcome.bind_eq_ok, Outcome.pure_eq, Outcome.ok.injEq] at h
    obtain ⟨a, ha, b, hb, n, hn, rfl⟩ := h
    have h1 := ofBytes_toBytes ha
    have h2 := ofBytes_toBytes hb
    exact ⟨by omega, by omega, ofBytes_toBytes hn, rfl, h1, h2, rfl⟩

/-- **C55** After `deletion/setup.cc` or `deletion-psi/setup.cc` each party reads its own private Paillier key and the
public key of the *other* party's modulus, both with exponent one. -/
theorem C55_deletion (ml p0 q0 p1 q1 : Int) (out : String) (fs fs' : FS) (tries : Nat) (x : Int)
    (h : setupDeletion ml p0 q0 p1 q1 out fs = .ok fs') :
    (deletionParty tries x out "p0" fs' = do
      let priv ← Private.new tries p0 q0 1
      let pub ← Public.new x (p1 * q1) 1
      pure (priv, pub)) ∧
    (deletionParty tries x out "p1" fs' = do
      let priv ← Private.new tries p1 q1 1
      let pub ← Public.new x (p0 * q0) 1
      pure (priv, pub)) ∧
    SameExcept fs fs' [out ++ "p1/" ++ "paillier.pub", out ++ "p0/" ++ "paillier.key", out ++ "p0/" ++ "paillier.pub",
      out ++ "p1/" ++ "paillier.key"] := by
  simp only [setupDeletion, generatePaillierKeys, Outcome.bind_eq_ok] at h
  obtain ⟨k0, hk0, k1, hk1, f1, h1, f2, h2, f3, h3, h4⟩ := h
  obtain ⟨_, _, n0, s0, e0, g0, t0⟩ := paillierKeyPair_inv hk0
  obtain ⟨_, _, n1, s1, e1, g1, t1⟩ := paillierKeyPair_inv hk1
  have nn := fun (d f d' f' : String) a b e => name_ne out d f d' f' a b e
  have ne := fun (d f d' f' : String) a b e => name_eq out d f d' f' a b e
  obtain ⟨a1, a2⟩ := write_spec (PubProto.parse_ser _ (by rw [s0]; norm_num)) h1
  obtain ⟨b1, b2⟩ := write_spec (PrivProto.parse_ser _ (by rw [t0]; norm_num)) h2
  obtain ⟨c1, c2⟩ := write_spec (PubProto.parse_ser _ (by rw [s1]; norm_num)) h3
  obtain ⟨d1, d2⟩ := write_spec (PrivProto.parse_ser _ (by rw [t1]; norm_num)) h4
  have r1 : Reads fs' PubProto.parse (out ++ "p1" ++ "/paillier.pub") k0.1 := by
    refine (((a1 _ (ne _ _ _ _ (by decide) (by decide) (by decide))).keep b2 ?_).keep c2 ?_).keep d2 ?_ <;>
      simp only [List.map_cons, List.map_nil, List.mem_cons, List.not_mem_nil, or_false] <;>
      exact nn _ _ _ _ (by decide) (by decide) (by decide)
  have r2 : Reads fs' PrivProto.parse (out ++ "p0" ++ "/paillier.key") k0.2 := by
    refine ((b1 _ (ne _ _ _ _ (by decide) (by decide) (by decide))).keep c2 ?_).keep d2 ?_ <;>
      simp only [List.map_cons, List.map_nil, List.mem_cons, List.not_mem_nil, or_false] <;>
      exact nn _ _ _ _ (by decide) (by decide) (by decide)
  have r3 : Reads fs' PubProto.parse (out ++ "p0" ++ "/paillier.pub") k1.1 := by
    refine (c1 _ (ne _ _ _ _ (by decide) (by decide) (by decide))).keep d2 ?_
    simp only [List.map_cons, List.map_nil, List.mem_cons, List.not_mem_nil, or_false]
    exact nn _ _ _ _ (by decide) (by decide) (by decide)
  have r4 : Reads fs' PrivProto.parse (out ++ "p1" ++ "/paillier.key") k1.2 :=
    d1 _ (ne _ _ _ _ (by decide) (by decide) (by decide))
  unfold Reads at r1 r2 r3 r4
  refine ⟨?_, ?_, ((a2.trans b2).trans c2).trans d2⟩
  · simp only [deletionParty, r2, r3, valueOf_ok, Outcome.bind_ok, e0, g0, t0, n1, s1]
  · simp only [deletionParty, r4, r1, valueOf_ok, Outcome.bind_ok, e1, g1, t1, n0, s0]

/-- **C55** ... so what one party encrypts under the public key it was given is decrypted by the other one's private key,
in both directions. -/
theorem C55_deletion_works (ml : Int) (p0 q0 p1 q1 : Nat) (out : String) (fs fs' : FS) (tries : Nat) (x0 x1 : Int)
    (h : setupDeletion ml p0 q0 p1 q1 out fs = .ok fs') (h0 : Primes p0 q0 1) (h1 : Primes p1 q1 1)
    (hx0 : Int.gcd x0 ((p1 * q1 : Nat) : Int) = 1) (hx1 : Int.gcd x1 ((p0 * q0 : Nat) : Int) = 1)
    {a b : Private × Public} (ha : deletionParty tries x0 out "p0" fs' = .ok a)
    (hb : deletionParty tries x1 out "p1" fs' = .ok b) {mont : Int → Option Mont} (hm : MontOK mont) (m : Nat) (r : Int)
    (hr : 0 ≤ r) :
    (m < p1 * q1 → r ≤ ((p1 * q1 : Nat) : Int) → ∃ ct, a.2.encrypt mont m r = .ok ct ∧ b.1.decrypt ct = .ok m) ∧
    (m < p0 * q0 → r ≤ ((p0 * q0 : Nat) : Int) → ∃ ct, b.2.encrypt mont m r = .ok ct ∧ a.1.decrypt ct = .ok m) := by
  obtain ⟨e0, -, -⟩ := C55_deletion ml p0 q0 p1 q1 out fs fs' tries x0 h
  obtain ⟨-, e1, -⟩ := C55_deletion ml p0 q0 p1 q1 out fs fs' tries x1 h
  rw [e0] at ha
  rw [e1] at hb
  simp only [Outcome.bind_eq_ok, Outcome.pure_eq, Outcome.ok.injEq] at ha hb
  obtain ⟨a1, ha1, a2, ha2, rfl⟩ := ha
  obtain ⟨b1, hb1, b2, hb2, rfl⟩ := hb
  constructor
  · intro hlt hrn
    exact C21_roundtrip h1 hm (by push_cast; exact ha2) hx0 hb1 m (by simpa using hlt) r hr hrn
  · intro hlt hrn
    exact C21_roundtrip h0 hm (by push_cast; exact hb2) hx1 ha1 m (by simpa using hlt) r hr hrn

/-- **C55** Key-pair generation is refused exactly when half of the modulus length or the exponent `s` is not positive. -/
theorem C55_pair_refused (ml : Int) (p q : Nat) (s : Nat) :
    ((∃ e, paillierKeyPair ml p q s = .err e) ↔ ml.tdiv 2 ≤ 0 ∨ s = 0) ∧
    (2 ≤ ml → 0 < s → ∃ a b, paillierKeyPair ml p q s = .ok (a, b) ∧ ofBytes a.n = p * q ∧ a.s = s ∧
      ofBytes b.p = p ∧ ofBytes b.q = q ∧ b.s = s) := by
  have hb : ∀ n : Nat, toBytes (n : Int) = .ok (natBytes n) := fun n => by simp [toBytes]
  have hpq : ((p : Int) * q) = ((p * q : Nat) : Int) := by push_cast; rfl
  unfold paillierKeyPair
  rw [hpq, hb, hb, hb]
  constructor
  · by_cases h : ml.tdiv 2 ≤ 0 ∨ s = 0
    · simp [h]
    · simp only [if_neg h, Outcome.bind_ok, h, iff_false]
      rintro ⟨e, he⟩
      cases he
  · intro h1 h2
    have h : ¬ (ml.tdiv 2 ≤ 0 ∨ s = 0) := by
      rw [Int.tdiv_eq_ediv_of_nonneg (by omega)]; omega
    refine ⟨⟨natBytes (p * q), s⟩, ⟨natBytes p, natBytes q, s⟩, ?_, ofBytes_natBytes _, rfl, ofBytes_natBytes _, ofBytes_natBytes _, rfl⟩
    simp only [if_neg h, Outcome.bind_ok]
    rfl

/-- **C55** An absent integer field reads as 0, an absent byte field as the empty string, and a varint cut off in the
middle ends the message: the fields before it are all that is read. -/
theorem C55_defaults (k : Nat) (l : List (Nat × WVal)) (n : Nat) :
    ((∀ v, (k, .varint v) ∉ l) → getInt32 k l = 0) ∧ ((∀ b, (k, .len b) ∉ l) → getBytes k l = []) ∧
    readVar n [] = none ∧ (∀ b : Bytes, (∀ x ∈ b, 128 ≤ x.toNat) → readVar n b = none) := by
  refine ⟨?_, ?_, by cases n <;> rfl, ?_⟩
  · intro h
    have : ∀ (l : List (Nat × WVal)), (∀ v, (k, .varint v) ∉ l) →
        l.foldl (fun (acc : Int) f => match f with | (n, .varint v) => if n = k then (v : Int) else acc | _ => acc) 0 = 0 := by
      intro l
      induction l with
      | nil => intro _; rfl
      | cons f l ih =>
        intro hl
        rw [List.foldl_cons]
        rcases f with ⟨n, v | b⟩
        · have : n ≠ k := by rintro rfl; exact hl v (by simp)
          simp only [if_neg this]
          exact ih (fun v hv => hl v (by simp [hv]))
        · exact ih (fun v hv => hl v (by simp [hv]))
    exact (congrArg int32 (this l h)).trans (by decide)
  · intro h
    unfold getBytes
    induction l with
    | nil => rfl
    | cons f l ih =>
      rw [List.foldl_cons]
      rcases f with ⟨n, v | b⟩
      · exact ih (fun v hv => h v (by simp [hv]))
      · have : n ≠ k := by rintro rfl; exact h b (by simp)
        simp only [if_neg this]
        exact ih (fun v hv => h v (by simp [hv]))
  · induction n with
    | zero => intro b _; rfl
    | succ n ih =>
      intro b hb
      cases b with
      | nil => rfl
      | cons x b =>
        have := hb x (by simp)
        rw [readVar, if_neg (by omega), ih b (fun y hy => hb y (by simp [hy]))]

end Upsi.Setup
