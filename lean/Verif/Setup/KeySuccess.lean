import Verif.Setup.KeyProps
/- C55 continued: when key setup succeeds, what happens when key files are missing, concrete instances. -/
namespace Upsi.Setup
open Upsi Upsi.Rec Upsi.ElGamal Upsi.Paillier Upsi.Num

theorem writeVarint_length : ∀ (k n : Nat), 0 < k → n < 128 ^ k → (writeVarint n).length ≤ k := by
  intro k
  induction k with
  | zero => intro n h; omega
  | succ k ih =>
    intro n _ hn
    rw [writeVarint]
    by_cases h : n < 128
    · rw [if_pos h]; simp
    · rw [if_neg h]
      have hk : 0 < k := by
        rcases Nat.eq_zero_or_pos k with rfl | hk
        · simp at hn; omega
        · exact hk
      have := ih (n / 128) hk (by rw [pow_succ] at hn; omega)
      simp only [List.length_cons]
      omega

theorem encField_length {k : Nat} {b : Bytes} {L : Nat} (hk : k < 16) (hb : b.length ≤ L) (hL : L ≤ 2 ^ 20) :
    (encField (k, .len b)).length ≤ L + 6 := by
  have h1 := writeVarint_length 2 (8 * k + 2) (by norm_num) (by norm_num; omega)
  have h2 := writeVarint_length 4 b.length (by norm_num) (by norm_num; omega)
  simp only [encField, List.length_append]
  omega

theorem pk_small {m : PkProto} {L : Nat} (hL : L ≤ 2 ^ 20) (h1 : m.g.length ≤ L) (h2 : m.y.length ≤ L) :
    m.ser.length < 2 ^ 31 := by
  have a := encField_length (k := 2) (by norm_num) h1 hL
  have b := encField_length (k := 3) (by norm_num) h2 hL
  simp only [PkProto.ser, encFields, List.flatMap_cons, List.flatMap_nil, List.append_nil, List.length_append]
  omega

theorem sk_small {m : SkProto} {L : Nat} (hL : L ≤ 2 ^ 20) (h1 : m.x.length ≤ L) : m.ser.length < 2 ^ 31 := by
  have a := encField_length (k := 1) (by norm_num) h1 hL
  simp only [SkProto.ser, encFields, List.flatMap_cons, List.flatMap_nil, List.append_nil]
  omega

theorem tk_small {m : TkProto} {L : Nat} (hL : L ≤ 2 ^ 20) (h1 : m.n.length ≤ L) (h2 : m.share.length ≤ L) :
    m.ser.length < 2 ^ 31 := by
  have a := encField_length (k := 1) (by norm_num) h1 hL
  have b := encField_length (k := 2) (by norm_num) h2 hL
  simp only [TkProto.ser, encFields, List.flatMap_cons, List.flatMap_nil, List.append_nil, List.length_append]
  omega

theorem natBytes_small {x : Int} {L : Nat} (h0 : 0 ≤ x) (h : x < (256 ^ L : Nat)) : (natBytes x.toNat).length ≤ L :=
  (natBytes_length_le _ _).2 (by omega)

theorem writeKey_total {M : Type} {ser : M → Bytes} {m : M} {name : String} {fs : FS} (hl : (ser m).length < 2 ^ 31)
    (hw : fs.writable (canon name) = true) : ∃ fs', writeKey ser m name fs = .ok fs' :=
  ⟨_, writeKey_succeeds hl hw⟩

section
variable {G : Type} [AddCommGroup G] [DecidableEq G]

/-- **C55** Key generation for the addition-only protocols, given writable files and keys of ordinary size (at most a
megabyte each), in a group of prime order: it succeeds exactly when the two private keys do not add up to the group
order; in that case the joint key would be the point at infinity and setup reports an error. -/
theorem C55_addition_succeeds (c : Codec G) (g : G) (order : Nat) (hp : order.Prime) (ho : ∀ x : G, (order : Int) • x = 0)
    (hg : g ≠ 0) (coin0 coin1 : Nat) (k : TCoins) (out : String) (fs : FS)
    (hw : ∀ n ∈ additionFiles out, fs.writable (canon n) = true)
    (L : Nat) (hL : L ≤ 2 ^ 20) (hc : ∀ x, (c.enc x).length ≤ L) (hoL : order ≤ 256 ^ L) {k0 k1 : TKey}
    (hk : thresholdKeys k.p k.q k.r1 k.r2 k.sk1 = .ok (k0, k1)) (hn : 0 ≤ k.p * k.q) (hnL : k.p * k.q < (256 ^ L : Nat))
    (h0L : k0.share < (256 ^ L : Nat)) (h1L : k1.share < (256 ^ L : Nat))
    {x0 x1 : Int} (hx0 : Curve.generatePrivateKey coin0 order = .ok x0)
    (hx1 : Curve.generatePrivateKey coin1 order = .ok x1) :
    (x0 + x1 ≠ order → ∃ fs', setupAddition c g order coin0 coin1 k out fs = .ok fs') ∧
    (x0 + x1 = order → setupAddition c g order coin0 coin1 k out fs = .err "EC_POINT_point2oct failed") := by
  obtain ⟨a0, b0⟩ := privateKey_range hx0
  obtain ⟨a1, b1⟩ := privateKey_range hx1
  have nz : ∀ x : Int, 1 ≤ x → x < order → x • g ≠ 0 := fun x h h' =>
    Curve.smul_ne_zero' hp ho (show Curve.ValidKey order x from ⟨h, by omega⟩) hg
  have hy0 := nz x0 a0 b0
  have hy1 := nz x1 a1 b1
  have w : ∀ n, n ∈ additionFiles out → ∀ f : FS, f.writable = fs.writable → f.writable (canon n) = true := by
    intro n h f hf; rw [hf]; exact hw n h
  have nn := fun (d f d' f' : String) a b e => name_ne out d f d' f' a b e
  have ne := fun (d f d' f' : String) a b e => name_eq out d f d' f' a b e
  obtain ⟨f1, h1⟩ := genPair_succeeds (c := c) (pubFn := out ++ "p0/" ++ "/elgamal.pub") (prvFn := out ++ "p0/" ++ "/elgamal.key")
    hx0 hg hy0 (w _ (by simp [additionFiles]) fs rfl) (w _ (by simp [additionFiles]) fs rfl)
    (pk_small hL (hc _) (hc _)) (sk_small hL (natBytes_small (by omega) (by omega)))
  obtain ⟨x0', hx0', -, -, -, -, p1, p2, p3⟩ := genPair_spec h1 (nn _ _ _ _ (by decide) (by decide) (by decide))
  obtain rfl : x0' = x0 := Outcome.ok.inj (hx0'.symm.trans hx0)
  obtain ⟨f2, h2⟩ := genPair_succeeds (c := c) (pubFn := out ++ "p1/" ++ "/elgamal.pub") (prvFn := out ++ "p1/" ++ "/elgamal.key")
    hx1 hg hy1 (w _ (by simp [additionFiles]) f1 p3.1) (w _ (by simp [additionFiles]) f1 p3.1)
    (pk_small hL (hc _) (hc _)) (sk_small hL (natBytes_small (by omega) (by omega)))
  obtain ⟨x1', hx1', -, -, -, -, q1, q2, q3⟩ := genPair_spec h2 (nn _ _ _ _ (by decide) (by decide) (by decide))
  obtain rfl : x1' = x1 := Outcome.ok.inj (hx1'.symm.trans hx1)
  have r0 : Reads f2 PkProto.parse (out ++ "p0/" ++ "elgamal.pub") ⟨c.enc g, c.enc (x0' • g)⟩ := by
    refine (p1 _ (ne _ _ _ _ (by decide) (by decide) (by decide))).keep q3 ?_
    simp only [List.map_cons, List.map_nil, List.mem_cons, List.not_mem_nil, or_false, not_or]
    exact ⟨nn _ _ _ _ (by decide) (by decide) (by decide), nn _ _ _ _ (by decide) (by decide) (by decide)⟩
  have r1 : Reads f2 PkProto.parse (out ++ "p1/" ++ "elgamal.pub") ⟨c.enc g, c.enc (x1' • g)⟩ :=
    q1 _ (ne _ _ _ _ (by decide) (by decide) (by decide))
  have hj := joint_run (outFn := out ++ "p0/" ++ "shared.pub") hg hy0 hy1 r0 r1
  constructor
  · intro hne
    have hsum : x0' • g + x1' • g ≠ 0 := by
      rw [← add_smul]
      by_cases hlt : x0' + x1' < order
      · exact nz _ (by omega) hlt
      · intro e
        refine nz (x0' + x1' - order) (by omega) (by omega) ?_
        rw [sub_smul, e, ho]; simp
    rw [serializePublicKey_ok c hg hsum, Outcome.bind_ok] at hj
    obtain ⟨f3, h3⟩ := writeKey_total (ser := PkProto.ser) (m := ⟨c.enc g, c.enc (x0' • g + x1' • g)⟩) (fs := f2)
      (name := out ++ "p0/" ++ "shared.pub") (pk_small hL (hc _) (hc _))
      (w _ (by simp [additionFiles]) f2 (q3.1.trans p3.1))
    rw [h3] at hj
    obtain ⟨-, -, s3⟩ := joint_spec hg hy0 hy1 r0 r1 hj
    have r0' := r0.keep s3 (by
      simp only [List.map_cons, List.map_nil, List.mem_singleton]
      exact nn _ _ _ _ (by decide) (by decide) (by decide))
    have r1' := r1.keep s3 (by
      simp only [List.map_cons, List.map_nil, List.mem_singleton]
      exact nn _ _ _ _ (by decide) (by decide) (by decide))
    have hj' := joint_run (outFn := out ++ "p1/" ++ "shared.pub") hg hy0 hy1 r0' r1'
    rw [serializePublicKey_ok c hg hsum, Outcome.bind_ok] at hj'
    obtain ⟨f4, h4⟩ := writeKey_total (ser := PkProto.ser) (m := ⟨c.enc g, c.enc (x0' • g + x1' • g)⟩) (fs := f3)
      (name := out ++ "p1/" ++ "shared.pub") (pk_small hL (hc _) (hc _))
      (w _ (by simp [additionFiles]) f3 (s3.1.trans (q3.1.trans p3.1)))
    rw [h4] at hj'
    obtain ⟨-, -, s4⟩ := joint_spec hg hy0 hy1 r0' r1' hj'
    -- the Paillier part
    have hkk : 0 ≤ k0.share ∧ 0 ≤ k1.share ∧ k0.n = k.p * k.q ∧ k1.n = k.p * k.q := by
      simp only [thresholdKeys, Outcome.bind_eq_ok] at hk
      obtain ⟨_, _, _, _, hk⟩ := hk
      split at hk
      · simp at hk
      simp only [Outcome.bind_eq_ok] at hk
      obtain ⟨_, _, hk⟩ := hk
      split at hk
      · simp at hk
      split at hk
      · simp at hk
      split at hk
      · simp at hk
      simp only [Outcome.pure_eq, Outcome.ok.injEq, Prod.mk.injEq] at hk
      obtain ⟨rfl, rfl⟩ := hk
      refine ⟨?_, ?_, rfl, rfl⟩ <;> simp only <;> omega
    obtain ⟨s0, s1, n0, n1⟩ := hkk
    have t0 : tkProto k0 = .ok ⟨natBytes k0.n.toNat, natBytes k0.share.toNat⟩ := by
      simp [tkProto, toBytes_ok (show 0 ≤ k0.n by omega), toBytes_ok s0]
    have t1 : tkProto k1 = .ok ⟨natBytes k1.n.toNat, natBytes k1.share.toNat⟩ := by
      simp [tkProto, toBytes_ok (show 0 ≤ k1.n by omega), toBytes_ok s1]
    obtain ⟨f5, h5⟩ := writeKey_total (ser := TkProto.ser) (m := ⟨natBytes k0.n.toNat, natBytes k0.share.toNat⟩) (fs := f4)
      (name := out ++ "p0/" ++ "paillier.key")
      (tk_small hL (natBytes_small (by omega) (by omega)) (natBytes_small s0 h0L))
      (w _ (by simp [additionFiles]) f4 (s4.1.trans (s3.1.trans (q3.1.trans p3.1))))
    have f5w : f5.writable = fs.writable := by
      obtain ⟨-, -, rfl⟩ := writeKey_ok h5
      exact s4.1.trans (s3.1.trans (q3.1.trans p3.1))
    obtain ⟨f6, h6⟩ := writeKey_total (ser := TkProto.ser) (m := ⟨natBytes k1.n.toNat, natBytes k1.share.toNat⟩) (fs := f5)
      (name := out ++ "p1/" ++ "paillier.key")
      (tk_small hL (natBytes_small (by omega) (by omega)) (natBytes_small s1 h1L))
      (w _ (by simp [additionFiles]) f5 f5w)
    refine ⟨f6, ?_⟩
    simp only [setupAddition, generateThresholdKeys, h1, h2, hj, hj', Outcome.bind_ok, generateThresholdPaillierKeys, hk, t0, t1,
      h5, h6]
  · intro heq
    have hz : x0' • g + x1' • g = 0 := by rw [← add_smul, heq, ho]
    have hs : serializePublicKey c ⟨g, x0' • g + x1' • g⟩ = .err "EC_POINT_point2oct failed" := by
      have : pointToBytes c (x0' • g + x1' • g) = .err "EC_POINT_point2oct failed" := by rw [pointToBytes, if_pos hz]
      simp only [serializePublicKey, Curve.pointToBytes_ok c hg, this, Outcome.bind_ok, Outcome.bind_err]
    rw [hs, Outcome.bind_err] at hj
    rw [setupAddition, generateThresholdKeys, h1, Outcome.bind_ok, h2, Outcome.bind_ok, hj, Outcome.bind_err]

/-- Reading a key either works or reports an error. -/
theorem readKey_cases {N : Type} (parse : Bytes → N) (name : String) (fs : FS) :
    (∃ m, readKey parse name fs = .ok m ∧ (fs.data (canon name)).isSome) ∨ ∃ e, readKey parse name fs = .err e := by
  unfold readKey readProtoFromFile openRead
  cases h : fs.data (canon name) with
  | none => right; exact ⟨_, rfl⟩
  | some b =>
    rcases readRecord_total b with ⟨⟨r, t⟩, hr⟩ | ⟨e, hr⟩
    · left; exact ⟨parse r, by simp [hr], rfl⟩
    · right; exact ⟨e, by simp [hr]⟩

theorem valueOf_readKey {N : Type} (parse : Bytes → N) (name : String) (fs : FS) :
    (∃ m, valueOf (readKey parse name fs) = .ok m ∧ (fs.data (canon name)).isSome) ∨ valueOf (readKey parse name fs) = .abort := by
  rcases readKey_cases parse name fs with ⟨m, h, h'⟩ | ⟨e, h⟩
  · left; exact ⟨m, by rw [h]; rfl, h'⟩
  · right; rw [h]; rfl

theorem valueOf_deserialize (c : Codec G) (m : PkProto) :
    (∃ k, valueOf (deserializePublicKey c m) = .ok k) ∨ valueOf (deserializePublicKey c m) = .abort := by
  have h : ∀ b, (∃ x, createECPoint c b = .ok x) ∨ ∃ e, createECPoint c b = .err e := by
    intro b
    unfold createECPoint
    split
    · right; exact ⟨_, rfl⟩
    · split
      · right; exact ⟨_, rfl⟩
      · left; exact ⟨_, rfl⟩
  unfold deserializePublicKey
  rcases h m.g with ⟨a, ha⟩ | ⟨e, ha⟩
  · rcases h m.y with ⟨b, hb⟩ | ⟨e, hb⟩
    · left; exact ⟨⟨a, b⟩, by simp [ha, hb, valueOf]⟩
    · right; simp [ha, hb, valueOf]
  · right; simp [ha, valueOf]

/-- **C55** A party started without one of its key files, or with an unreadable one, does not come up: the process dies
(the exception in the constructor is built but not thrown, so the missing value is used). -/
theorem C55_missing_keys_abort (c : Codec G) (out party : String) (fs : FS) :
    (∃ k, additionParty c out party fs = .ok k ∧ (fs.data (canon (out ++ party ++ "/shared.pub"))).isSome ∧
      (fs.data (canon (out ++ party ++ "/elgamal.key"))).isSome ∧ (fs.data (canon (out ++ party ++ "/paillier.key"))).isSome) ∨
    additionParty c out party fs = .abort := by
  unfold additionParty
  rcases valueOf_readKey PkProto.parse (out ++ party ++ "/shared.pub") fs with ⟨m, h, hs⟩ | h
  · rw [h, Outcome.bind_ok]
    rcases valueOf_deserialize c m with ⟨pk, h2⟩ | h2
    · rw [h2, Outcome.bind_ok]
      rcases valueOf_readKey SkProto.parse (out ++ party ++ "/elgamal.key") fs with ⟨m', h3, hs'⟩ | h3
      · rw [h3]
        simp only [Outcome.bind_ok, deserializePrivateKey, Outcome.pure_eq, valueOf_ok]
        rcases valueOf_readKey TkProto.parse (out ++ party ++ "/paillier.key") fs with ⟨m'', h4, hs''⟩ | h4
        · left; exact ⟨_, by rw [h4]; rfl, hs, hs', hs''⟩
        · right; rw [h4]; rfl
      · right; rw [h3]; rfl
    · right; rw [h2]; rfl
  · right; rw [h]; rfl

end

/-! ### concrete instances -/

/-- An empty disk on which everything can be written. -/
def emptyFS : FS := ⟨fun _ => none, fun _ => true⟩

/-- Threshold Paillier coins: `p = 7`, `q = 11`. -/
def toyCoins : TCoins := ⟨7, 11, 2, 3, 100⟩

theorem toy_threshold : ∃ k0 k1, thresholdKeys 7 11 2 3 100 = .ok (k0, k1) ∧ k0.share < (256 ^ 16 : Nat) ∧ k1.share < (256 ^ 16 : Nat) :=
  ⟨_, _, rfl, by decide +kernel, by decide +kernel⟩

theorem toy_order : ∀ x : ZMod 101, ((101 : Nat) : Int) • x = 0 := by decide +kernel

/-- The hypotheses of the addition theorems are met: setup succeeds with keys 57 and 12 in a group of order 101. -/
example : ∃ fs', setupAddition Curve.toyCodec (1 : ZMod 101) 101 56 11 toyCoins "out/" emptyFS = .ok fs' := by
  obtain ⟨k0, k1, hk, h0, h1⟩ := toy_threshold
  refine (C55_addition_succeeds Curve.toyCodec (1 : ZMod 101) 101 (by norm_num) toy_order (by decide) 56 11 toyCoins "out/"
    emptyFS (fun _ _ => rfl) 16 (by norm_num) (by intro x; simp [Curve.toyCodec]) (by norm_num) hk (by decide) (by decide +kernel) h0 h1
    (x0 := 57) (x1 := 12) (by decide) (by decide)).1 (by decide)

/-- ... and with keys 57 and 44, which add up to the order, it fails. -/
theorem C55_opposite_keys_fail :
    setupAddition Curve.toyCodec (1 : ZMod 101) 101 56 43 toyCoins "out/" emptyFS = .err "EC_POINT_point2oct failed" := by
  obtain ⟨k0, k1, hk, h0, h1⟩ := toy_threshold
  refine (C55_addition_succeeds Curve.toyCodec (1 : ZMod 101) 101 (by norm_num) toy_order (by decide) 56 43 toyCoins "out/"
    emptyFS (fun _ _ => rfl) 16 (by norm_num) (by intro x; simp [Curve.toyCodec]) (by norm_num) hk (by decide) (by decide +kernel) h0 h1
    (x0 := 57) (x1 := 44) (by decide) (by decide)).2 (by decide)

/-- Setups for the other two protocols succeed on the empty disk. -/
example : (setupOriginal Curve.toyCodec (1 : ZMod 101) 101 56 11 "" emptyFS).isOk = true := by decide +kernel
example : (setupDeletion 1536 7 11 13 17 "out/" emptyFS).isOk = true := by decide +kernel

/-- Both deletion parties come up on that disk. -/
example : (setupDeletion 1536 7 11 13 17 "out/" emptyFS >>= fun fs => deletionParty 1000 2 "out/" "p0" fs).isOk = true ∧
    (setupDeletion 1536 7 11 13 17 "out/" emptyFS >>= fun fs => deletionParty 1000 2 "out/" "p1" fs).isOk = true := by
  decide +kernel

/-- Without distinct directories the setup function itself (which takes any two directories) silently hands out wrong
keys: both parties then read the second private key. -/
theorem C55_same_directory_wrong :
    ∃ fs' a b, generateElGamalKeys Curve.toyCodec (1 : ZMod 101) 101 56 11 "k/p0/" "k/p0/" emptyFS = .ok fs' ∧
      Curve.generatePrivateKey 56 101 = .ok a ∧ originalParty Curve.toyCodec "k/" "p0" "p0" fs' = .ok b ∧ b.sk ≠ a := by
  have h : (match generateElGamalKeys Curve.toyCodec (1 : ZMod 101) 101 56 11 "k/p0/" "k/p0/" emptyFS with
    | .ok fs' => match originalParty Curve.toyCodec "k/" "p0" "p0" fs' with
      | .ok b => decide (b.sk ≠ 57)
      | _ => false
    | _ => false) = true := by decide +kernel
  cases h1 : generateElGamalKeys Curve.toyCodec (1 : ZMod 101) 101 56 11 "k/p0/" "k/p0/" emptyFS with
  | ok fs' =>
    rw [h1] at h
    simp only at h
    cases h2 : originalParty Curve.toyCodec "k/" "p0" "p0" fs' with
    | ok b => rw [h2] at h; exact ⟨fs', 57, b, rfl, by decide, h2, by simpa using h⟩
    | err m => rw [h2] at h; simp at h
    | abort => rw [h2] at h; simp at h
    | ub => rw [h2] at h; simp at h
  | err m => rw [h1] at h; simp at h
  | abort => rw [h1] at h; simp at h
  | ub => rw [h1] at h; simp at h

end Upsi.Setup
