import Verif.Main.TreeBytes
import Verif.Main.AddStart
/-
Property theorem C86: the setup program of the addition-only protocols does its work.  In every run whose flags the generator
accepts, on a disk that can be written, with keys and trees that fit into files, `addition/setup.cc` ends normally, or reports
that it met the point at infinity (which random choices lead to with negligible probability); it never crashes.
-/
namespace Upsi.Main
open Upsi Upsi.Rec Upsi.ElGamal Upsi.Tree Upsi.Proto Upsi.Setup Upsi.Wire Upsi.Data

theorem initInner_total (e : Data.Bytes) (v : Int) : ∀ (ys : List Data.Bytes) (n s : Int), ys.Nodup → n + 1 < 2 ^ 31 →
    ∃ n' s', initInner e v ys (n, s) = .ok (n', s') ∧ n ≤ n' ∧ n' ≤ n + 1 ∧ (n' ≠ n → e ∈ ys) ∧ (e ∉ ys → s' = s) := by
  intro ys
  induction ys with
  | nil => intro n s _ _; exact ⟨n, s, rfl, le_refl _, by omega, fun h => absurd rfl h, fun _ => rfl⟩
  | cons y ys ih =>
    intro n s hn hlt
    obtain ⟨hy, hn'⟩ := List.nodup_cons.1 hn
    rw [initInner]
    by_cases he : e = y
    · rw [if_pos he, if_pos hlt]
      have : ∀ (ys : List Data.Bytes) (a : Int × Int), e ∉ ys → initInner e v ys a = .ok a := by
        intro ys
        induction ys with
        | nil => intro a _; rfl
        | cons z zs ih2 =>
          intro a hz
          obtain ⟨n, s⟩ := a
          simp only [List.mem_cons, not_or] at hz
          rw [initInner, if_neg hz.1]
          exact ih2 _ hz.2
      exact ⟨_, _, this ys _ (by rw [he]; exact hy), by omega, le_refl _, fun _ => by simp [he], fun h => absurd (by simp [he]) h⟩
    · rw [if_neg he]
      obtain ⟨n', s', h1, h2, h3, h4, h5⟩ := ih n s hn' hlt
      exact ⟨n', s', h1, h2, h3, fun h => by simp [h4 h], fun h => h5 (fun hm => h (by simp [hm]))⟩

theorem int32_ge (x : Int) : -(2 ^ 31) ≤ int32 x := by unfold int32; omega

theorem initGo_total (ys : List Data.Bytes) (hn : ys.Nodup) : ∀ (es : List Data.Bytes) (vs : List Int) (n s : Int),
    es.length = vs.length → n + es.length < 2 ^ 31 → -(2 ^ 31) ≤ s →
    ∃ n' s', initGo ys es vs (n, s) = .ok (n', s') ∧ -(2 ^ 31) ≤ s' := by
  have ge : ∀ (e : Data.Bytes) (v : Int) (ys : List Data.Bytes) (n s n' s' : Int), -(2 ^ 31) ≤ s →
      initInner e v ys (n, s) = .ok (n', s') → -(2 ^ 31) ≤ s' := by
    intro e v ys
    induction ys with
    | nil => intro n s n' s' hs h; simp only [initInner, Outcome.ok.injEq, Prod.mk.injEq] at h; omega
    | cons y ys ih =>
      intro n s n' s' hs h
      rw [initInner] at h
      split at h
      · split at h
        · exact ih _ _ _ _ (int32_ge _) h
        · simp at h
      · exact ih _ _ _ _ hs h
  intro es
  induction es with
  | nil => intro vs n s _ _ hs; exact ⟨n, s, rfl, hs⟩
  | cons e es ih =>
    intro vs n s hl hlt hs
    cases vs with
    | nil => simp at hl
    | cons v vs =>
      simp only [List.length_cons, Nat.add_right_cancel_iff] at hl hlt
      obtain ⟨n1, s1, h1, h2, h3, -, -⟩ := initInner_total e v ys n s hn (by push_cast at hlt; omega)
      obtain ⟨n2, s2, h4, h5⟩ := ih vs n1 s1 hl (by push_cast at hlt; omega) (ge _ _ _ _ _ _ _ hs h1)
      exact ⟨n2, s2, by rw [initGo, h1, Outcome.bind_ok, h4], h5⟩

theorem writeDataset_total {d : Dataset} (h : d.Good) (name : String) {fs : FS} (hw : fs.writable (canon name) = true) :
    ∃ fs', writeDataset d name fs = .ok fs' ∧ fs'.writable = fs.writable := by
  obtain ⟨b, hb, -⟩ := C57_roundtrip d h
  exact ⟨fs.set (canon name) b, by rw [writeDataset, if_pos hw, hb, Outcome.bind_ok, Outcome.pure_eq], rfl⟩

/-- The daily data sets can be written. -/
theorem writeDays_total (D0 D1 : String) {d0 d1 : List Dataset} (h0 : ∀ d ∈ d0, d.Good) (h1 : ∀ d ∈ d1, d.Good) :
    ∀ (n i : Nat) (fs : FS), i + n ≤ d0.length → i + n ≤ d1.length → (∀ m, fs.writable m = true) →
    ∃ fs', writeDays D0 D1 d0 d1 n i fs = .ok fs' ∧ fs'.writable = fs.writable := by
  intro n
  induction n with
  | zero => intro i fs _ _ _; exact ⟨fs, rfl, rfl⟩
  | succ n ih =>
    intro i fs l0 l1 hw
    have g0 : Num.vget d0 i = .ok d0[i] := by simp [Num.vget, List.getElem?_eq_getElem (show i < d0.length by omega)]
    have g1 : Num.vget d1 i = .ok d1[i] := by simp [Num.vget, List.getElem?_eq_getElem (show i < d1.length by omega)]
    obtain ⟨f1, e1, w1⟩ := writeDataset_total (h0 d0[i] (List.getElem_mem _)) (dayFile D0 (i + 1)) (hw _)
    obtain ⟨f2, e2, w2⟩ := writeDataset_total (fs := f1) (h1 d1[i] (List.getElem_mem _)) (dayFile D1 (i + 1)) (by rw [w1]; exact hw _)
    obtain ⟨f3, e3, w3⟩ := ih (i + 1) f2 (by omega) (by omega) (by rw [w2, w1]; exact hw)
    exact ⟨f3, by simp only [writeDays, g0, g1, e1, e2, e3, Outcome.bind_ok], by rw [w3, w2, w1]⟩

/-- Tree files that are not too large can be written. -/
theorem writeTrees_total {t : TreeFiles} (h1 : (serPTree t.plain).length < 2 ^ 31) (h2 : (serETree t.enc).length < 2 ^ 31)
    (D0 D1 : String) {fs : FS} (hw : ∀ m, fs.writable m = true) :
    ∃ fs', writeTrees t D0 D1 fs = .ok fs' ∧ fs'.writable = fs.writable :=
  ⟨(fs.set (canon (D0 ++ "plaintext.tree")) _).set (canon (D1 ++ "encrypted.tree")) _,
    by rw [writeTrees, writeKey_succeeds h1 (hw _), Outcome.bind_ok, writeKey_succeeds h2 (show (fs.set _ _).writable _ = true from hw _)], rfl⟩

/-! ### sizes of the entries -/

theorem natBytes_le {n k : Nat} (h : n < 256 ^ k) : (Num.natBytes n).length ≤ k := (Num.natBytes_length_le _ _).2 h

theorem serPElem_length {p : PElem} {a b : Nat} (h1 : p.element.length ≤ a) (h2 : p.payload.length ≤ b) (ha : a < 2 ^ 35) (hb : b < 2 ^ 35) :
    (serPElem p).length ≤ a + b + 12 := by
  have e1 := lenField_length (k := 1) (b := p.element) (by norm_num) (by omega)
  have e2 := lenField_length (k := 2) (b := p.payload) (by norm_num) (by omega)
  simp only [serPElem, encFields, List.flatMap_cons, List.flatMap_nil, List.length_append, List.length_nil]
  omega

theorem serCt_length {x : CtProto} {K : Nat} (h1 : x.u.length ≤ K) (h2 : x.e.length ≤ K) (hK : K ≤ 2 ^ 20) :
    (serCt x).length ≤ 2 * K + 12 := by
  have e1 := lenField_length (k := 1) (b := x.u) (by norm_num) (by omega)
  have e2 := lenField_length (k := 2) (b := x.e) (by norm_num) (by omega)
  simp only [serCt, encFields, List.flatMap_cons, List.flatMap_nil, List.length_append, List.length_nil]
  omega

variable {G : Type} [AddCommGroup G] [DecidableEq G]

theorem serializeCt_length {c : Codec G} {K : Nat} (hc : ∀ x, (c.enc x).length ≤ K) {x : Ct G} {p : CtProto}
    (h : serializeCt c x = .ok p) : p.u.length ≤ K ∧ p.e.length ≤ K := by
  simp only [serializeCt, Outcome.bind_eq_ok, Outcome.pure_eq, Outcome.ok.injEq] at h
  obtain ⟨a, ha, b, hb, rfl⟩ := h
  have pt : ∀ {x : G} {a : Rec.Bytes}, pointToBytes c x = .ok a → a.length ≤ K := by
    intro x a h
    unfold pointToBytes at h
    split at h
    · simp at h
    · obtain rfl := Outcome.ok.inj h
      exact hc x
  exact ⟨pt ha, pt hb⟩

theorem elgamal_length {c : Codec G} {K : Nat} (hK : K ≤ 2 ^ 20) (hc : ∀ x, (c.enc x).length ≤ K) (x : Ct G × Ct G) (w : EncElem)
    (h : serElGamal c x.1 x.2 = .ok w) : (serElem w).length ≤ 4 * K + 100 := by
  simp only [serElGamal, Outcome.bind_eq_ok, Outcome.pure_eq, Outcome.ok.injEq] at h
  obtain ⟨a, ha, b, hb, rfl⟩ := h
  obtain ⟨a1, a2⟩ := serializeCt_length hc ha
  obtain ⟨b1, b2⟩ := serializeCt_length hc hb
  have e1 := serCt_length a1 a2 hK
  have e2 := serCt_length b1 b2 hK
  have f1 := lenField_length (k := 1) (b := serCt a) (by norm_num) (by omega)
  have f2 := lenField_length (k := 2) (b := serCt b) (by norm_num) (by omega)
  have hin : (encFields [(1, .len (serCt a)), (2, .len (serCt b))]).length ≤ 4 * K + 36 := by
    simp only [encFields, List.flatMap_cons, List.flatMap_nil, List.length_append, List.length_nil]
    omega
  have f3 := lenField_length (k := 3) (b := encFields [(1, .len (serCt a)), (2, .len (serCt b))]) (by norm_num) (by omega)
  have : (serElem (.elgamal a b)).length = (encField (3, .len (encFields [(1, .len (serCt a)), (2, .len (serCt b))]))).length := by
    simp [serElem, encFields]
  omega

theorem noPayload_length {c : Codec G} {K : Nat} (hK : K ≤ 2 ^ 20) (hc : ∀ x, (c.enc x).length ≤ K) (x : Ct G) (w : EncElem)
    (h : serNoPayload c x = .ok w) : (serElem w).length ≤ 4 * K + 100 := by
  simp only [serNoPayload, Outcome.bind_eq_ok, Outcome.pure_eq, Outcome.ok.injEq] at h
  obtain ⟨a, ha, rfl⟩ := h
  obtain ⟨a1, a2⟩ := serializeCt_length hc ha
  have e1 := serCt_length a1 a2 hK
  have f1 := lenField_length (k := 1) (b := serCt a) (by norm_num) (by omega)
  have hin : (encFields [(1, .len (serCt a))]).length ≤ 2 * K + 18 := by
    simp only [encFields, List.flatMap_cons, List.flatMap_nil, List.length_append, List.length_nil]
    omega
  have f3 := lenField_length (k := 1) (b := encFields [(1, .len (serCt a))]) (by norm_num) (by omega)
  have : (serElem (.noPayload a)).length = (encField (1, .len (encFields [(1, .len (serCt a))]))).length := by
    simp [serElem, encFields]
  omega

theorem toBytes_length {x : Int} {b : List UInt8} {k : Nat} (h : Num.toBytes x = .ok b) (hx : x < (256 ^ k : Nat)) : b.length ≤ k := by
  unfold Num.toBytes at h
  split at h
  · simp at h
  · obtain rfl := Outcome.ok.inj h
    exact natBytes_le (by omega)

/-- What setup needs to do its work: flags the generator accepts, a disk that can be written, keys of at most `K` bytes and
initial trees that fit into files. -/
structure SetupFeasible (c : Codec G) (q K stash node : Nat) (f : SetupFlags) (ρ : SetupRand) (x0 x1 : Int) (k0 k1 : Paillier.TKey)
    (fs : FS) : Prop where
  shared : (sharedSize f).toNat ≤ f.start + f.days * f.daily
  sum : (sharedSize f).toNat ≤ (2 ^ 63 - 1) / f.maxValue.toNat
  disk : ∀ name, fs.writable name = true
  bytes : K ≤ 2 ^ 20
  points : ∀ x, (c.enc x).length ≤ K
  orderBytes : q ≤ 256 ^ K
  key0 : Curve.generatePrivateKey ρ.coin0 q = .ok x0
  key1 : Curve.generatePrivateKey ρ.coin1 q = .ok x1
  paillier : Paillier.thresholdKeys ρ.paillier.p ρ.paillier.q ρ.paillier.r1 ρ.paillier.r2 ρ.paillier.sk1 = .ok (k0, k1)
  modulus : 0 ≤ ρ.paillier.p * ρ.paillier.q ∧ ρ.paillier.p * ρ.paillier.q < (256 ^ K : Nat)
  share0 : k0.share < (256 ^ K : Nat)
  share1 : k1.share < (256 ^ K : Nat)
  trees : 0 < f.start → 2 * f.start * (node * (4 * K + 106) + 17) + stash * (4 * K + 106) + 61 < 2 ^ 31

/-- **C86** The setup program of the addition-only protocols (any functionality but secret sharing), for all feasible flags,
all data and all coins in their ranges, ends normally or reports the point at infinity; it never crashes and reports nothing
else.  Without initial trees it ends normally unless the two private keys add up to the group order. -/
theorem C86_addition_setup (c : Codec G) (g : G) (q : Nat) (hq : q.Prime) (hcard : Nat.card G = q) (hg : g ≠ 0) {hashOf : Nat → List Bool}
    (hh : ∀ e, (hashOf e).length = 256) {L B stash node : Nat} {f : SetupFlags} (hf : SizesOK L B q stash node f) {ρ : SetupRand}
    (hρ : ρ.OK L B q f) {K : Nat} {x0 x1 : Int} {k0 k1 : Paillier.TKey} {fs : FS}
    (hs : SetupFeasible c q K stash node f ρ x0 x1 k0 k1 fs) :
    ((∃ o, setupMain c g q hashOf stash node f ρ fs = .ok o) ∨
      setupMain c g q hashOf stash node f ρ fs = .err "EC_POINT_point2oct failed") ∧
    (f.start = 0 → x0 + x1 ≠ q → ∃ o, setupMain c g q hashOf stash node f ρ fs = .ok o) := by
  have ho : ∀ x : G, (q : Int) • x = 0 := fun x => by
    rw [natCast_zsmul, ← hcard, card_nsmul_eq_zero']
  obtain ⟨s1, s2⟩ := C55_addition_succeeds c g q hq ho hg ρ.coin0 ρ.coin1 ρ.paillier f.outDir fs (fun _ _ => hs.disk _) K hs.bytes hs.points
    hs.orderBytes hs.paillier hs.modulus.1 hs.modulus.2 hs.share0 hs.share1 hs.key0 hs.key1
  by_cases hx : x0 + x1 = q
  · refine ⟨Or.inr ?_, fun _ h => absurd hx h⟩
    rw [setupMain, s2 hx, Outcome.bind_err]
  obtain ⟨fk, hk⟩ := s1 hx
  obtain ⟨y0, y1, l0, l1, -, -, -, p0, p1, pw⟩ := C55_addition c g q ρ.coin0 ρ.coin1 ρ.paillier f.outDir fs fk hk
  have htot := hf.total
  have hmax : (f.maxValue % 2 ^ 32).toNat = f.maxValue.toNat := by have := hf.maxPos; have := hf.maxValue; omega
  have hm31 : f.maxValue.toNat < 2 ^ 32 := by have := hf.maxValue; omega
  have hR := hρ.draws
  obtain ⟨gs, hgs, -⟩ := C54_add_only f.days f.daily f.start (sharedSize f).toNat f.maxValue.toNat ρ.data (by omega) hs.shared hR.maxPos hs.sum
    hR.sharedLen hR.fill0 hR.fill1 hR.perm0 hR.perm1 hR.vals hR.range hR.nodup
  obtain ⟨-, -, gen⟩ := gen_facts hR (by omega) hgs
  have wk : ∀ m, fk.writable m = true := fun m => by rw [pw.1]; exact hs.disk m
  obtain ⟨fd, hfd, wfd⟩ := writeDays_total (f.dataDir ++ "p0/") (f.dataDir ++ "p1/") (gen.good0 hm31) gen.good1 f.days 0 fk
    (by rw [gen.len0]; omega) (by rw [gen.len1]; omega) wk
  have wd : ∀ m, fd.writable m = true := fun m => by rw [wfd]; exact wk m
  have hrun : setupMain c g q hashOf stash node f ρ fs =
      (if f.start > 0 then do
        let (fs, l0, l1) ← writeInitial c (initialTrees0 c hashOf stash node f ρ) hashOf stash node f ρ gs fd
        if f.expected then
          let (ca, sum) ← initGo gs.tree1.elements gs.tree0.elements gs.tree0.values (0, 0)
          if gs.sum - sum < 2 ^ 63 then pure ⟨fs, some (sharedSize f - ca, gs.sum - sum), l0, l1⟩ else .ub
        else pure ⟨fs, none, l0, l1⟩
      else pure ⟨fd, some (sharedSize f, gs.sum), [], []⟩) := by
    rw [setupMain, hk, Outcome.bind_ok]
    simp only [generateData, hmax, hgs, orAbort, Outcome.bind_ok, hfd]
  by_cases hst : f.start > 0
  swap
  · rw [hrun, if_neg hst]
    exact ⟨Or.inl ⟨_, rfl⟩, fun _ _ => ⟨_, rfl⟩⟩
  refine ⟨?_, fun h0 => absurd hst (by omega)⟩
  rw [hrun, if_pos hst]
  obtain ⟨sv, -, -⟩ := daily_roundtrip gen.len0 gen.len1 (gen.good0 hm31) gen.good1 hfd
  have p0d := (party_same (by decide) (by decide) sv c f.outDir "p0").trans p0
  have p1d := (party_same (by decide) (by decide) sv c f.outDir "p1").trans p1
  have num0 : ∀ e ∈ gs.tree0.elements, Numeric e := fun e he => (gen.str0 gs.tree0 (by simp) e he).numeric hf.len hf.bound
  have num1 : ∀ e ∈ gs.tree1.elements, Numeric e := fun e he => (gen.str1 gs.tree1 (by simp) e he).numeric hf.len hf.bound
  obtain ⟨r, er, er'⟩ := pairs_rows gs.tree0 num0 (by rw [gen.t0.1, gen.t0.2]) (fun v hv => by
    have := (gen.vals gs.tree0 (by simp) v hv).1; omega)
  have n0 : canon (f.outDir ++ "p0/" ++ "shared.pub") = canon (f.outDir ++ "p0" ++ "/shared.pub") :=
    name_eq _ _ _ _ _ (by decide) (by decide) (by decide)
  have n1 : canon (f.outDir ++ "p1/" ++ "shared.pub") = canon (f.outDir ++ "p1" ++ "/shared.pub") :=
    name_eq _ _ _ _ _ (by decide) (by decide) (by decide)
  have hX0 : (rows gs.tree0).length = f.start := by
    rw [rows, List.length_zip, List.length_map, gen.t0.1, gen.t0.2, Nat.min_self]
  have hY0 : (gs.tree1.elements.map digitsValue).length = f.start := by rw [List.length_map, gen.t1.1]
  have hrow : ∀ p ∈ rows gs.tree0, p.1 < 256 ^ 8 ∧ 0 ≤ p.2 ∧ p.2 < (256 ^ 4 : Nat) := by
    intro p hp
    obtain ⟨h1, h2⟩ := List.of_mem_zip hp
    obtain ⟨e, he, hpe⟩ := List.mem_map.1 h1
    have a := (num0 e he).2.2
    have b := gen.vals gs.tree0 (by simp) _ h2
    have := hf.maxValue
    refine ⟨?_, b.1, ?_⟩
    · rw [← hpe]; norm_num; omega
    · norm_num; omega
  have w0 : Batch.WF (rows gs.tree0, ρ.tree0.hsh) := ⟨by rw [hX0]; exact hρ.hsh0.1, hρ.hsh0.2⟩
  have w1 : Batch.WF (gs.tree1.elements.map digitsValue, ρ.tree1.hsh) := ⟨by rw [hY0]; exact hρ.hsh1.1, hρ.hsh1.2⟩
  obtain ⟨G0, G1⟩ := C83_generation_addition c hashOf hh (keyPair g (y0 + y1)).1 stash node (rows gs.tree0) (gs.tree1.elements.map digitsValue)
    ρ.tree0 ρ.tree1 w0 w1 (by omega) (by omega) (fun p hp => (hrow p hp).2.1)
  have hP35 : 4 * K + 100 < 2 ^ 35 := by have := hs.bytes; omega
  have lim := hs.trees hst
  -- party zero's trees
  rcases G0 with G0 | ⟨⟨t0, lost0⟩, G0⟩
  · right
    simp only [writeInitial, er, orAbort, Outcome.bind_ok, er', initialTrees0, getElGamal_of_party n0 p0d, G0, Outcome.bind_err]
  obtain ⟨b0, b0'⟩ := generateTrees_bytes (P := 4 * K + 100) (fun e : Nat × Int => hh e.1) w0 (by omega) (by omega) (fun a ha p hp => by
      simp only [encNatPair, Tree.encPair, Outcome.bind_eq_ok, Outcome.pure_eq, Outcome.ok.injEq] at hp
      obtain ⟨u, hu, v, hv, rfl⟩ := hp
      have hr := hrow a ha
      have h1 := toBytes_length (k := 8) hu (by exact_mod_cast hr.1)
      have h2 := toBytes_length (k := 4) hv hr.2.2
      have := serPElem_length (p := ⟨u, v⟩) h1 h2 (by norm_num) (by norm_num)
      omega) (elgamal_length hs.bytes hs.points) hP35 (by rw [hX0]; exact lim) G0
  obtain ⟨fw, hw, ww⟩ := writeTrees_total b0 b0' (f.dataDir ++ "p0/") (f.dataDir ++ "p1/") wd
  have hmax31 := hf.stash
  obtain ⟨z1, z2, z3⟩ := generateTrees_sizes (fun e : Nat × Int => hh e.1) (PostOK.id _) w0 (by omega) hf.stash hf.node G0
  obtain ⟨-, -, a3⟩ := writeTrees_spec z1 z2 z3 (D := f.dataDir) (Or.inl rfl) (Or.inr rfl) hw
  have sa : SameBut 'e' fd fw := sameBut_of_except a3 (by
    simp only [List.mem_cons, List.not_mem_nil, or_false, forall_eq_or_imp, forall_eq]
    exact ⟨tree_last _ _ _ (by decide), tree_last _ _ _ (by decide)⟩)
  have p1w := (party_same (by decide) (by decide) sa c f.outDir "p1").trans p1d
  -- party one's trees
  rcases G1 with G1 | ⟨⟨t1, lost1⟩, G1⟩
  · right
    simp only [writeInitial, er, orAbort, Outcome.bind_ok, er', initialTrees0, getElGamal_of_party n0 p0d, G0, hw,
      C57_elements_exact gs.tree1 num1, getElGamal_of_party n1 p1w, G1, Outcome.bind_err]
  obtain ⟨b1, b1'⟩ := generateTrees_bytes (P := 4 * K + 100) hh w1 (by omega) (by omega) (fun a ha p hp => by
      simp only [encNat, encElement, Outcome.bind_eq_ok, Outcome.pure_eq, Outcome.ok.injEq] at hp
      obtain ⟨u, hu, rfl⟩ := hp
      obtain ⟨e, he, rfl⟩ := List.mem_map.1 ha
      have h0 := (num1 e he).2.2
      have h1 := toBytes_length (k := 8) hu (by norm_num; omega)
      have := serPElem_length (p := ⟨u, []⟩) h1 (Nat.le_refl 0) (by norm_num) (by norm_num)
      omega) (noPayload_length hs.bytes hs.points) hP35 (by rw [hY0]; exact lim) G1
  obtain ⟨fx, hx', wx⟩ := writeTrees_total b1 b1' (f.dataDir ++ "p1/") (f.dataDir ++ "p0/") (fs := fw) (fun m => by rw [ww]; exact wd m)
  have hini : writeInitial c (initialTrees0 c hashOf stash node f ρ) hashOf stash node f ρ gs fd = .ok (fx, lost0, lost1) := by
    simp only [writeInitial, er, orAbort, Outcome.bind_ok, er', initialTrees0, getElGamal_of_party n0 p0d, G0, hw,
      C57_elements_exact gs.tree1 num1, getElGamal_of_party n1 p1w, G1, hx', Outcome.pure_eq]
  left
  rw [hini, Outcome.bind_ok]
  by_cases hex : f.expected = true
  swap
  · exact ⟨_, if_neg hex⟩
  obtain ⟨ca, sm, hgo, hsm⟩ := initGo_total gs.tree1.elements (List.nodup_append.1 gen.nodup1).1 gs.tree0.elements gs.tree0.values 0 0
    (by rw [gen.t0.1, gen.t0.2]) (by rw [gen.t0.1]; omega) (by norm_num)
  have hsum : gs.sum < 2 ^ 62 := by
    have h1 := gen.sum_le
    have h2 : ((sharedSize f).toNat : Int) * (f.maxValue.toNat : Int) ≤ 2 ^ 30 * 2 ^ 31 :=
      Int.mul_le_mul (by have := hs.shared; omega) (by have := hf.maxValue; omega) (by positivity) (by norm_num)
    omega
  refine ⟨⟨fx, some (sharedSize f - ca, gs.sum - sm), lost0, lost1⟩, ?_⟩
  simp only [hex, if_true, hgo, Outcome.bind_ok, if_pos (show gs.sum - sm < 2 ^ 63 by omega), Outcome.pure_eq]

end Upsi.Main
