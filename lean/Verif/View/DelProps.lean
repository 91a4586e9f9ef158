import Verif.View.DelModel
import Verif.View.Props
import Verif.Proto.ProgressDelProps
/-
C70: what the parties of the protocol with deletions see in the clear determines the peer's draws.
-/
namespace Upsi.View
open Upsi Upsi.Tree Upsi.Num Upsi.Paillier Upsi.Proto

/-! ### specification -/

/-- What party zero sees in the clear on a day: the plaintexts of party one's candidates (`gc_y`), its output bits of the
two circuit phases and the plaintexts of the blocks it receives. -/
def seenZero (V : DelView) : List (List Int) × List Bool × List Bool × List Int :=
  (V.out.resp0, V.f1.map GcView.bob, V.f2.map GcView.bob, V.f2.map GcView.opened)

/-- What party one sees in the clear on a day: the plaintexts of party zero's candidates and of the blocks it receives
(it gets no output of the circuit). -/
def seenOne (V : DelView) : List (List Int) × List Int := (V.out.resp1, V.f1.map GcView.opened)

/-! ### one comparison -/

variable {p q : Nat} {mont : Int → Option Mont} {pk : Public} {sk : Private}

theorem gcItemV_formula (K : KeyPair p q mont pk sk) {ro : List UInt8 → Nat} {aliceSends : Bool} {blocks : Nat}
    (hb : cntBlock ((p * q : Nat) : Int) = .ok blocks) {ρ : GcCoins} {i : Nat} {x z y v : Int}
    (hz : PEnc (p * q) z v) {w : GcView} (h : gcItemV ro mont pk sk aliceSends blocks ρ i x z y = .ok w) :
    w.bob = Bool.xor (decide (bigNum2bool ro x 72 = bigNum2bool ro y 72)) (!ρ.bit i) ∧
    w.opened = ((if bigNum2bool ro x 72 = bigNum2bool ro y 72 then v else 0) - ρ.beta i) % ((p * q : Nat) : Int) := by
  simp only [gcItemV, Outcome.bind_eq_ok, Outcome.pure_eq, Outcome.ok.injEq] at h
  obtain ⟨bx, hx, bY, hy, enc, he, ifEq, hi, b0, hb0, b1, hb1, d, hd, rfl⟩ := h
  have hE := K.enc_pub he
  rw [K.pub.hn] at hE
  have hI := K.add hz hE hi
  have hbl : ∀ (c m : Int) (bl : List UInt8), PEnc (p * q) c m → bigNum2block c blocks = .ok bl →
      ((block2BigNum bl blocks : Nat) : Int) = c := by
    intro c m bl hm hbl
    obtain ⟨l, u⟩ := hm.bounds
    obtain ⟨bl', e1, _, e2⟩ := C33_block_roundtrip c blocks l (lt_of_lt_of_le u (cntBlock_spec hb))
    rw [hbl, Outcome.ok.injEq] at e1
    subst e1
    exact e2
  rw [hx, hy]
  simp only [Outcome.ok.injEq]
  constructor
  · cases ρ.bit i <;> by_cases hxy : bx = bY <;> simp [hxy]
  have hch : d = (if bx = bY then v + (((p * q : Nat) : Int) - ρ.beta i) else ((p * q : Nat) : Int) - ρ.beta i) %
      ((p * q : Nat) : Int) := by
    by_cases hxy : bx = bY
    · simp only [hxy, decide_true, if_true] at hd hb0 hb1 ⊢
      cases hA : ρ.bit i <;> cases hS : aliceSends <;> rw [hA, hS] at hd hb0 hb1 <;> simp at hd hb0 hb1
      all_goals first
        | (rw [hbl _ _ _ hI hb0] at hd; exact K.dec hI hd)
        | (rw [hbl _ _ _ hI hb1] at hd; exact K.dec hI hd)
    · simp only [hxy, decide_false, if_false] at hd hb0 hb1 ⊢
      cases hA : ρ.bit i <;> cases hS : aliceSends <;> rw [hA, hS] at hd hb0 hb1 <;> simp at hd hb0 hb1
      all_goals first
        | (rw [hbl _ _ _ hE hb0] at hd; exact K.dec hE hd)
        | (rw [hbl _ _ _ hE hb1] at hd; exact K.dec hE hd)
  rw [hch]
  split
  · rw [show v + (((p * q : Nat) : Int) - ρ.beta i) = (v - ρ.beta i) + ((p * q : Nat) : Int) by ring, Int.add_emod_right]
  · rw [show ((p * q : Nat) : Int) - ρ.beta i = (0 - ρ.beta i) + ((p * q : Nat) : Int) by ring, Int.add_emod_right]

/-- Two items that feed the circuit in the same way. -/
def SameItem (n : Nat) (a b : Item) : Prop := a.x = b.x ∧ a.z = b.z ∧ ∃ v, PEnc n a.z v

theorem sub_emod_inj {n a b c : Int} (ha : 0 ≤ a) (ha' : a < n) (hb : 0 ≤ b) (hb' : b < n) (h : (c - a) % n = (c - b) % n) : a = b := by
  have h1 : c - a ≡ c - b [ZMOD n] := h
  have h2 : a ≡ b [ZMOD n] := by
    have := (Int.ModEq.refl c).sub h1
    simpa using this
  rw [Int.ModEq, Int.emod_eq_of_lt ha ha', Int.emod_eq_of_lt hb hb'] at h2
  exact h2

theorem gcLoopV_bits (K : KeyPair p q mont pk sk) {ro : List UInt8 → Nat} {aliceSends : Bool} {blocks : Nat}
    (hb : cntBlock ((p * q : Nat) : Int) = .ok blocks) {ρ ρ' : GcCoins} {its its' : List Item}
    (hs : List.Forall₂ (SameItem (p * q)) its its') : ∀ (i : Nat) (ys : List Int) (vs vs' : List GcView),
    gcLoopV ro mont pk sk aliceSends blocks ρ i its ys = .ok vs → gcLoopV ro mont pk sk aliceSends blocks ρ' i its' ys = .ok vs' →
    (vs.map GcView.bob = vs'.map GcView.bob → ∀ m < its.length, ρ.bit (i + m) = ρ'.bit (i + m)) ∧
    ((∀ j, 0 ≤ ρ.beta j ∧ ρ.beta j < (p * q : Nat)) → (∀ j, 0 ≤ ρ'.beta j ∧ ρ'.beta j < (p * q : Nat)) →
      vs.map GcView.opened = vs'.map GcView.opened → ∀ m < its.length, ρ.beta (i + m) = ρ'.beta (i + m)) := by
  induction hs with
  | nil => intro i ys vs vs' _ _; exact ⟨fun _ m hm => absurd hm (by simp), fun _ _ _ m hm => absurd hm (by simp)⟩
  | @cons a b its its' hab _ ih =>
    intro i ys vs vs' h h'
    cases ys with
    | nil => simp [gcLoopV] at h
    | cons y ys =>
      simp only [gcLoopV, Outcome.bind_eq_ok, Outcome.pure_eq, Outcome.ok.injEq] at h h'
      obtain ⟨v, hv, ws, hvs, rfl⟩ := h
      obtain ⟨v', hv', ws', hvs', rfl⟩ := h'
      obtain ⟨e1, e2, u, hu⟩ := hab
      rw [← e1, ← e2] at hv'
      obtain ⟨f1, f2⟩ := gcItemV_formula K hb hu hv
      obtain ⟨f1', f2'⟩ := gcItemV_formula K hb hu hv'
      obtain ⟨i1, i2⟩ := ih (i + 1) ys ws ws' hvs hvs'
      constructor
      · intro hbob m hm
        simp only [List.map_cons, List.cons.injEq] at hbob
        rcases m with _ | m
        · have h0 := hbob.1
          rw [f1, f1'] at h0
          simpa using h0
        · have := i1 hbob.2 m (by simpa using hm)
          rwa [show i + (m + 1) = i + 1 + m by omega]
      · intro hβ hβ' ho m hm
        simp only [List.map_cons, List.cons.injEq] at ho
        rcases m with _ | m
        · have h0 := ho.1
          rw [f2, f2'] at h0
          exact sub_emod_inj (hβ _).1 (hβ _).2 (hβ' _).1 (hβ' _).2 h0
        · have := i2 hβ hβ' ho.2 m (by simpa using hm)
          rwa [show i + (m + 1) = i + 1 + m by omega]

theorem gcPhaseV_bits (K : KeyPair p q mont pk sk) {ro : List UInt8 → Nat} {aliceSends : Bool} {ρ ρ' : GcCoins} {its its' : List Item}
    (hs : List.Forall₂ (SameItem (p * q)) its its') {ys : List Int} {vs vs' : List GcView}
    (h : gcPhaseV ro mont pk sk aliceSends ρ its ys = .ok vs) (h' : gcPhaseV ro mont pk sk aliceSends ρ' its' ys = .ok vs') :
    (vs.map GcView.bob = vs'.map GcView.bob → ∀ m < its.length, ρ.bit m = ρ'.bit m) ∧
    ((∀ j, 0 ≤ ρ.beta j ∧ ρ.beta j < (p * q : Nat)) → (∀ j, 0 ≤ ρ'.beta j ∧ ρ'.beta j < (p * q : Nat)) →
      vs.map GcView.opened = vs'.map GcView.opened → ∀ m < its.length, ρ.beta m = ρ'.beta m) := by
  simp only [gcPhaseV, Outcome.bind_eq_ok, K.pub.hn] at h h'
  obtain ⟨bs, h1, br, h2, h3⟩ := h
  obtain ⟨bs', h1', br', h2', h3'⟩ := h'
  obtain rfl := Outcome.ok.inj (h1.symm.trans h1')
  obtain rfl := Outcome.ok.inj (h2.symm.trans h2')
  split at h3
  · simp at h3
  · rename_i hne
    rw [if_neg hne] at h3'
    have := gcLoopV_bits K h1 hs 0 ys vs vs' h3 h3'
    simpa only [Nat.zero_add] using this

/-! ### candidates -/

theorem combineInit_same (K : KeyPair p q mont pk sk) {hashOf : Nat → List Bool} {other : Upsi.Tree.Tree (Int × Int)} {e : EP}
    (hpath : ∀ path, getPath other (hashOf e.1) = .ok path → ∀ c ∈ path, ∃ a, EncP (p * q) a c)
    {ρ ρ' : PathCoins} (hρ : ρ.WF (p * q)) (hρ' : ρ'.WF (p * q)) {its its' : List Item}
    (h : combineInit mont hashOf pk other e ρ = .ok its) (h' : combineInit mont hashOf pk other e ρ' = .ok its')
    {ys : List Int} (hr : List.Forall₂ (RespRel (p * q)) its ys) (hr' : List.Forall₂ (RespRel (p * q)) its' ys) :
    List.Forall₂ (SameItem (p * q)) its its' ∧ ∀ j < its.length, ρ.alpha j = ρ'.alpha j := by
  simp only [combineInit, Outcome.bind_eq_ok] at h h'
  obtain ⟨path, hp, h⟩ := h
  obtain ⟨path', hp', h'⟩ := h'
  obtain rfl := Outcome.ok.inj (hp.symm.trans hp')
  have hpth := hpath path hp
  clear hp hp' hpath
  suffices ∀ i, forIdx _ i path = .ok its → forIdx _ i path = .ok its' →
      List.Forall₂ (SameItem (p * q)) its its' ∧ ∀ j < its.length, ρ.alpha (i + j) = ρ'.alpha (i + j) by
    have := this 0 h h'
    simpa only [Nat.zero_add] using this
  clear h h'
  induction path generalizing its its' ys with
  | nil =>
    intro i h h'
    simp only [forIdx, Outcome.ok.injEq] at h h'
    subst h; subst h'
    exact ⟨.nil, fun j hj => absurd hj (by simp)⟩
  | cons c path ih =>
    intro i h h'
    simp only [forIdx, Outcome.bind_eq_ok, Outcome.pure_eq, Outcome.ok.injEq] at h h'
    obtain ⟨it, ⟨a, ha, tmp, ht, hz⟩, rest, hrest, rfl⟩ := h
    obtain ⟨it', ⟨a', ha', tmp', ht', hz'⟩, rest', hrest', rfl⟩ := h'
    cases hr with
    | @cons _ y _ ys r1 r2 =>
      cases hr' with
      | cons r1' r2' =>
        obtain ⟨b, hb1, hb2⟩ := hpth c (List.mem_cons_self ..)
        obtain ⟨g1, g2⟩ := ih r2 r2' (fun c hc => hpth c (List.mem_cons_of_mem _ hc)) (i + 1) hrest hrest'
        have key : ∀ (z z' : Outcome Int) (it it' : Item), z = z' → (∀ w, z = .ok w → ∃ v, PEnc (p * q) w v) →
            (z >>= fun z => Outcome.ok (⟨ρ.alpha i, z, tmp⟩ : Item)) = .ok it →
            (z' >>= fun z => Outcome.ok (⟨ρ'.alpha i, z, tmp'⟩ : Item)) = .ok it' →
            it.x = ρ.alpha i ∧ it.msg = tmp ∧ it'.x = ρ'.alpha i ∧ it'.msg = tmp' ∧ it.z = it'.z ∧ ∃ v, PEnc (p * q) it.z v := by
          rintro z z' it it' rfl hz h1 h2
          obtain ⟨w, hw, h1⟩ := Outcome.bind_eq_ok.1 h1
          obtain ⟨w', hw', h2⟩ := Outcome.bind_eq_ok.1 h2
          obtain rfl := Outcome.ok.inj (hw.symm.trans hw')
          rw [← Outcome.ok.inj h1, ← Outcome.ok.inj h2]
          exact ⟨rfl, rfl, rfl, rfl, rfl, hz w hw⟩
        have hk : it.x = ρ.alpha i ∧ it.msg = tmp ∧ it'.x = ρ'.alpha i ∧ it'.msg = tmp' ∧ it.z = it'.z ∧ ∃ v, PEnc (p * q) it.z v := by
          by_cases he : e.2 ≠ 1
          · rw [if_pos he] at hz hz'
            exact key _ _ _ _ rfl (fun w hw => ⟨_, K.mul hb2 hw⟩) hz hz'
          · rw [if_neg he] at hz hz'
            exact key _ _ _ _ rfl (fun w hw => ⟨b.2, Outcome.ok.inj hw ▸ hb2⟩) hz hz'
        obtain ⟨k1, k2, k3, k4, k5, k6⟩ := hk
        have y1 := r1 _ (by rw [k2]; exact K.add (K.enc_pub ha) hb1 ht)
        have y2 := r1' _ (by rw [k4]; exact K.add (K.enc_pub ha') hb1 ht')
        have hα : ρ.alpha i = ρ'.alpha i := by
          rw [y1] at y2
          have h1 : ρ.alpha i - e.1 + b.1 ≡ ρ'.alpha i - e.1 + b.1 [ZMOD ((p * q : Nat) : Int)] := y2
          have h2 : ρ.alpha i ≡ ρ'.alpha i [ZMOD ((p * q : Nat) : Int)] := by
            have := h1.sub (Int.ModEq.refl ((b.1 : Int) - e.1))
            have e1 : ∀ t : Int, t - e.1 + b.1 - ((b.1 : Int) - e.1) = t := fun t => by ring
            rwa [e1, e1] at this
          rw [Int.ModEq, Int.emod_eq_of_lt (hρ i).1 (hρ i).2, Int.emod_eq_of_lt (hρ' i).1 (hρ' i).2] at h2
          exact h2
        refine ⟨.cons ⟨by rw [k1, k3, hα], k5, k6⟩ g1, fun j hj => ?_⟩
        rcases j with _ | j
        · exact hα
        · have := g2 j (by simpa using hj)
          rwa [show i + (j + 1) = i + 1 + j by omega]

/-- Coins on which two draws of the masks agree: position `j` of the path of the `i`-th element. -/
def AgreeMasks (path path' : Nat → PathCoins) (lens : List Nat) : Prop :=
  ∀ i n, lens[i]? = some n → ∀ j < n, (path i).alpha j = (path' i).alpha j

theorem candidates_same (K : KeyPair p q mont pk sk) {hashOf : Nat → List Bool} {other : Upsi.Tree.Tree (Int × Int)}
    (hpath : ∀ e path, getPath other (hashOf e) = .ok path → ∀ c ∈ path, ∃ a, EncP (p * q) a c) {es : List EP}
    {path path' : Nat → PathCoins} (hρ : ∀ i, (path i).WF (p * q)) (hρ' : ∀ i, (path' i).WF (p * q))
    {gs gs' : List (List Item)} {ws ws' : List (List EncElem)} {ys : List (List Int)}
    (h : candidatesOf mont hashOf pk other es path = .ok (gs, ws)) (h' : candidatesOf mont hashOf pk other es path' = .ok (gs', ws'))
    (hy : forIdx (fun _ w => combineResp sk w) 0 ws = .ok ys) (hy' : forIdx (fun _ w => combineResp sk w) 0 ws' = .ok ys) :
    List.Forall₂ (SameItem (p * q)) gs.flatten gs'.flatten ∧ AgreeMasks path path' (gs.map List.length) := by
  simp only [candidatesOf, Outcome.bind_eq_ok, Outcome.pure_eq, Outcome.ok.injEq, Prod.mk.injEq] at h h'
  obtain ⟨gs2, h1, ws2, h2, e1, e2⟩ := h
  obtain ⟨gs3, h1', ws3, h2', e1', e2'⟩ := h'
  rw [e1] at h1 h2; rw [e2] at h2; rw [e1'] at h1' h2'; rw [e2'] at h2'
  clear e1 e2 e1' e2'
  have resp : ∀ {gs : List (List Item)} {ws : List (List EncElem)},
      forIdx (fun _ (g : List Item) => forIdx (fun _ it => serOnly it.msg) 0 g) 0 gs = .ok ws →
      forIdx (fun _ w => combineResp sk w) 0 ws = .ok ys →
      List.Forall₂ (fun (g : List Item) y => List.Forall₂ (RespRel (p * q)) g y) gs ys := by
    intro gs ws h2 hy
    refine forall₂_comp (forIdx_forall₂ _ _ _ h2) (forIdx_forall₂ _ _ _ hy) ?_
    rintro g w y ⟨_, a⟩ ⟨_, b⟩
    exact combineResp_rel K (forIdx_forall₂ _ _ _ a) b
  have r := resp h2 hy
  have r' := resp h2' hy'
  clear h2 h2' hy hy' resp
  suffices ∀ i, forIdx (fun i e => combineInit mont hashOf pk other e (path i)) i es = .ok gs →
      forIdx (fun i e => combineInit mont hashOf pk other e (path' i)) i es = .ok gs' →
      List.Forall₂ (SameItem (p * q)) gs.flatten gs'.flatten ∧
        AgreeMasks (fun k => path (i + k)) (fun k => path' (i + k)) (gs.map List.length) by
    have := this 0 h1 h1'
    simpa only [Nat.zero_add] using this
  clear h1 h1'
  induction es generalizing gs gs' ys with
  | nil =>
    intro i h h'
    simp only [forIdx, Outcome.ok.injEq] at h h'
    subst h; subst h'
    exact ⟨.nil, fun k n hk => by simp at hk⟩
  | cons e es ih =>
    intro i h h'
    simp only [forIdx, Outcome.bind_eq_ok, Outcome.pure_eq, Outcome.ok.injEq] at h h'
    obtain ⟨g, hg, rest, hrest, rfl⟩ := h
    obtain ⟨g', hg', rest', hrest', rfl⟩ := h'
    cases r with
    | cons r1 r2 =>
      cases r' with
      | cons r1' r2' =>
        obtain ⟨a1, a2⟩ := combineInit_same K (hpath e.1) (hρ i) (hρ' i) hg hg' r1 r1'
        obtain ⟨b1, b2⟩ := ih r2 r2' (i + 1) hrest hrest'
        rw [List.flatten_cons, List.flatten_cons]
        refine ⟨List.rel_append a1 b1, fun k n hk j hj => ?_⟩
        rcases k with _ | k
        · simp only [List.map_cons, List.getElem?_cons_zero, Option.some.injEq] at hk
          subst hk
          exact a2 j hj
        · simp only [List.map_cons, List.getElem?_cons_succ] at hk
          have := b2 k n hk j hj
          dsimp only at this ⊢
          rwa [show i + (k + 1) = i + 1 + k by omega]

/-! ### a day -/

theorem mirror_paths {n B : Nat} {hashOf : Nat → List Bool} (hh : ∀ e, (hashOf e).length = 256) {t : Upsi.Tree.Tree EP}
    {other : Upsi.Tree.Tree (Int × Int)} (hs : TWF (fun e : EP => hashOf e.1) t) (hm : Mirror (EncP n) (PadP B n) t other) :
    ∀ e path, getPath other (hashOf e) = .ok path → ∀ c ∈ path, ∃ a, EncP n a c := by
  intro e path hp
  obtain ⟨path', hp', h⟩ := mirror_path hs hm (hh e)
  rw [← Outcome.ok.inj (hp'.symm.trans hp)]
  exact h

/-- The draws of party zero that party one's messages are based on are the same. -/
structure SameZero (ρ ρ' : DelCoins) : Prop where
  hsh0 : ρ.round.hsh0 = ρ'.round.hsh0
  pads0 : ρ.round.pads0 = ρ'.round.pads0
  enc0 : ρ.round.enc0 = ρ'.round.enc0
  path0 : ρ.round.path0 = ρ'.round.path0

variable {p0 q0 p1 q1 : Nat} {k0 k1 : DKeys}

theorem viewZero_same (K : Keys p0 q0 p1 q1 mont k0 k1) {ro : List UInt8 → Nat} {h : Nat → List Bool}
    (hh : ∀ e, (h e).length = 256) {B : Nat} {X Y : List EP} {s : StDel} (hI : DInv h B (p0 * q0) (p1 * q1) X Y s.p0 s.p1)
    {xs ys : List EP} {ρ ρ' : DelCoins} (hρ : ρ.round.WF B (p0 * q0) (p1 * q1) xs ys) (hρ' : ρ'.round.WF B (p0 * q0) (p1 * q1) xs ys)
    (tX : (X ++ xs).length < 2 ^ 30) (hs : SameZero ρ ρ')
    (hβ : ∀ m, 0 ≤ ρ.gc1.beta m ∧ ρ.gc1.beta m < (p0 * q0 : Nat)) (hβ' : ∀ m, 0 ≤ ρ'.gc1.beta m ∧ ρ'.gc1.beta m < (p0 * q0 : Nat))
    {V V' : DelView} (h1 : viewDel ro mont h k0 k1 s xs ys ρ = .ok V) (h2 : viewDel ro mont h k0 k1 s xs ys ρ' = .ok V')
    (he : seenZero V = seenZero V') :
    AgreeMasks ρ.round.path1 ρ'.round.path1 (V.out.items1.map List.length) ∧
    (∀ m < V.out.items0.flatten.length, ρ.gc0.bit m = ρ'.gc0.bit m) ∧
    (∀ m < V.out.items1.flatten.length, ρ.gc1.bit m = ρ'.gc1.bit m) ∧
    (∀ m < V.out.items1.flatten.length, ρ.gc1.beta m = ρ'.gc1.beta m) := by
  have hI1 : delGenI mont h k0 s.p0 xs ρ'.round = delGenI mont h k0 s.p0 xs ρ.round := by
    simp only [delGenI, hs.hsh0, hs.pads0, hs.enc0, hs.path0]
  simp only [viewDel, hI1, Outcome.bind_eq_ok, Outcome.pure_eq, Outcome.ok.injEq] at h1 h2
  obtain ⟨⟨a, m1, g0⟩, e1, ⟨b, m2, r1, g1⟩, e2, ⟨c, r0⟩, e3, f1, e4, f2, e5, rfl⟩ := h1
  obtain ⟨⟨a', m1', g0'⟩, e1', ⟨b', m2', r1', g1'⟩, e2', ⟨c', r0'⟩, e3', f1', e4', f2', e5', rfl⟩ := h2
  obtain ⟨rfl, rfl, rfl⟩ : a = a' ∧ m1 = m1' ∧ g0 = g0' := by
    have := Outcome.ok.inj (e1.symm.trans e1'); simpa using this
  simp only [seenZero, Prod.mk.injEq] at he
  obtain ⟨hr0, hb1, hb2, ho2⟩ := he
  subst hr0
  simp only [delGenI, Outcome.bind_eq_ok, Outcome.pure_eq, Outcome.ok.injEq, Prod.mk.injEq, Prod.exists] at e1
  obtain ⟨u0, hu0, gs0, ws0, hc0, rfl, rfl, rfl⟩ := e1
  simp only [delGenII, Outcome.bind_eq_ok, Outcome.pure_eq, Outcome.ok.injEq, Prod.mk.injEq, Prod.exists] at e2 e2'
  obtain ⟨o1, ho1, ys1, hy1, u1, hu1, gs1, ws1, hc1, rfl, rfl, rfl, rfl⟩ := e2
  obtain ⟨o1', ho1', ys1', hy1', u1', hu1', gs1', ws1', hc1', rfl, rfl, rfl, rfl⟩ := e2'
  obtain rfl := Outcome.ok.inj (ho1.symm.trans ho1')
  obtain rfl := Outcome.ok.inj (hy1.symm.trans hy1')
  simp only [delRecvII, Outcome.bind_eq_ok, Outcome.pure_eq, Outcome.ok.injEq, Prod.mk.injEq] at e3 e3'
  obtain ⟨o0, _, z0, hz0, _, rfl⟩ := e3
  obtain ⟨o0', _, z0', hz0', _, rfl⟩ := e3'
  have hh' : ∀ e : EP, 256 ≤ ((fun e : EP => h e.1) e).length := fun e => by simp only [hh]; omega
  simp only [List.length_append] at tX
  obtain ⟨a1, a2, a3⟩ := mirror_step (mergeBucket_post h) hh' (isPad := PadP B (p0 * q0)) hρ.pads0 hI.wf0 hI.mir0
    hρ.hsh0 (by rw [hI.size0]; omega) (fun i j e _ w c hw hc => encPair_spec K.own0 hw hc) hu0 ho1
  obtain ⟨c1, c2⟩ := candidates_same K.own0 (mirror_paths hh a1 a3) hρ.path1 hρ'.path1 hc1 hc1' hz0 hz0'
  have d1 := gcPhaseV_bits K.own0 c1 e5 e5'
  -- party zero's own items are the same
  have self : List.Forall₂ (SameItem (p1 * q1)) gs0.flatten gs0.flatten :=
    (candidates_same K.own1 (mirror_paths hh hI.wf1 hI.mir1) hρ.path0 hρ.path0 hc0 hc0 hy1 hy1).1
  have d0 := gcPhaseV_bits K.own1 self e4 e4'
  exact ⟨c2, d0.1 hb1, d1.1 hb2, d1.2 hβ hβ' ho2⟩

theorem viewOne_same (K : Keys p0 q0 p1 q1 mont k0 k1) {ro : List UInt8 → Nat} {h : Nat → List Bool}
    (hh : ∀ e, (h e).length = 256) {B : Nat} {X Y : List EP} {s : StDel} (hI : DInv h B (p0 * q0) (p1 * q1) X Y s.p0 s.p1)
    {xs ys : List EP} {ρ ρ' : DelCoins} (hρ : ρ.round.WF B (p0 * q0) (p1 * q1) xs ys) (hρ' : ρ'.round.WF B (p0 * q0) (p1 * q1) xs ys)
    (hβ : ∀ m, 0 ≤ ρ.gc0.beta m ∧ ρ.gc0.beta m < (p1 * q1 : Nat)) (hβ' : ∀ m, 0 ≤ ρ'.gc0.beta m ∧ ρ'.gc0.beta m < (p1 * q1 : Nat))
    {V V' : DelView} (h1 : viewDel ro mont h k0 k1 s xs ys ρ = .ok V) (h2 : viewDel ro mont h k0 k1 s xs ys ρ' = .ok V')
    (he : seenOne V = seenOne V') :
    AgreeMasks ρ.round.path0 ρ'.round.path0 (V.out.items0.map List.length) ∧
    (∀ m < V.out.items0.flatten.length, ρ.gc0.beta m = ρ'.gc0.beta m) := by
  simp only [viewDel, Outcome.bind_eq_ok, Outcome.pure_eq, Outcome.ok.injEq] at h1 h2
  obtain ⟨⟨a, m1, g0⟩, e1, ⟨b, m2, r1, g1⟩, e2, ⟨c, r0⟩, e3, f1, e4, f2, e5, rfl⟩ := h1
  obtain ⟨⟨a', m1', g0'⟩, e1', ⟨b', m2', r1', g1'⟩, e2', ⟨c', r0'⟩, e3', f1', e4', f2', e5', rfl⟩ := h2
  simp only [seenOne, Prod.mk.injEq] at he
  obtain ⟨hr1, ho1⟩ := he
  subst hr1
  simp only [delGenI, Outcome.bind_eq_ok, Outcome.pure_eq, Outcome.ok.injEq, Prod.mk.injEq, Prod.exists] at e1 e1'
  obtain ⟨u0, hu0, gs0, ws0, hc0, rfl, rfl, rfl⟩ := e1
  obtain ⟨u0', hu0', gs0', ws0', hc0', rfl, rfl, rfl⟩ := e1'
  simp only [delGenII, Outcome.bind_eq_ok, Outcome.pure_eq, Outcome.ok.injEq, Prod.mk.injEq, Prod.exists] at e2 e2'
  obtain ⟨o1, _, ys1, hy1, u1, hu1, gs1, ws1, hc1, rfl, rfl, rfl, rfl⟩ := e2
  obtain ⟨o1', _, ys1', hy1', u1', hu1', gs1', ws1', hc1', rfl, rfl, rfl, rfl⟩ := e2'
  obtain ⟨c1, c2⟩ := candidates_same K.own1 (mirror_paths hh hI.wf1 hI.mir1) hρ.path0 hρ'.path0 hc0 hc0' hy1 hy1'
  exact ⟨c2, (gcPhaseV_bits K.own1 c1 e4 e4').2 hβ hβ' ho1⟩

end Upsi.View
