import Verif.Proto.GcLemmas
import Verif.Proto.DelModel
/- Helper lemmas for C46, C47: one message round between the two trees with deletions. -/
namespace Upsi.Tree
open Upsi

/-- If post-processing preserves `P`, all stored entries keep satisfying `P`. -/
theorem insertAll_preserves {α : Type} {hashOf : α → List Bool} {post : List α → List α}
    (hpost : PostOK hashOf post) {d c s : Nat} (hh : ∀ e, d ≤ (hashOf e).length) (P : α → Prop)
    (hP : ∀ b, (∀ e ∈ b, P e) → ∀ e ∈ post b, P e)
    (es : List α) : ∀ (ls : List Nat) (ns ns' : List (Node α)) (lost : List α),
    (∀ l ∈ ls, 2 ^ d ≤ l ∧ l < 2 ^ (d + 1)) → NodesWF hashOf d c s ns →
    (∀ e ∈ es, P e) → (∀ e ∈ ns.flatMap Node.elems, P e) →
    insertAll hashOf post d es ls ns = .ok (ns', lost) → ∀ e ∈ ns'.flatMap Node.elems, P e := by
  induction es with
  | nil => intro ls ns ns' lost _ _ _ hns h; simp [insertAll] at h; rw [← h.1]; exact hns
  | cons e es ih =>
    intro ls ns ns' lost h2 h3 he hns h
    match ls with
    | [] => simp [insertAll] at h
    | l :: ls =>
      have hl := h2 l (by simp)
      obtain ⟨ns1, lost1, bs, rest, p1, p2, p3, p4, p5, p6, p7, p8, p9, p10⟩ :=
        insertOne_spec hpost hh hl.1 hl.2 e h3
      simp only [insertAll, p1, Outcome.bind_ok, Outcome.bind_eq_ok, Outcome.pure_eq,
        Outcome.ok.injEq, Prod.mk.injEq] at h
      obtain ⟨⟨ns2, lost2⟩, h5, h6, h7⟩ := h
      subst h6
      refine ih ls ns1 ns2 lost2 (fun l hl => h2 l (by simp [hl])) p2 (fun x hx => he x (by simp [hx])) ?_ h5
      have hold : ∀ x ∈ rest ++ bs.flatten, P x := by
        intro x hx
        rcases List.mem_append.1 (p6.subset hx) with h | h
        · exact hns x h
        · simp at h; subst h; exact he x (by simp)
      intro x hx
      rcases List.mem_append.1 (p7.subset (List.mem_append_left _ hx)) with h | h
      · exact hold x (List.mem_append_left _ h)
      · obtain ⟨b, hb, hxb⟩ := List.mem_flatten.1 h
        obtain ⟨b0, hb0, rfl⟩ := List.mem_map.1 hb
        refine hP b0 (fun y hy => hold y (List.mem_append_right _ ?_)) x hxb
        exact List.mem_flatten.2 ⟨b0, hb0, hy⟩

theorem insertWith_preserves {α : Type} {hashOf : α → List Bool} {post : List α → List α}
    (hpost : PostOK hashOf post) (hh : ∀ e, 256 ≤ (hashOf e).length) (P : α → Prop)
    (hP : ∀ b, (∀ e ∈ b, P e) → ∀ e ∈ post b, P e) {t : Tree α} (ht : TWF hashOf t)
    {es : List α} {hsh : List (List Bool)} (hb : Batch.WF (es, hsh))
    (htot : es.length + t.actualSize < 2 ^ 30) (hes : ∀ e ∈ es, P e) (hz : ∀ e ∈ t.contents, P e)
    {x : InsertResult α} (hx : insertWith hashOf post t es hsh = .ok x) : ∀ e ∈ x.tree.contents, P e := by
  simp only [insertWith, Outcome.bind_eq_ok, Outcome.pure_eq, Outcome.ok.injEq] at hx
  obtain ⟨t1, e1, l, hl, ⟨ns, lost⟩, hins, rs, _, rfl⟩ := hx
  obtain ⟨t1', g1, g2, g3, g4, g5, g6, g7, g8, g9, g10⟩ := grow_spec hh ht htot
  rw [e1] at g1
  simp only [Outcome.ok.injEq] at g1
  subst g1
  have hd : ∀ x ∈ hsh, t1.depth ≤ x.length := fun x hx => by have := hb.2 x hx; omega
  rw [leafIndices_ok hd] at hl
  simp only [Outcome.ok.injEq] at hl
  subst hl
  refine insertAll_preserves hpost (fun e => by have := hh e; omega) P hP es _ t1.nodes ns lost ?_ g2 hes ?_ hins
  · intro l hl
    obtain ⟨y, hy, rfl⟩ := List.mem_map.1 hl
    exact leafAddr_bounds (hd y hy)
  · rw [g10, List.flatMap_append, replicate_flatMap_nil, List.append_nil]
    exact hz

end Upsi.Tree

namespace Upsi.Proto
open Upsi Upsi.Tree Upsi.Tree.Props Upsi.Num Upsi.Paillier

theorem payloadSum_append (k : Nat) (a b : List EP) : payloadSum k (a ++ b) = payloadSum k a + payloadSum k b := by
  simp [payloadSum]

theorem payloadSum_perm (k : Nat) {a b : List EP} (h : a.Perm b) : payloadSum k a = payloadSum k b :=
  ((h.filter _).map _).sum_eq

/-- The tree after an update holds the old net payloads plus the new ones, up to what was dropped. -/
theorem sendUpdate_net {ω : Type} {h : Nat → List Bool} (hh : ∀ e, (h e).length = 256)
    {enc : Nat → Nat → EP → Outcome ω} {pads : Nat → Nat → EP} {s : Upsi.Tree.Tree EP}
    (hs : TWF (fun e : EP => h e.1) s) {es : List EP} {hsh : List (List Bool)} (hb : Batch.WF (es, hsh))
    (htot : es.length + s.actualSize < 2 ^ 30) {x : SendResult EP ω}
    (hx : sendUpdate (fun e : EP => h e.1) mergeBucket enc pads s es hsh = .ok x) :
    (∀ k, payloadSum k x.tree.contents + payloadSum k x.lost = payloadSum k s.contents + payloadSum k es) ∧
    (∀ B, (∀ e ∈ es, e.1 < B) → (∀ e ∈ s.contents, e.1 < B) → ∀ e ∈ x.tree.contents, e.1 < B) := by
  have hh' : ∀ e : EP, 256 ≤ ((fun e : EP => h e.1) e).length := fun e => by simp only [hh]; omega
  simp only [sendUpdate, Outcome.bind_eq_ok, Outcome.pure_eq, Outcome.ok.injEq] at hx
  obtain ⟨ri, hri, ws, hws, rfl⟩ := hx
  refine ⟨fun k => ?_, fun B h1 h2 => ?_⟩
  · obtain ⟨ri', k1, _, _, _, _, _, _, k8, _⟩ := insertWith_spec (mergeBucket_post h) hh'
      (fun e : EP => if e.1 = k then e.2 else (0 : Int)) (fun b => net_mergeBucket k b) hs hb htot
    rw [hri] at k1
    simp only [Outcome.ok.injEq] at k1
    subst k1
    simp only [← net_eq_payloadSum]
    exact k8
  · refine insertWith_preserves (mergeBucket_post h) hh' (fun e : EP => e.1 < B) ?_ hs hb htot h1 h2 hri
    intro b hbb e he
    obtain ⟨e', k1, k2⟩ := mergeBucket_keys b e he
    rw [k2]; exact hbb e' k1

/-- A pair of ciphertexts of an entry. -/
def EncP (n : Nat) (e : EP) (c : Int × Int) : Prop := PEnc n c.1 (e.1 : Int) ∧ PEnc n c.2 e.2

/-- Padding entries: their element lies between the element bound `B` and the modulus. -/
def PadP (B n : Nat) (e : EP) : Prop := B ≤ e.1 ∧ e.1 < n

variable {p q : Nat} {mont : Int → Option Mont} {pk : Public} {sk : Private}

theorem encPair_spec (K : KeyPair p q mont pk sk) {t : Nat → Int} {e : EP} {w : EncElem} {c : Int × Int}
    (h : encPair mont sk t e = .ok w) (h' : deserPair w = .ok c) : EncP (p * q) e c := by
  simp only [encPair, Outcome.bind_eq_ok, Outcome.pure_eq, Outcome.ok.injEq] at h
  obtain ⟨a, ha, b, hb, wa, hwa, wb, hwb, rfl⟩ := h
  simp only [deserPair, Outcome.ok.injEq] at h'
  subst h'
  rw [toBytes_inv hwa, toBytes_inv hwb]
  refine ⟨K.enc_priv ha, ?_⟩
  have := K.enc_priv hb
  refine this.congr ?_
  split
  · rw [K.priv.ns, pow_one]
    exact Int.modEq_iff_dvd.2 ⟨-1, by ring⟩
  · exact Int.ModEq.refl _

theorem serOnly_inv {x y : Int} {w : EncElem} (h : serOnly x = .ok w) (h' : deserOnly w = .ok y) : y = x := by
  simp only [serOnly, Outcome.bind_eq_ok, Outcome.pure_eq, Outcome.ok.injEq] at h
  obtain ⟨b, hb, rfl⟩ := h
  simp only [deserOnly, Outcome.ok.injEq] at h'
  rw [← h', toBytes_inv hb]

/-- What the initiator's item for one path entry `a` looks like. -/
def CombRel (n : Nat) (e a : EP) (it : Item) : Prop :=
  0 ≤ it.x ∧ it.x < n ∧ PEnc n it.msg (it.x - e.1 + a.1) ∧ PEnc n it.z (e.2 * a.2)

/-- The responder's value for an item. -/
def RespRel (n : Nat) (it : Item) (y : Int) : Prop := ∀ m, PEnc n it.msg m → y = m % n

theorem group_of_rel {n : Nat} {e : EP} (he : e.1 < n) {l : List EP} {its : List Item} {ys : List Int}
    (h : List.Forall₂ (CombRel n e) l its) (h' : List.Forall₂ (RespRel n) its ys) (hl : ∀ a ∈ l, a.1 < n) :
    GroupOK n (e.2 * payloadSum e.1 l) its ys := by
  induction h generalizing ys with
  | nil => cases h'; simpa [payloadSum] using GroupOK.nil n
  | @cons a it l its h1 h2 ih =>
    cases h' with
    | @cons _ y _ ys k1 k2 =>
    have hs := ih k2 (fun b hb => hl b (by simp [hb]))
    have ha := hl a (by simp)
    obtain ⟨x0, x1, hm, hz⟩ := h1
    have hy := k1 _ hm
    have hiff : (it.x = y) ↔ a.1 = e.1 := by
      rw [hy]
      constructor
      · intro hx
        have h1 : it.x ≡ it.x - e.1 + a.1 [ZMOD (n : Int)] := by
          have h2 : it.x % (n : Int) = it.x := Int.emod_eq_of_lt x0 x1
          show it.x % (n : Int) = _
          rw [h2]; exact hx
        obtain ⟨t, ht⟩ := Int.modEq_iff_dvd.1 h1
        have : -1 < t := by nlinarith
        have : t < 1 := by nlinarith
        obtain rfl : t = 0 := by omega
        omega
      · intro h
        rw [h, show it.x - (e.1 : Int) + (e.1 : Int) = it.x by ring, Int.emod_eq_of_lt x0 x1]
    have hone : GroupOK n (if a.1 = e.1 then e.2 * a.2 else 0) [it] [y] :=
      ⟨rfl, [if a.1 = e.1 then e.2 * a.2 else 0],
        .cons ⟨_, hz, by simp only [hiff]⟩ .nil, by simp⟩
    have := hone.append hs
    rw [show e.2 * payloadSum e.1 (a :: l) = (if a.1 = e.1 then e.2 * a.2 else 0) + e.2 * payloadSum e.1 l by
      unfold payloadSum
      by_cases hk : a.1 = e.1 <;> simp [hk]; ring]
    exact this

/-- Coins of the path combination: the random `alpha`s are drawn below the modulus. -/
def PathCoins.WF (n : Nat) (ρ : PathCoins) : Prop := ∀ j, 0 ≤ ρ.alpha j ∧ ρ.alpha j < n

theorem combineInit_rel (K : KeyPair p q mont pk sk) {other : Upsi.Tree.Tree (Int × Int)} {e : EP}
    {h : Nat → List Bool} {ρ : PathCoins} (hρ : ρ.WF (p * q)) {l : List EP} {path : List (Int × Int)}
    (hp : getPath other (h e.1) = .ok path) (hl : List.Forall₂ (EncP (p * q)) l path) {its : List Item}
    (hi : combineInit mont h pk other e ρ = .ok its) : List.Forall₂ (CombRel (p * q) e) l its := by
  simp only [combineInit, hp, Outcome.bind_ok] at hi
  refine forall₂_comp hl (forIdx_forall₂ _ _ _ hi) ?_
  rintro a c it ⟨h1, h2⟩ ⟨j, h3⟩
  simp only [Outcome.bind_eq_ok, Outcome.pure_eq] at h3
  obtain ⟨u, hu, tmp, ht, h3⟩ := h3
  split at h3
  · simp only [Outcome.bind_eq_ok, Outcome.ok.injEq] at h3
    obtain ⟨z, hz, rfl⟩ := h3
    refine ⟨(hρ j).1, (hρ j).2, K.add (K.enc_pub hu) h1 ht, (K.mul h2 hz).congr ?_⟩
    rw [mul_comm e.2]
    split
    · rw [K.pub.hn]
      exact Int.modEq_iff_dvd.2 ⟨-a.2, by ring⟩
    · exact Int.ModEq.refl _
  · rename_i h1'
    simp only [ne_eq, not_not] at h1'
    simp only [Outcome.bind_ok, Outcome.ok.injEq] at h3
    subst h3
    refine ⟨(hρ j).1, (hρ j).2, K.add (K.enc_pub hu) h1 ht, ?_⟩
    rw [h1', one_mul]; exact h2

theorem combineResp_rel (K : KeyPair p q mont pk sk) {its : List Item} {ws : List EncElem} {ys : List Int}
    (hw : List.Forall₂ (fun (it : Item) w => ∃ _ : Nat, serOnly it.msg = .ok w) its ws)
    (h : combineResp sk ws = .ok ys) : List.Forall₂ (RespRel (p * q)) its ys := by
  simp only [combineResp, Outcome.bind_eq_ok] at h
  obtain ⟨cs, h1, h2⟩ := h
  have h3 : List.Forall₂ (fun (it : Item) c => c = it.msg) its cs :=
    forall₂_comp hw (forIdx_forall₂ _ _ _ h1) (fun it w c ⟨_, a⟩ ⟨_, b⟩ => serOnly_inv a b)
  refine forall₂_comp h3 (forIdx_forall₂ _ _ _ h2) ?_
  rintro it c y rfl ⟨_, hd⟩ m hm
  exact K.dec hm hd

theorem forall₂_zip_mk {α β γ : Type} {R : α → β → Prop} {S : β → γ → Prop} {T : α → β × γ → Prop} {l : List α}
    {m : List β} {n : List γ} (h : List.Forall₂ R l m) (h' : List.Forall₂ S m n)
    (hT : ∀ a ∈ l, ∀ b c, R a b → S b c → T a (b, c)) : List.Forall₂ T l (m.zip n) ∧ m.length = n.length := by
  induction h generalizing n with
  | nil => cases h'; exact ⟨.nil, rfl⟩
  | cons h1 _ ih =>
    cases h' with
    | cons h2 h3 =>
      obtain ⟨k1, k2⟩ := ih h3 (fun a ha => hT a (by simp [ha]))
      exact ⟨.cons (hT _ (by simp) _ _ h1 h2) k1, by simp [k2]⟩

/-- The circuit inputs of a list of elements: per element, the contributions sum to the element's
payload times the payload of the same element in `Z`. -/
def GroupsOK (n : Nat) (es Z : List EP) (its : List (List Item)) (ys : List (List Int)) : Prop :=
  List.Forall₂ (fun (e : EP) (g : List Item × List Int) => GroupOK n (e.2 * payloadSum e.1 Z) g.1 g.2) es
    (its.zip ys) ∧ its.length = ys.length

theorem candidates_groups (K : KeyPair p q mont pk sk) {h : Nat → List Bool} (hh : ∀ e, (h e).length = 256)
    {B : Nat} (hB : B ≤ p * q) {s : Upsi.Tree.Tree EP} {other : Upsi.Tree.Tree (Int × Int)}
    (hs : TWF (fun e : EP => h e.1) s) (hm : Mirror (EncP (p * q)) (PadP B (p * q)) s other)
    (hk : ∀ a ∈ s.contents, a.1 < B) {es : List EP} (hes : ∀ e ∈ es, e.1 < B) {path : Nat → PathCoins}
    (hρ : ∀ i, (path i).WF (p * q)) {gs : List (List Item)} {ws : List (List EncElem)}
    (hc : candidatesOf mont h pk other es path = .ok (gs, ws)) {ys : List (List Int)}
    (hy : forIdx (fun _ w => combineResp sk w) 0 ws = .ok ys) :
    GroupsOK (p * q) es s.contents gs ys := by
  simp only [candidatesOf, Outcome.bind_eq_ok, Outcome.pure_eq, Outcome.ok.injEq, Prod.mk.injEq] at hc
  obtain ⟨gs', h1, ws', h2, rfl, rfl⟩ := hc
  have r2 : List.Forall₂ (fun (g : List Item) y => List.Forall₂ (RespRel (p * q)) g y) gs' ys := by
    refine forall₂_comp (forIdx_forall₂ _ _ _ h2) (forIdx_forall₂ _ _ _ hy) ?_
    rintro g w y ⟨_, a⟩ ⟨_, b⟩
    exact combineResp_rel K (forIdx_forall₂ _ _ _ a) b
  refine forall₂_zip_mk (forIdx_forall₂ _ _ _ h1) r2 ?_
  rintro e he g y ⟨i, a⟩ b
  have a' := a
  simp only [combineInit, Outcome.bind_eq_ok] at a'
  obtain ⟨pth, hpth, _⟩ := a'
  obtain ⟨l, l1, l2, l3⟩ := path_mirror (key := Prod.fst) hh hs hm hB hk (hes e he) hpth
  have := group_of_rel (by have := hes e he; omega) (combineInit_rel K (hρ i) hpth l1 a) b l2
  have hsum : payloadSum e.1 l = payloadSum e.1 s.contents := (l3.map _).sum_eq
  rw [hsum] at this
  exact this

/-! ### the round -/

/-- Keys of both parties: party zero holds the private key of modulus `p0*q0` and the public key of
`p1*q1`, party one the other way round. -/
structure Keys (p0 q0 p1 q1 : Nat) (mont : Int → Option Mont) (k0 k1 : DKeys) : Prop where
  own0 : KeyPair p0 q0 mont k1.pk k0.sk
  own1 : KeyPair p1 q1 mont k0.pk k1.sk

/-- Well-formed coins of a round. -/
structure RoundCoins.WF (B n0 n1 : Nat) (xs ys : List EP) (ρ : RoundCoins) : Prop where
  hsh0 : Batch.WF (xs, ρ.hsh0)
  hsh1 : Batch.WF (ys, ρ.hsh1)
  pads0 : ∀ i j, B ≤ (ρ.pads0 i j).1 ∧ (ρ.pads0 i j).1 < n0
  pads1 : ∀ i j, B ≤ (ρ.pads1 i j).1 ∧ (ρ.pads1 i j).1 < n1
  path0 : ∀ i, (ρ.path0 i).WF n1
  path1 : ∀ i, (ρ.path1 i).WF n0

/-- Invariant of the two parties' trees after `X` and `Y` have been inserted. -/
structure DInv (h : Nat → List Bool) (B n0 n1 : Nat) (X Y : List EP) (s0 s1 : DSt) : Prop where
  wf0 : TWF (fun e : EP => h e.1) s0.my
  wf1 : TWF (fun e : EP => h e.1) s1.my
  size0 : s0.my.actualSize = X.length
  size1 : s1.my.actualSize = Y.length
  keys0 : ∀ e ∈ s0.my.contents, e.1 < B
  keys1 : ∀ e ∈ s1.my.contents, e.1 < B
  net0 : ∀ k, payloadSum k s0.my.contents + payloadSum k s0.lost = payloadSum k X
  net1 : ∀ k, payloadSum k s1.my.contents + payloadSum k s1.lost = payloadSum k Y
  mir0 : Mirror (EncP n0) (PadP B n0) s0.my s1.other
  mir1 : Mirror (EncP n1) (PadP B n1) s1.my s0.other

theorem DInv.init (h : Nat → List Bool) (B n0 n1 stash node : Nat) :
    DInv h B n0 n1 [] [] (DSt.init stash node) (DSt.init stash node) := by
  refine ⟨empty_wf _ _ _, empty_wf _ _ _, rfl, rfl, ?_, ?_, ?_, ?_, mirror_empty _ _ _ _ _ _,
    mirror_empty _ _ _ _ _ _⟩ <;> simp [DSt.init, Tree.contents, Tree.empty, payloadSum]

theorem GroupsOK.congr {n : Nat} {es Z Z' : List EP} {its : List (List Item)} {ys : List (List Int)}
    (h : GroupsOK n es Z its ys) (hz : ∀ k, payloadSum k Z = payloadSum k Z') : GroupsOK n es Z' its ys :=
  ⟨forall₂_mono h.1 (fun e _ g hg => by rw [← hz]; exact hg), h.2⟩

theorem round_spec {p0 q0 p1 q1 : Nat} {k0 k1 : DKeys} (K : Keys p0 q0 p1 q1 mont k0 k1)
    {h : Nat → List Bool} (hh : ∀ e, (h e).length = 256) {B : Nat} (hB0 : B ≤ p0 * q0) (hB1 : B ≤ p1 * q1)
    {X Y xs ys : List EP} {s0 s1 s0' s1' : DSt} (hI : DInv h B (p0 * q0) (p1 * q1) X Y s0 s1)
    {ρ : RoundCoins} (hρ : ρ.WF B (p0 * q0) (p1 * q1) xs ys)
    (hX : ∀ e ∈ xs, e.1 < B) (hY : ∀ e ∈ ys, e.1 < B)
    (tX : (X ++ xs).length < 2 ^ 30) (tY : (Y ++ ys).length < 2 ^ 30) {o : RoundOut}
    (hr : roundDel mont h k0 k1 s0 s1 xs ys ρ = .ok (s0', s1', o)) :
    DInv h B (p0 * q0) (p1 * q1) (X ++ xs) (Y ++ ys) s0' s1' ∧ s0.lost <+: s0'.lost ∧ s1.lost <+: s1'.lost ∧
    (s0'.lost = [] → s1'.lost = [] → GroupsOK (p1 * q1) xs Y o.items0 o.resp1 ∧
      GroupsOK (p0 * q0) ys (X ++ xs) o.items1 o.resp0) := by
  simp only [roundDel, delGenI, delGenII, delRecvII, Outcome.bind_eq_ok, Outcome.pure_eq, Outcome.ok.injEq,
    Prod.mk.injEq, Prod.exists] at hr
  obtain ⟨t0, m1, g0, ⟨u0, hu0, gs0, ws0, hc0, rfl, rfl, rfl⟩, t1, m2, r1, g1,
    ⟨other1, ho1, ys1, hy1, u1, hu1, gs1, ws1, hc1, rfl, rfl, rfl, rfl⟩, t0', r0,
    ⟨other0, ho0, ys0, hy0, rfl, rfl⟩, rfl, rfl, rfl⟩ := hr
  simp only [List.length_append] at tX tY
  have hh' : ∀ e : EP, 256 ≤ ((fun e : EP => h e.1) e).length := fun e => by simp only [hh]; omega
  obtain ⟨a1, a2, a3⟩ := mirror_step (mergeBucket_post h) hh' (isPad := PadP B (p0 * q0)) hρ.pads0 hI.wf0 hI.mir0
    hρ.hsh0 (by rw [hI.size0]; omega) (fun i j e _ w c hw hc => encPair_spec K.own0 hw hc) hu0 ho1
  obtain ⟨b1, b2, b3⟩ := mirror_step (mergeBucket_post h) hh' (isPad := PadP B (p1 * q1)) hρ.pads1 hI.wf1 hI.mir1
    hρ.hsh1 (by rw [hI.size1]; omega) (fun i j e _ w c hw hc => encPair_spec K.own1 hw hc) hu1 ho0
  obtain ⟨a4, a5⟩ := sendUpdate_net hh hI.wf0 hρ.hsh0 (by rw [hI.size0]; omega) hu0
  obtain ⟨b4, b5⟩ := sendUpdate_net hh hI.wf1 hρ.hsh1 (by rw [hI.size1]; omega) hu1
  have a6 := a5 B hX hI.keys0
  have b6 := b5 B hY hI.keys1
  have a7 : ∀ k, payloadSum k u0.tree.contents + payloadSum k (s0.lost ++ u0.lost) = payloadSum k (X ++ xs) := by
    intro k
    rw [payloadSum_append, payloadSum_append]
    have := a4 k; have := hI.net0 k; omega
  have b7 : ∀ k, payloadSum k u1.tree.contents + payloadSum k (s1.lost ++ u1.lost) = payloadSum k (Y ++ ys) := by
    intro k
    rw [payloadSum_append, payloadSum_append]
    have := b4 k; have := hI.net1 k; omega
  refine ⟨⟨a1, b1, by simp [a2, hI.size0], by simp [b2, hI.size1], a6, b6, a7, b7, a3, b3⟩,
    List.prefix_append _ _, List.prefix_append _ _, ?_⟩
  intro l0 l1
  simp only at l0 l1
  constructor
  · refine (candidates_groups K.own1 hh hB1 hI.wf1 hI.mir1 hI.keys1 hX hρ.path0 hc0 hy1).congr ?_
    intro k
    have := hI.net1 k
    rw [(List.append_eq_nil_iff.1 l1).1] at this
    simpa [payloadSum] using this
  · refine (candidates_groups K.own0 hh hB0 a1 a3 a6 hY hρ.path1 hc1 hy0).congr ?_
    intro k
    have := a7 k
    rw [l0] at this
    simpa [payloadSum] using this

end Upsi.Proto
