import Verif.Proto.AddProps
import Verif.Tree.Props2
/-
Helper lemmas for C63: which ways of ending are possible for a run between honest parties.
-/
namespace Upsi
/-- The call returns normally with a result satisfying `Q`, or with an error whose text satisfies `E`; it does
not abort and has no undefined behaviour. -/
def Outcome.Only {α : Type u} (E : String → Prop) (Q : α → Prop) : Outcome α → Prop
  | .ok a => Q a
  | .err m => E m
  | .abort => False
  | .ub => False

namespace Outcome

theorem Only.of_ok {E : String → Prop} {Q : α → Prop} {o : Outcome α} {a : α} (h : o = .ok a) (hq : Q a) : o.Only E Q := by
  rw [h]; exact hq

theorem Only.bind {α β : Type u} {E : String → Prop} {Q : α → Prop} {R : β → Prop} {x : Outcome α} {f : α → Outcome β}
    (hx : x.Only E Q) (hf : ∀ a, x = .ok a → Q a → (f a).Only E R) : (x >>= f).Only E R := by
  cases x with
  | ok a => exact hf a rfl hx
  | err m => exact hx
  | abort => exact hx
  | ub => exact hx

theorem Only.mono {E E' : String → Prop} {Q R : α → Prop} {x : Outcome α} (hx : x.Only E Q)
    (hE : ∀ m, E m → E' m) (hQ : ∀ a, x = .ok a → Q a → R a) : x.Only E' R := by
  cases x with
  | ok a => exact hQ a rfl hx
  | err m => exact hE m hx
  | abort => exact hx
  | ub => exact hx

theorem Only.cases {E : String → Prop} {Q : α → Prop} {x : Outcome α} (hx : x.Only E Q) :
    (∃ a, x = .ok a ∧ Q a) ∨ ∃ m, x = .err m ∧ E m := by
  cases x with
  | ok a => exact Or.inl ⟨a, rfl, hx⟩
  | err m => exact Or.inr ⟨m, rfl, hx⟩
  | abort => exact hx.elim
  | ub => exact hx.elim

end Outcome
end Upsi

namespace Upsi.Tree
open Upsi

theorem insertWith_noloss {hashOf : α → List Bool} (hh : ∀ e, 256 ≤ (hashOf e).length) {t : Tree α}
    (ht : TWF hashOf t) {es : List α} {hsh : List (List Bool)} (hb : Batch.WF (es, hsh))
    (hs : es.length + t.actualSize < 2 ^ 30) (hst : t.contents.length + es.length ≤ t.stashSize)
    {x : InsertResult α} (hx : insertWith hashOf id t es hsh = .ok x) : x.lost = [] := by
  have h1 : runBatches hashOf id t [(es, hsh)] = .ok ⟨x.tree, [x.update], x.lost⟩ := by
    simp [runBatches, hx]
  exact runBatches_noloss hh [(es, hsh)] t _ ht (by simpa using hb) (by simpa [total] using hs)
    (by simpa [total] using hst) h1

theorem encElems_only {enc : Nat → α → Outcome ω} {E : String → Prop} {Q : ω → Prop} (as : List α)
    (h : ∀ j, ∀ a ∈ as, (enc j a).Only E Q) : ∀ j, (encElems enc j as).Only E (fun ws => ∀ w ∈ ws, Q w) := by
  induction as with
  | nil => intro j; exact fun w hw => by simp at hw
  | cons a as ih =>
    intro j
    refine (h j a (by simp)).bind fun w _ hw => ?_
    refine (ih (fun j b hb => h j b (by simp [hb])) (j + 1)).bind fun ws _ hws => ?_
    intro v hv
    rcases List.mem_cons.1 hv with rfl | hv
    · exact hw
    · exact hws v hv

theorem encNodes_only {enc : Nat → Nat → α → Outcome ω} {pads : Nat → Nat → α} {E : String → Prop}
    {Q : ω → Prop} (ns : List (Node α)) (h : ∀ i j, ∀ a, (a ∈ ns.flatMap Node.elems ∨ ∃ k l, a = pads k l) → (enc i j a).Only E Q) :
    ∀ i, (encNodes enc pads i ns).Only E (fun ws => ∀ n ∈ ws, ∀ w ∈ n, Q w) := by
  induction ns with
  | nil => intro j; exact fun w hw => by simp at hw
  | cons n ns ih =>
    intro i
    refine Outcome.Only.bind (Q := fun ws => ∀ w ∈ ws, Q w) ?_ fun w _ hw => ?_
    · refine (encElems_only (Q := Q) (padNode n (pads i)).elems (fun j a ha => h i j a ?_) 0).bind fun ws _ hws => ?_
      · simp only [padNode, List.mem_append, List.mem_map] at ha
        rcases ha with ha | ⟨l, _, rfl⟩
        · exact Or.inl (by simp [ha])
        · exact Or.inr ⟨i, l, rfl⟩
      · exact fun w hw => hws w (List.mem_of_mem_take hw)
    · refine (ih (fun i j a ha => h i j a ?_) (i + 1)).bind fun ws _ hws => ?_
      · rcases ha with ha | ha
        · exact Or.inl (by simp only [List.flatMap_cons, List.mem_append]; exact Or.inr ha)
        · exact Or.inr ha
      · intro v hv
        rcases List.mem_cons.1 hv with rfl | hv
        · exact hw
        · exact hws v hv

/-- The sender's half of an update: it never crashes; what is sent satisfies `Q`. -/
theorem sendUpdate_only {hashOf : α → List Bool} (hh : ∀ e, (hashOf e).length = 256) {post : List α → List α}
    (hpost : PostOK hashOf post) {enc : Nat → Nat → α → Outcome ω} {pads : Nat → Nat → α} {t : Tree α}
    (ht : TWF hashOf t) {es : List α} {hsh : List (List Bool)} (hb : Batch.WF (es, hsh))
    (hs : es.length + t.actualSize < 2 ^ 30) {E : String → Prop} {Q : ω → Prop}
    (hE : ∀ ri, insertWith hashOf post t es hsh = .ok ri → ∀ i j a,
      (a ∈ ri.tree.contents ∨ ∃ k l, a = pads k l) → (enc i j a).Only E Q) :
    (sendUpdate hashOf post enc pads t es hsh).Only E (fun x => (∀ n ∈ x.msg.nodes, ∀ w ∈ n, Q w) ∧
      x.tree.stashSize = t.stashSize ∧ ∃ ri, insertWith hashOf post t es hsh = .ok ri ∧ ri.lost = x.lost) := by
  obtain ⟨ri, k1, k2, k3, k4, k5, k6, k7, k8, k9, k10, k11⟩ := insertWith_spec (M := Nat) hpost
    (fun e => by rw [hh e]) (fun _ => 0) (fun b => by simp [wsum]) ht hb hs
  unfold sendUpdate
  rw [k1, Outcome.bind_ok]
  refine (encNodes_only (Q := Q) ri.update (fun i j a ha => hE ri k1 i j a ?_) 0).bind fun ws _ hws => ?_
  · rcases ha with ha | ha
    · left
      obtain ⟨n, hn, han⟩ := List.mem_flatMap.1 ha
      obtain ⟨i, hi⟩ := List.mem_iff_getElem?.1 hn
      rw [k10 i] at hi
      obtain ⟨u, _, hu⟩ := Option.bind_eq_some_iff.1 hi
      exact List.mem_flatMap.2 ⟨n, List.mem_of_getElem? hu, han⟩
    · exact Or.inr ha
  · exact ⟨hws, k4, ri, rfl, rfl⟩

end Upsi.Tree

namespace Upsi.Proto
open Upsi Upsi.ElGamal Upsi.Tree Upsi.Num

variable {α β γ κ P G δ σ : Type}

theorem forIdx_only {f : Nat → α → Outcome β} {E : String → Prop} {Q : β → Prop} (l : List α)
    (h : ∀ i, ∀ a ∈ l, (f i a).Only E Q) : ∀ i, (forIdx f i l).Only E (fun bs => ∀ b ∈ bs, Q b) := by
  induction l with
  | nil => intro j; exact fun w hw => by simp at hw
  | cons a as ih =>
    intro j
    refine (h j a (by simp)).bind fun w _ hw => ?_
    refine (ih (fun j b hb => h j b (by simp [hb])) (j + 1)).bind fun ws _ hws => ?_
    intro v hv
    rcases List.mem_cons.1 hv with rfl | hv
    · exact hw
    · exact hws v hv

variable [AddCommGroup G] [DecidableEq G]

/-- What a functionality must satisfy for a run never to crash: `K` – payloads that can be put on the wire;
`PayOK` – entries that can be encrypted; `G1` `G2` `G3` – acceptable coins for the tree, for party zero's
payloads and for party one's answers. -/
structure FuncTotal (S : Setup G) (F : Func G P γ κ) (Pay : P → κ → Prop) (E : String → Prop) (PayOK : P → Prop)
    (K : κ → Prop) (G1 G2 G3 : Tape → Prop) : Prop where
  tree : ∀ t p, G1 t → PayOK p → (F.encTree S.pk t p).Only E (fun w => ∃ c, F.deserTree w = .ok c)
  payload : ∀ t p, G2 t → PayOK p → (F.payload S.pk t p).Only E K
  ser : ∀ c k, K k → (F.ser c k).Only E (fun w => ∃ x, F.deser w = .ok x ∧ K x.2)
  mask : ∀ t x, K x.2 → K (F.mask t x).2
  send : ∀ t x, G3 t → K x.2 → (F.send S.pk S.sk1 t x).Only E (fun w => ∃ x, F.deser w = .ok x ∧ K x.2)
  pay : ∀ p k, Pay p k → K k

/-- The error text of the serialization of the point at infinity. -/
def InfErr (m : String) : Prop := m = "EC_POINT_point2oct failed"

theorem pointToBytes_only (c : Codec G) (p : G) : (pointToBytes c p).Only InfErr (fun b => createECPoint c b = .ok p) := by
  unfold pointToBytes
  split
  · exact rfl
  · rename_i h
    simp only [Outcome.Only, createECPoint, c.dec_enc p h]
    rw [if_neg h]

theorem serializeCt_only (c : Codec G) (x : Ct G) :
    (serializeCt c x).Only InfErr (fun w => deserializeCt c w = .ok x) := by
  unfold serializeCt
  refine (pointToBytes_only c x.u).bind fun u _ hu => (pointToBytes_only c x.e).bind fun e _ he => ?_
  simp only [Outcome.Only, Outcome.pure_eq, deserializeCt, hu, he, Outcome.bind_ok]

theorem serNoPayload_only (c : Codec G) (x : Ct G) : (serNoPayload c x).Only InfErr
    (fun w => deserNoPayload c w = .ok x ∧ deserTreeCt c w = .ok x) :=
  (serializeCt_only c x).bind fun p _ hp => ⟨hp, hp⟩

theorem serElGamal_only (c : Codec G) (x k : Ct G) : (serElGamal c x k).Only InfErr
    (fun w => deserElGamal c w = .ok (x, k)) :=
  (serializeCt_only c x).bind fun p _ hp => (serializeCt_only c k).bind fun r _ hr => by
    simp only [Outcome.Only, Outcome.pure_eq, deserElGamal, hp, hr, Outcome.bind_ok]

omit [DecidableEq G] [AddCommGroup G] in
theorem forIdx_ok {f : Nat → α → Outcome β} {R : α → β → Prop} (l : List α) (h : ∀ i, ∀ a ∈ l, ∃ b, f i a = .ok b ∧ R a b) :
    ∀ i, ∃ bs, forIdx f i l = .ok bs ∧ List.Forall₂ R l bs := by
  induction l with
  | nil => intro i; exact ⟨[], rfl, .nil⟩
  | cons a as ih =>
    intro i
    obtain ⟨b, hb, hr⟩ := h i a (by simp)
    obtain ⟨bs, hbs, hrs⟩ := ih (fun j c hc => h j c (by simp [hc])) (i + 1)
    exact ⟨b :: bs, by simp [forIdx, hb, hbs], .cons hr hrs⟩

omit [DecidableEq G] [AddCommGroup G] in
theorem mirror_shape {Enc : α → β → Prop} {isPad : α → Prop} {s : Upsi.Tree.Tree α} {r : Upsi.Tree.Tree β}
    (h : Mirror Enc isPad s r) : Props.SameShape s r := ⟨h.depth, h.size, h.count⟩

omit [DecidableEq G] [AddCommGroup G] in
/-- A path lookup in a mirror never fails, and every entry found is related to some entry of the original. -/
theorem mirror_path {hashOf : α → List Bool} {Enc : α → β → Prop} {isPad : α → Prop} {s : Upsi.Tree.Tree α}
    {r : Upsi.Tree.Tree β} (hs : TWF hashOf s) (h : Mirror Enc isPad s r) {y : List Bool} (hy : y.length = 256) :
    ∃ path, getPath r y = .ok path ∧ ∀ c ∈ path, ∃ a, Enc a c := by
  obtain ⟨p, q, l, pads, _, h2, _, _, h5⟩ := Props.C05_path Enc isPad s r h hs.nodes.len y
    (by rw [hy]; have := hs.depth; omega)
  refine ⟨q, h2, fun c hc => ?_⟩
  obtain ⟨i, hi⟩ := List.mem_iff_getElem.1 hc
  obtain ⟨hi, rfl⟩ := hi
  exact ⟨l[i]'(by rw [h5.length_eq]; exact hi), h5.get (by rw [h5.length_eq]; exact hi) hi⟩

/-- The exchange of a day never crashes. -/
theorem exchange_total {S : Setup G} {F : Func G P γ κ} {Pay Pay' : P → κ → Prop}
    {Good : Tape → Prop} (hF : FuncOK S F Pay Pay' Good) (c : Codec G) {hashOf : Nat → List Bool}
    (hh : ∀ e, (hashOf e).length = 256) {B : Nat} {X xs : List P} {Y ys : List Nat}
    {s0 : St0 G P} {s1 : St1 γ} (hI : Inv S F Pay hashOf B X Y s0 s1)
    {ρ : Coins G P κ} (hρ : ρ.WF S F.key B Good xs ys)
    (ht0 : (X ++ xs).length < 2 ^ 30) (ht1 : (Y ++ ys).length < 2 ^ 30)
    {E : String → Prop} (hE : ∀ m, InfErr m → E m) {PayOK : P → Prop} {K : κ → Prop} {G1 G2 G3 : Tape → Prop}
    (hT : FuncTotal S F Pay E PayOK K G1 G2 G3) (hpay : ∀ p ∈ X ++ xs, PayOK p) (hpads : ∀ i j, PayOK (ρ.pads0 i j))
    (h1 : ∀ i j, G1 (ρ.enc0 i j)) (h2 : ∀ i, G2 (ρ.x0 i)) (h3 : ∀ i, G3 (ρ.send i)) :
    (exchange F c hashOf S.pk S.sk1 s0 s1 xs ys ρ).Only E (fun r => (∀ x ∈ r.2.2, K x.2) ∧
      r.1.my.stashSize = s0.my.stashSize ∧ r.2.1.my.stashSize = s1.my.stashSize ∧
      ((X ++ xs).length ≤ s0.my.stashSize → s0.lost = [] → r.1.lost = []) ∧
      ((Y ++ ys).length ≤ s1.my.stashSize → s1.lost = [] → r.2.1.lost = [])) := by
  simp only [List.length_append] at ht0 ht1
  have hh' : ∀ e, 256 ≤ (hashOf e).length := fun e => by rw [hh e]
  have hs0 : xs.length + s0.my.actualSize < 2 ^ 30 := by rw [hI.size0]; omega
  have hs1 : ys.length + s1.my.actualSize < 2 ^ 30 := by rw [hI.size1]; omega
  -- what is stored after inserting
  have hst0 : ∀ ri, insertWith (fun p => hashOf (F.key p)) id s0.my xs ρ.hsh0 = .ok ri → ∀ p ∈ ri.tree.contents, PayOK p := by
    intro ri hri p hp
    obtain ⟨ri', k1, _, _, _, _, _, _, k8, _⟩ :=
      insertWith_spec (PostOK.id _) (fun p => hh' (F.key p)) (fun a => ({a} : Multiset P)) (fun _ => rfl) hI.wf0 hρ.hsh0 hs0
    have := Outcome.ok.inj (hri.symm.trans k1)
    subst this
    rw [wsum_singleton, wsum_singleton, wsum_singleton, wsum_singleton] at k8
    have k8' : (ri.tree.contents ++ ri.lost).Perm (s0.my.contents ++ xs) := by simpa using k8
    apply hpay
    rcases List.mem_append.1 (k8'.subset (List.mem_append_left _ hp)) with h | h
    · exact List.mem_append_left _ (hI.all0.subset (List.mem_append_left _ h))
    · exact List.mem_append_right _ h
  have hl0 : ∀ ri, insertWith (fun p => hashOf (F.key p)) id s0.my xs ρ.hsh0 = .ok ri →
      (X ++ xs).length ≤ s0.my.stashSize → ri.lost = [] := by
    intro ri hri hle
    have := hI.all0.length_eq
    simp only [List.length_append] at this hle
    exact insertWith_noloss (fun p => hh' (F.key p)) hI.wf0 hρ.hsh0 hs0 (by omega) hri
  have hl1 : ∀ ri, insertWith hashOf id s1.my ys ρ.hsh1 = .ok ri → (Y ++ ys).length ≤ s1.my.stashSize → ri.lost = [] := by
    intro ri hri hle
    have := hI.all1.length_eq
    simp only [List.length_append] at this hle
    exact insertWith_noloss hh' hI.wf1 hρ.hsh1 hs1 (by omega) hri
  unfold exchange
  -- message I
  have m1 : (genI F hashOf S.pk s0 xs ρ).Only E (fun r => (∀ w ∈ r.2.candidates, ∃ x, F.deser w = .ok x ∧ K x.2) ∧
      ∃ u0, sendUpdate (fun p => hashOf (F.key p)) id (fun i j => F.encTree S.pk (ρ.enc0 i j)) ρ.pads0 s0.my xs ρ.hsh0 = .ok u0 ∧
        (∀ n ∈ u0.msg.nodes, ∀ w ∈ n, ∃ c, F.deserTree w = .ok c) ∧ u0.tree.stashSize = s0.my.stashSize ∧
        ((X ++ xs).length ≤ s0.my.stashSize → u0.lost = []) ∧
        r = (⟨u0.tree, s0.other, s0.lost ++ u0.lost⟩, ⟨u0.msg, r.2.candidates⟩)) := by
    unfold genI
    refine (sendUpdate_only (fun p => hh (F.key p)) (PostOK.id _) hI.wf0 hρ.hsh0 hs0
      (Q := fun w => ∃ c, F.deserTree w = .ok c) (E := E) ?_).bind fun u0 hu0 hq => ?_
    · rintro ri hri i j a (ha | ⟨k, l, rfl⟩)
      · exact hT.tree _ _ (h1 i j) (hst0 ri hri a ha)
      · exact hT.tree _ _ (h1 i j) (hpads k l)
    obtain ⟨q1, q2, ri, q3, q4⟩ := hq
    refine (forIdx_only (Q := fun l => ∀ w ∈ l, ∃ x, F.deser w = .ok x ∧ K x.2) xs ?_ 0).bind fun cs _ hcs => ?_
    · intro i p hp
      obtain ⟨path, hpath, _⟩ := mirror_path hI.wf1 hI.mir1 (hh (F.key p))
      unfold candI
      rw [hpath, Outcome.bind_ok]
      refine (hT.payload _ _ (h2 i) (hpay p (by simp [hp]))).bind fun pay _ hk => ?_
      exact forIdx_only _ (fun j y _ => hT.ser _ _ hk) 0
    · refine ⟨?_, u0, hu0, q1, q2, fun hle => by rw [← q4]; exact hl0 ri q3 hle, rfl⟩
      intro w hw
      obtain ⟨l, hl, hw⟩ := List.mem_flatten.1 hw
      exact hcs l hl w hw
  refine m1.bind ?_
  rintro ⟨t0, msg⟩ - ⟨hc, u0, hu0, q1, q2, q3, e0⟩
  simp only [Prod.mk.injEq] at e0
  obtain ⟨rfl, e0⟩ := e0
  obtain ⟨cand, rfl⟩ : ∃ cand, msg = ⟨u0.msg, cand⟩ := ⟨_, e0⟩
  simp only at hc ⊢
  -- party one's tree copy
  obtain ⟨a1, a2, _, _, other1, ho1, _⟩ := Props.recv_total (fun p => hh (F.key p)) (PostOK.id _) hI.wf0 (mirror_shape hI.mir0)
    hρ.hsh0 hs0 hu0 (Props.deserNodes_total (deser := F.deserTree) _ q1)
  obtain ⟨_, _, a3⟩ := mirror_step (PostOK.id _) (fun p => hh' (F.key p)) hρ.pads0 hI.wf0 hI.mir0
    hρ.hsh0 hs0 (fun i j p _ w c hw hc => hF.tree _ p w c hw hc) hu0 ho1
  -- message II
  have m2 : (genII F c hashOf S.pk S.sk1 s1 ⟨u0.msg, cand⟩ ys ρ).Only E (fun r =>
      (∀ w ∈ r.2.candidates, ∃ x, F.deser w = .ok x ∧ K x.2) ∧
      ∃ u1, sendUpdate hashOf id (fun i j y => serNoPayload c (encrypt S.pk (ρ.enc1 i j) y)) ρ.pads1 s1.my ys ρ.hsh1 = .ok u1 ∧
        (∀ n ∈ u1.msg.nodes, ∀ w ∈ n, ∃ x, deserTreeCt c w = .ok x) ∧ u1.tree.stashSize = s1.my.stashSize ∧
        ((Y ++ ys).length ≤ s1.my.stashSize → u1.lost = []) ∧
        r = (⟨u1.tree, other1, s1.lost ++ u1.lost⟩, ⟨u1.msg, r.2.candidates⟩)) := by
    unfold genII
    rw [ho1, Outcome.bind_ok]
    obtain ⟨dec1, hd1, hd2⟩ := forIdx_ok (f := fun _ w => F.deser w) (R := fun _ x => K x.2) cand
      (fun _ w hw => hc w hw) 0
    rw [hd1, Outcome.bind_ok]
    obtain ⟨own, ho, ho'⟩ := forIdx_ok (f := candII F hashOf S.pk other1 ρ) (R := fun _ l => ∀ x ∈ l, K x.2) ys
      (fun i y _ => by
        obtain ⟨path, hpath, hp'⟩ := mirror_path a1 a3 (hh y)
        refine ⟨path.map (fun z => (mul (F.first z) (invert (encrypt S.pk (ρ.x1 i) y)), F.second z)), by
          simp only [candII, hpath, Outcome.bind_ok, Outcome.pure_eq], ?_⟩
        intro x hx
        obtain ⟨z, hz, rfl⟩ := List.mem_map.1 hx
        obtain ⟨p, _, hpz⟩ := hp' z hz
        exact hT.pay _ _ hpz) 0
    rw [ho, Outcome.bind_ok]
    have hK : ∀ x ∈ (ρ.shuffle (dec1 ++ own.flatten)).mapIdx (fun i x => F.mask (ρ.masks i) x), K x.2 := by
      intro x hx
      obtain ⟨i, hi, rfl⟩ := List.mem_mapIdx.1 hx
      apply hT.mask
      have : (ρ.shuffle (dec1 ++ own.flatten))[i] ∈ dec1 ++ own.flatten := (hρ.shuffle _).subset (List.getElem_mem hi)
      rcases List.mem_append.1 this with h | h
      · obtain ⟨k, hk, he⟩ := List.mem_iff_getElem.1 h
        rw [← he]
        exact hd2.get (by rw [hd2.length_eq]; exact hk) hk
      · obtain ⟨l, hl, hx⟩ := List.mem_flatten.1 h
        obtain ⟨k, hk, he⟩ := List.mem_iff_getElem.1 hl
        rw [← he] at hx
        exact ho'.get (by rw [ho'.length_eq]; exact hk) hk _ hx
    refine (forIdx_only (Q := fun w => ∃ x, F.deser w = .ok x ∧ K x.2) _ (fun i x hx => hT.send _ _ (h3 i) (hK x hx)) 0).bind
      fun out _ hout => ?_
    refine (sendUpdate_only hh (PostOK.id _) hI.wf1 hρ.hsh1 hs1
      (Q := fun w => ∃ x, deserTreeCt c w = .ok x) (E := E) ?_).bind fun u1 hu1 hq => ?_
    · intro ri hri i j a _
      exact (serNoPayload_only c _).mono hE (fun w _ hw => ⟨_, hw.2⟩)
    · obtain ⟨q1, q2, ri, q3, q4⟩ := hq
      exact ⟨hout, u1, hu1, q1, q2, fun hle => by rw [← q4]; exact hl1 ri q3 hle, rfl⟩
  refine m2.bind ?_
  rintro ⟨t1, msg2⟩ - ⟨hc2, u1, hu1, r1, r2, r3, e1⟩
  simp only [Prod.mk.injEq] at e1
  obtain ⟨rfl, e1⟩ := e1
  obtain ⟨cand2, rfl⟩ : ∃ cand2, msg2 = ⟨u1.msg, cand2⟩ := ⟨_, e1⟩
  simp only at hc2 ⊢
  obtain ⟨_, _, _, _, other0, ho0, _⟩ := Props.recv_total hh (PostOK.id _) hI.wf1 (mirror_shape hI.mir1)
    hρ.hsh1 hs1 hu1 (Props.deserNodes_total (deser := deserTreeCt c) _ r1)
  obtain ⟨cs2, hcs2, hK2⟩ := forIdx_ok (f := fun _ w => F.deser w) (R := fun _ x => K x.2) cand2 (fun _ w hw => hc2 w hw) 0
  simp only [recvII, ho0, hcs2, Outcome.bind_ok, Outcome.pure_eq, Outcome.Only]
  refine ⟨?_, q2, r2, fun hle hz => by rw [hz, q3 hle]; rfl, fun hle hz => by rw [hz, r3 hle]; rfl⟩
  intro x hx
  obtain ⟨k, hk, he⟩ := List.mem_iff_getElem.1 hx
  rw [← he]
  exact hK2.get (by rw [hK2.length_eq]; exact hk) hk

end Upsi.Proto
