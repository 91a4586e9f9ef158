import Verif.Proto.ProgressProps
import Verif.Proto.DelProps
/-
Helper lemmas for C63, protocols with deletions.
-/
namespace Upsi
/-- The call returns normally with a result satisfying `Q`, or has undefined behaviour, the latter only if `U`; it
does not return an error and does not abort. -/
def Outcome.Ends {α : Type u} (U : Prop) (Q : α → Prop) : Outcome α → Prop
  | .ok a => Q a
  | .err _ => False
  | .abort => False
  | .ub => U

namespace Outcome

theorem Ends.bind {α β : Type u} {U : Prop} {Q : α → Prop} {R : β → Prop} {x : Outcome α} {f : α → Outcome β}
    (hx : x.Ends U Q) (hf : ∀ a, x = .ok a → Q a → (f a).Ends U R) : (x >>= f).Ends U R := by
  cases x with
  | ok a => exact hf a rfl hx
  | err m => exact hx
  | abort => exact hx
  | ub => exact hx

theorem Ends.mono {U U' : Prop} {Q R : α → Prop} {x : Outcome α} (hx : x.Ends U Q)
    (hU : U → U') (hQ : ∀ a, x = .ok a → Q a → R a) : x.Ends U' R := by
  cases x with
  | ok a => exact hQ a rfl hx
  | err m => exact hx
  | abort => exact hx
  | ub => exact hU hx

theorem Ends.cases {U : Prop} {Q : α → Prop} {x : Outcome α} (hx : x.Ends U Q) :
    (∃ a, x = .ok a ∧ Q a) ∨ (x = .ub ∧ U) := by
  cases x with
  | ok a => exact Or.inl ⟨a, rfl, hx⟩
  | err m => exact hx.elim
  | abort => exact hx.elim
  | ub => exact Or.inr ⟨rfl, hx⟩

end Outcome
end Upsi

namespace Upsi.Tree
open Upsi

/-- A weight that post-processing does not increase is not increased by insertion either. -/
theorem insertAll_weight {α : Type} {hashOf : α → List Bool} {post : List α → List α}
    (hpost : PostOK hashOf post) {d c s : Nat} (hh : ∀ e, d ≤ (hashOf e).length) (f : α → Nat)
    (hf : ∀ b, ((post b).map f).sum ≤ (b.map f).sum)
    (es : List α) : ∀ (ls : List Nat) (ns ns' : List (Node α)) (lost : List α),
    (∀ l ∈ ls, 2 ^ d ≤ l ∧ l < 2 ^ (d + 1)) → NodesWF hashOf d c s ns →
    insertAll hashOf post d es ls ns = .ok (ns', lost) →
    ((ns'.flatMap Node.elems).map f).sum + (lost.map f).sum ≤ ((ns.flatMap Node.elems).map f).sum + (es.map f).sum ∧
    ((∀ e, f e = 1) → (ns.flatMap Node.elems).length + es.length ≤ s → lost = []) := by
  induction es with
  | nil => intro ls ns ns' lost _ _ h; simp [insertAll] at h; rw [← h.1, ← h.2]; simp
  | cons e es ih =>
    intro ls ns ns' lost h2 h3 h
    match ls with
    | [] => simp [insertAll] at h
    | l :: ls =>
      have hl := h2 l (by simp)
      obtain ⟨ns1, lost1, bs, rest, p1, p2, p3, p4, p5, p6, p7, p8, p9, p10⟩ :=
        insertOne_spec hpost hh hl.1 hl.2 e h3
      simp only [insertAll, p1, Outcome.bind_ok, Outcome.bind_eq_ok, Outcome.pure_eq,
        Outcome.ok.injEq, Prod.mk.injEq] at h
      obtain ⟨⟨ns2, lost2⟩, h5, rfl, rfl⟩ := h
      have hb : ∀ bs : List (List α), ((bs.map post).flatten.map f).sum ≤ (bs.flatten.map f).sum := by
        intro bs
        induction bs with
        | nil => simp
        | cons b bs ih =>
          simp only [List.map_cons, List.flatten_cons, List.map_append, List.sum_append]
          have := hf b; omega
      have q6 := (p6.map f).sum_eq
      have q7 := (p7.map f).sum_eq
      have hb' := hb bs
      simp only [List.map_append, List.sum_append, List.map_cons, List.map_nil, List.sum_cons, List.sum_nil] at q6 q7
      obtain ⟨k1, k2⟩ := ih ls ns1 ns2 lost2 (fun l hl => h2 l (by simp [hl])) p2 h5
      refine ⟨by simp only [List.map_append, List.sum_append, List.map_cons, List.sum_cons]; omega, ?_⟩
      intro h1 hs
      have hlen : ∀ l : List α, (l.map f).sum = l.length := by
        intro l
        rw [List.map_congr_left (g := fun _ => 1) (fun a _ => h1 a)]
        simp
      simp only [hlen] at q6 q7 hb' k1
      simp only [List.length_cons] at hs
      have he := h1 e
      have hl1 : lost1 = [] := by
        rcases p10 with h | ⟨n, hn, hlen⟩
        · exact h
        · rw [← List.length_eq_zero_iff]
          have := length_le_flatMap (List.mem_of_getElem? hn)
          omega
      subst hl1
      simp only [List.length_nil] at q7
      simp only [List.nil_append]
      exact k2 h1 (by omega)

/-- The same for a whole batch. -/
theorem insertWith_weight {α : Type} {hashOf : α → List Bool} {post : List α → List α}
    (hpost : PostOK hashOf post) (hh : ∀ e, 256 ≤ (hashOf e).length) (f : α → Nat)
    (hf : ∀ b, ((post b).map f).sum ≤ (b.map f).sum) {t : Tree α} (ht : TWF hashOf t)
    {es : List α} {hsh : List (List Bool)} (hb : Batch.WF (es, hsh))
    (htot : es.length + t.actualSize < 2 ^ 30)
    {x : InsertResult α} (hx : insertWith hashOf post t es hsh = .ok x) :
    (x.tree.contents.map f).sum + (x.lost.map f).sum ≤ (t.contents.map f).sum + (es.map f).sum ∧
    ((∀ e, f e = 1) → t.contents.length + es.length ≤ t.stashSize → x.lost = []) := by
  simp only [insertWith, Outcome.bind_eq_ok, Outcome.pure_eq, Outcome.ok.injEq] at hx
  obtain ⟨t1, e1, l, hl, ⟨ns, lost⟩, hins, rs, _, rfl⟩ := hx
  obtain ⟨t1', g1, g2, g3, g4, g5, g6, g7, g8, g9, g10⟩ := grow_spec hh ht htot
  rw [e1] at g1
  simp only [Outcome.ok.injEq] at g1
  subst g1
  have hd : ∀ x ∈ hsh, t1.depth ≤ x.length := fun x hx => by have := hb.2 x hx; omega
  rw [leafIndices_ok hd] at hl
  simp only [Outcome.ok.injEq] at hl
  subst hl
  have := insertAll_weight hpost (fun e => by have := hh e; omega) f hf es _ t1.nodes ns lost (by
    intro l hl
    obtain ⟨y, hy, rfl⟩ := List.mem_map.1 hl
    exact leafAddr_bounds (hd y hy)) g2 hins
  rw [g10, List.flatMap_append, replicate_flatMap_nil, List.append_nil, g4] at this
  exact this

theorem emit_weight (k : Nat) (v : Int) : ((emit k v).map (fun e : EP => e.2.natAbs)).sum ≤ v.natAbs ∧ (emit k v).length ≤ 1 := by
  unfold emit; split <;> simp

theorem mergeGo_weight (r : List EP) : ∀ (k : Nat) (v : Int),
    ((mergeGo k v r).map (fun e : EP => e.2.natAbs)).sum ≤ v.natAbs + (r.map (fun e : EP => e.2.natAbs)).sum ∧
    (mergeGo k v r).length ≤ 1 + r.length := by
  induction r with
  | nil => intro k v; simpa [mergeGo] using emit_weight k v
  | cons e r ih =>
    intro k v
    obtain ⟨k', v'⟩ := e
    simp only [mergeGo]
    split
    · have := ih k (v + v')
      simp only [List.map_cons, List.sum_cons, List.length_cons]
      omega
    · have := ih k' v'
      have := emit_weight k v
      simp only [List.map_cons, List.sum_cons, List.length_cons, List.map_append, List.sum_append, List.length_append]
      omega

/-- Merging a bucket increases neither the sum of the absolute payloads nor the number of entries. -/
theorem mergeBucket_weight (b : List EP) :
    ((mergeBucket b).map (fun e : EP => e.2.natAbs)).sum ≤ (b.map (fun e : EP => e.2.natAbs)).sum ∧
    (mergeBucket b).length ≤ b.length := by
  have hp := sortEP_perm b
  have h1 := (hp.map (fun e : EP => e.2.natAbs)).sum_eq
  have h2 := hp.length_eq
  unfold mergeBucket
  cases hb : sortEP b with
  | nil => simp [mergeSorted]
  | cons e r =>
    obtain ⟨k, v⟩ := e
    rw [hb] at h1 h2
    have := mergeGo_weight r k v
    simp only [mergeSorted]
    simp only [List.map_cons, List.sum_cons, List.length_cons] at h1 h2
    omega

end Upsi.Tree

namespace Upsi.Proto
open Upsi Upsi.Tree Upsi.Tree.Props Upsi.Num Upsi.Paillier

/-- The sum of the absolute payloads. -/
def absMass (X : List EP) : Nat := (X.map (fun e => e.2.natAbs)).sum

theorem absMass_append (X Y : List EP) : absMass (X ++ Y) = absMass X + absMass Y := by simp [absMass]

theorem le_absMass {X : List EP} {e : EP} (h : e ∈ X) : e.2.natAbs ≤ absMass X := by
  induction X with
  | nil => simp at h
  | cons a X ih =>
    rw [show absMass (a :: X) = a.2.natAbs + absMass X by simp [absMass]]
    rcases List.mem_cons.1 h with rfl | h
    · omega
    · have := ih h; omega

theorem absMass_eq_mass (X : List EP) : (absMass X : Int) = mass X := by
  induction X with
  | nil => rfl
  | cons a X ih =>
    rw [show absMass (a :: X) = a.2.natAbs + absMass X by simp [absMass],
      show mass (a :: X) = |a.2| + mass X by simp [mass]]
    push_cast
    rw [ih]

variable {p q : Nat} {mont : Int → Option Mont} {pk : Public} {sk : Private}

theorem KeyPair.encPriv_total (K : KeyPair p q mont pk sk) {m rp rq : Int} (h0 : 0 ≤ m) (h1 : m < ((p * q : Nat) : Int))
    (hp : 0 ≤ rp) (hq : 0 ≤ rq) : ∃ c, sk.encrypt mont m rp rq = .ok c ∧ 0 ≤ c := by
  obtain ⟨c, k1, k2⟩ := C22_private_encrypt K.primes K.mont K.priv m.toNat (by rw [pow_one]; omega) rp rq hp hq
  rw [Int.toNat_of_nonneg h0] at k1
  exact ⟨c, k1, k2.1⟩

theorem KeyPair.encPub_total (K : KeyPair p q mont pk sk) {m r : Int} (h0 : 0 ≤ m) (h1 : m < ((p * q : Nat) : Int))
    (hr : 0 ≤ r) (hr' : r ≤ ((p * q : Nat) : Int)) : ∃ c, pk.encrypt mont m r = .ok c ∧ PEnc (p * q) c m := by
  obtain ⟨c, k1, k2⟩ := C21_encrypt (Primes.n_pos K.primes) K.primes.small_mul K.mont K.pub m.toNat (by rw [pow_one]; omega) r hr hr'
  rw [Int.toNat_of_nonneg h0] at k1
  exact ⟨c, k1, K.enc_pub k1⟩

theorem KeyPair.add_total (K : KeyPair p q mont pk sk) {a b m m' : Int} (ha : PEnc (p * q) a m) (hb : PEnc (p * q) b m') :
    ∃ c, pk.add a b = .ok c ∧ PEnc (p * q) c (m + m') := by
  obtain ⟨k, h1, _⟩ := id ha
  obtain ⟨k', h1', _⟩ := id hb
  obtain ⟨c, e, _⟩ := C21_add (Primes.n_pos K.primes) K.pub h1 h1'
  exact ⟨c, e, K.add ha hb e⟩

theorem KeyPair.mul_total (K : KeyPair p q mont pk sk) {a m t : Int} (ha : PEnc (p * q) a m) (ht : 0 ≤ t) :
    ∃ c, pk.multiply a t = .ok c ∧ PEnc (p * q) c (m * t) := by
  obtain ⟨k, h1, _⟩ := id ha
  obtain ⟨c, e, _⟩ := C21_multiply (Primes.n_pos K.primes) K.pub h1 t.toNat
  rw [Int.toNat_of_nonneg ht] at e
  exact ⟨c, e, K.mul ha e⟩

theorem KeyPair.dec_total (K : KeyPair p q mont pk sk) {c m : Int} (hc : PEnc (p * q) c m) :
    ∃ d, sk.decrypt c = .ok d ∧ 0 ≤ d ∧ d < ((p * q : Nat) : Int) := by
  obtain ⟨k, h1, _⟩ := hc
  refine ⟨_, C21_decrypt K.primes K.priv h1, Int.natCast_nonneg _, ?_⟩
  have : k % (p * q) ^ 1 < (p * q) ^ 1 := Nat.mod_lt _ (by rw [pow_one]; exact Primes.n_pos K.primes)
  rw [pow_one] at this ⊢
  exact_mod_cast this

theorem encPair_total (K : KeyPair p q mont pk sk) {t : Nat → Int} (ht : ∀ k, 0 ≤ t k) {e : EP} (h1 : e.1 < p * q)
    (h2 : e.2.natAbs < p * q) : ∃ w, encPair mont sk t e = .ok w ∧ ∃ c, deserPair w = .ok c := by
  obtain ⟨a, ha, a0⟩ := K.encPriv_total (m := (e.1 : Int)) (by omega) (by exact_mod_cast h1) (ht 0) (ht 1)
  have hv : 0 ≤ (if e.2 < 0 then sk.ns + e.2 else e.2) ∧ (if e.2 < 0 then sk.ns + e.2 else e.2) < ((p * q : Nat) : Int) := by
    rw [K.priv.ns, pow_one]
    split <;> omega
  obtain ⟨b, hb, b0⟩ := K.encPriv_total hv.1 hv.2 (ht 2) (ht 3)
  obtain ⟨wa, hwa, _⟩ := C30_bytes_roundtrip a a0
  obtain ⟨wb, hwb, _⟩ := C30_bytes_roundtrip b b0
  refine ⟨.deletion wa wb, ?_, _, rfl⟩
  simp only [encPair, ha, hb, hwa, hwb, Outcome.bind_ok, Outcome.pure_eq]

/-- Coins of the path combination with which no encryption is refused: every `alpha` is at least the element bound
(the code only comments `alpha >> element`). -/
def PathCoins.Usable (B n : Nat) (ρ : PathCoins) : Prop :=
  ∀ j, (B : Int) ≤ ρ.alpha j ∧ ρ.alpha j < n ∧ 0 ≤ ρ.coin j ∧ ρ.coin j ≤ n

/-- An item that can be sent and compared. -/
def ItemOK (n : Nat) (it : Item) : Prop :=
  0 ≤ it.x ∧ it.x < n ∧ (∃ m, PEnc n it.msg m) ∧ ∃ v, PEnc n it.z v

theorem combineInit_total (K : KeyPair p q mont pk sk) {B : Nat} {s : Upsi.Tree.Tree EP} {other : Upsi.Tree.Tree (Int × Int)}
    {h : Nat → List Bool} (hh : ∀ e, (h e).length = 256)
    (hs : TWF (fun e : EP => h e.1) s) (hm : Mirror (EncP (p * q)) (PadP B (p * q)) s other)
    {e : EP} (he : e.1 < B) (hp : e.2.natAbs ≤ p * q) {ρ : PathCoins} (hρ : ρ.Usable B (p * q)) :
    ∃ its, combineInit mont h pk other e ρ = .ok its ∧ ∀ it ∈ its, ItemOK (p * q) it := by
  obtain ⟨path, hpath, hE⟩ := mirror_path hs hm (hh e.1)
  unfold combineInit
  rw [hpath, Outcome.bind_ok]
  obtain ⟨its, h1, h2⟩ := forIdx_ok (f := fun j (c : Int × Int) => do
    let a ← pk.encrypt mont (ρ.alpha j - e.1) (ρ.coin j)
    let tmp ← pk.add a c.1
    let z ← if e.2 ≠ 1 then pk.multiply c.2 (if e.2 < 0 then e.2 + pk.n else e.2) else pure c.2
    pure (⟨ρ.alpha j, z, tmp⟩ : Item)) (R := fun _ it => ItemOK (p * q) it) path (fun j c hc => by
      obtain ⟨a0, hc1, hc2⟩ := hE c hc
      obtain ⟨r1, r2, r3, r4⟩ := hρ j
      obtain ⟨a, k1, k2⟩ := K.encPub_total (m := ρ.alpha j - e.1) (by omega) (by omega) r3 r4
      obtain ⟨tmp, k3, k4⟩ := K.add_total k2 hc1
      obtain ⟨z, k5, k6⟩ : ∃ z, (if e.2 ≠ 1 then pk.multiply c.2 (if e.2 < 0 then e.2 + pk.n else e.2) else pure c.2) = Outcome.ok z ∧
          ∃ v, PEnc (p * q) z v := by
        split
        · obtain ⟨z, k5, k6⟩ := K.mul_total hc2 (t := if e.2 < 0 then e.2 + pk.n else e.2) (by
            rw [K.pub.hn]; split <;> omega)
          exact ⟨z, k5, _, k6⟩
        · exact ⟨c.2, rfl, _, hc2⟩
      refine ⟨⟨ρ.alpha j, z, tmp⟩, ?_, (Int.natCast_nonneg B).trans r1, r2, ⟨_, k4⟩, k6⟩
      simp only [k1, k3, Outcome.bind_ok]
      split at k5
      · rename_i hne
        rw [if_pos hne, k5]; rfl
      · rename_i hne
        rw [if_neg hne]
        rw [Outcome.pure_eq, Outcome.ok.injEq] at k5
        rw [k5]; rfl) 0
  refine ⟨its, h1, fun it hit => ?_⟩
  obtain ⟨k, hk, rfl⟩ := List.mem_iff_getElem.1 hit
  exact h2.get (by rw [h2.length_eq]; exact hk) hk

/-- The serialized candidates match the items. -/
def Sent (n : Nat) (it : Item) (w : EncElem) : Prop := deserOnly w = .ok it.msg ∧ ItemOK n it

theorem serItems_total {n : Nat} {g : List Item} (hg : ∀ it ∈ g, ItemOK n it) :
    ∃ ws, forIdx (fun _ (it : Item) => serOnly it.msg) 0 g = .ok ws ∧ List.Forall₂ (Sent n) g ws :=
  forIdx_ok g (fun _ it hit => by
    obtain ⟨m, hm⟩ := (hg it hit).2.2.1
    obtain ⟨w, h1, h2, _⟩ := C30_bytes_roundtrip it.msg hm.bounds.1
    exact ⟨.onlyPaillier w, by simp only [serOnly, h1, Outcome.bind_ok, Outcome.pure_eq], by simp only [deserOnly, h2], hg it hit⟩) 0

theorem candidatesOf_total (K : KeyPair p q mont pk sk) {B : Nat} {s : Upsi.Tree.Tree EP} {other : Upsi.Tree.Tree (Int × Int)}
    {h : Nat → List Bool} (hh : ∀ e, (h e).length = 256)
    (hs : TWF (fun e : EP => h e.1) s) (hm : Mirror (EncP (p * q)) (PadP B (p * q)) s other)
    {es : List EP} (he : ∀ e ∈ es, e.1 < B) (hp : ∀ e ∈ es, e.2.natAbs ≤ p * q) {path : Nat → PathCoins}
    (hρ : ∀ i, (path i).Usable B (p * q)) :
    ∃ gs ws, candidatesOf mont h pk other es path = .ok (gs, ws) ∧ List.Forall₂ (List.Forall₂ (Sent (p * q))) gs ws := by
  obtain ⟨gs, h1, h2⟩ := forIdx_ok (f := fun i e => combineInit mont h pk other e (path i))
    (R := fun _ g => ∀ it ∈ g, ItemOK (p * q) it) es (fun i e hi => combineInit_total K hh hs hm (he e hi) (hp e hi) (hρ i)) 0
  obtain ⟨ws, h3, h4⟩ := forIdx_ok (f := fun _ (g : List Item) => forIdx (fun _ it => serOnly it.msg) 0 g)
    (R := List.Forall₂ (Sent (p * q))) gs (fun _ g hg => by
      obtain ⟨k, hk, rfl⟩ := List.mem_iff_getElem.1 hg
      exact serItems_total (h2.get (by rw [h2.length_eq]; exact hk) hk)) 0
  exact ⟨gs, ws, by simp only [candidatesOf, h1, h3, Outcome.bind_ok, Outcome.pure_eq], h4⟩

/-- Circuit inputs of one comparison. -/
def InOK (n : Nat) (it : Item) (y : Int) : Prop := ItemOK n it ∧ 0 ≤ y ∧ y < n

theorem forIdx_ok₂ {α β γ : Type} {f : Nat → β → Outcome γ} {R : α → β → Prop} {T : α → γ → Prop} {l : List α} {m : List β}
    (h : List.Forall₂ R l m) (hf : ∀ i a b, R a b → ∃ c, f i b = .ok c ∧ T a c) :
    ∀ i, ∃ cs, forIdx f i m = .ok cs ∧ List.Forall₂ T l cs := by
  induction h with
  | nil => intro i; exact ⟨[], rfl, .nil⟩
  | cons h1 _ ih =>
    intro i
    obtain ⟨c, hc, hT⟩ := hf i _ _ h1
    obtain ⟨cs, hcs, hTs⟩ := ih (i + 1)
    exact ⟨c :: cs, by simp [forIdx, hc, hcs], .cons hT hTs⟩

theorem combineResp_total (K : KeyPair p q mont pk sk) {g : List Item} {ws : List EncElem} (h : List.Forall₂ (Sent (p * q)) g ws) :
    ∃ ys, combineResp sk ws = .ok ys ∧ List.Forall₂ (InOK (p * q)) g ys := by
  obtain ⟨cs, h1, h2⟩ := forIdx_ok₂ (f := fun _ w => deserOnly w) (T := fun it c => c = it.msg ∧ ItemOK (p * q) it) h
    (fun i it w hw => ⟨it.msg, hw.1, rfl, hw.2⟩) 0
  obtain ⟨ys, h3, h4⟩ := forIdx_ok₂ (f := fun _ c => sk.decrypt c) (T := InOK (p * q)) h2 (fun i it c hc => by
    obtain ⟨rfl, hi⟩ := hc
    obtain ⟨m, hm⟩ := hi.2.2.1
    obtain ⟨d, k1, k2⟩ := K.dec_total hm
    exact ⟨d, k1, hi, k2⟩) 0
  exact ⟨ys, by simp only [combineResp, h1, Outcome.bind_ok, h3], h4⟩

/-! ### the circuit phase -/

/-- Some number below `n` hashes to fewer than nine bytes: `BigNum2bool` then reads before the start of its string
(C34). -/
def ShortHash (ro : List UInt8 → Nat) (n : Nat) : Prop := ∃ x : Nat, x < n ∧ ro (natBytes x) < 2 ^ 64

theorem bigNum2bool_ends {ro : List UInt8 → Nat} {n : Nat} {x : Int} (h0 : 0 ≤ x) (h1 : x < n) :
    (bigNum2bool ro x 72).Ends (ShortHash ro n) (fun _ => True) := by
  have hb : toBytes x = .ok (natBytes x.toNat) := by rw [toBytes, if_neg (by omega)]
  by_cases h : ro (natBytes x.toNat) < 2 ^ 64
  · rw [(C34_caller ro x h0 _ hb).1 h]
    exact ⟨x.toNat, by omega, h⟩
  · rw [(C34_caller ro x h0 _ hb).2 (by omega)]
    trivial

/-- Coins of the circuit phase with which no encryption is refused: a `beta` of zero makes the sender encrypt the
modulus itself. -/
def GcCoins.Usable (n : Nat) (ρ : GcCoins) : Prop := ∀ i, 0 < ρ.beta i ∧ ρ.beta i ≤ n ∧ 0 ≤ ρ.coin i ∧ ρ.coin i ≤ n

theorem gcItem_ends (K : KeyPair p q mont pk sk) {ro : List UInt8 → Nat} {aliceSends : Bool} {blocks : Nat}
    (hb : cntBlock ((p * q : Nat) : Int) = .ok blocks) {ρ : GcCoins} (hρ : ρ.Usable (p * q)) {i : Nat} {it : Item} {y : Int}
    (hi : InOK (p * q) it y) :
    (gcItem ro mont pk sk aliceSends blocks ρ i it.x it.z y).Ends (ShortHash ro (p * q)) (fun _ => True) := by
  obtain ⟨⟨x0, x1, _, v, hz⟩, y0, y1⟩ := hi
  obtain ⟨b0, b1, c0, c1⟩ := hρ i
  obtain ⟨enc, he, hE⟩ := K.encPub_total (m := pk.n - ρ.beta i) (by rw [K.pub.hn]; omega) (by rw [K.pub.hn]; omega) c0 c1
  obtain ⟨ifEq, hi, hI⟩ := K.add_total hz hE
  unfold gcItem
  refine (bigNum2bool_ends x0 x1).bind fun bx _ _ => (bigNum2bool_ends y0 y1).bind fun bY _ _ => ?_
  have hbl : ∀ c m : Int, PEnc (p * q) c m → ∃ bl, bigNum2block c blocks = .ok bl ∧ ((block2BigNum bl blocks : Nat) : Int) = c := by
    intro c m hm
    obtain ⟨l, u⟩ := hm.bounds
    obtain ⟨bl', e1, _, e2⟩ := C33_block_roundtrip c blocks l (lt_of_lt_of_le u (cntBlock_spec hb))
    exact ⟨bl', e1, e2⟩
  have hsel : ∀ b : Bool, ∃ m, PEnc (p * q) (if b = true then enc else ifEq) m := by
    intro b; cases b
    · exact ⟨_, hI⟩
    · exact ⟨_, hE⟩
  have hsel' : ∀ b : Bool, ∃ m, PEnc (p * q) (if b = true then ifEq else enc) m := by
    intro b; cases b
    · exact ⟨_, hE⟩
    · exact ⟨_, hI⟩
  dsimp only
  rw [he, Outcome.bind_ok, hi, Outcome.bind_ok]
  generalize (if aliceSends = true then ρ.bit i else (decide (bx = bY)).xor ((ρ.bit i).xor true)) = bS
  generalize (if aliceSends = true then (decide (bx = bY)).xor ((ρ.bit i).xor true) else ρ.bit i) = bR
  obtain ⟨m0, hm0⟩ := hsel bS
  obtain ⟨m1, hm1⟩ := hsel' bS
  obtain ⟨l0, hl0, hv0⟩ := hbl _ _ hm0
  obtain ⟨l1, hl1, hv1⟩ := hbl _ _ hm1
  rw [hl0, Outcome.bind_ok, hl1, Outcome.bind_ok]
  have hd : ∃ d, sk.decrypt ((block2BigNum (if bR = true then l1 else l0) blocks : Nat) : Int) = .ok d := by
    cases bR
    · obtain ⟨d, hd, _⟩ := K.dec_total hm0
      exact ⟨d, by simp only [Bool.false_eq_true, if_false]; rw [hv0]; exact hd⟩
    · obtain ⟨d, hd, _⟩ := K.dec_total hm1
      exact ⟨d, by simp only [if_true]; rw [hv1]; exact hd⟩
  obtain ⟨d, hd⟩ := hd
  rw [hd]
  trivial

theorem gcLoop_ends (K : KeyPair p q mont pk sk) {ro : List UInt8 → Nat} {aliceSends : Bool} {blocks : Nat}
    (hb : cntBlock ((p * q : Nat) : Int) = .ok blocks) {ρ : GcCoins} (hρ : ρ.Usable (p * q)) {its : List Item} {ys : List Int}
    (h : List.Forall₂ (InOK (p * q)) its ys) : ∀ (i : Nat) (a b : Int),
    (gcLoop ro mont pk sk aliceSends blocks ρ i its ys a b).Ends (ShortHash ro (p * q)) (fun _ => True) := by
  induction h with
  | nil => intro i a b; trivial
  | cons h1 _ ih =>
    intro i a b
    simp only [gcLoop]
    exact (gcItem_ends K hb hρ h1).bind fun uv _ _ => ih _ _ _

theorem gcPhase_ends (K : KeyPair p q mont pk sk) {ro : List UInt8 → Nat} {aliceSends : Bool}
    {ρ : GcCoins} (hρ : ρ.Usable (p * q)) {its : List Item} {ys : List Int} (h : List.Forall₂ (InOK (p * q)) its ys) :
    (gcPhase ro mont pk sk aliceSends ρ its ys).Ends (ShortHash ro (p * q)) (fun _ => True) := by
  have hn : 0 < ((p * q : Nat) : Int) := by have := Primes.n_pos K.primes; omega
  obtain ⟨bs, hbs⟩ : ∃ bs, cntBlock ((p * q : Nat) : Int) = .ok bs := by
    obtain ⟨b, hb, _⟩ := C30_bytes_roundtrip ((p * q : Nat) : Int) (by omega)
    exact ⟨(b.length * 2 + 15) / 16, by unfold cntBlock; rw [hb]; rfl⟩
  unfold gcPhase
  rw [K.pub.hn, hbs, Outcome.bind_ok, K.priv.ns, pow_one, hbs, Outcome.bind_ok, if_neg (by simp)]
  refine (gcLoop_ends K hbs hρ h 0 0 0).bind fun ab _ _ => ?_
  obtain ⟨a, b⟩ := ab
  simp only
  rw [C49_share_word _ _ hn, Outcome.bind_ok, C49_share_word _ _ hn, Outcome.bind_ok]
  trivial

/-! ### one round -/

/-- Coins of a round with which nothing is refused. -/
structure RoundCoins.Usable (B n0 n1 : Nat) (ρ : RoundCoins) : Prop where
  enc0 : ∀ i j k, 0 ≤ ρ.enc0 i j k
  enc1 : ∀ i j k, 0 ≤ ρ.enc1 i j k
  pads0 : ∀ i j, (ρ.pads0 i j).2.natAbs < n0
  pads1 : ∀ i j, (ρ.pads1 i j).2.natAbs < n1
  path0 : ∀ i, (ρ.path0 i).Usable B n1
  path1 : ∀ i, (ρ.path1 i).Usable B n0

/-- What is tracked besides the invariant, for one party. -/
structure DFit (stash : Nat) (X : List EP) (s : DSt) : Prop where
  st : s.my.stashSize = stash
  len : s.my.contents.length + s.lost.length ≤ X.length
  mass : absMass s.my.contents ≤ absMass X
  lost : X.length ≤ stash → s.lost = []

theorem DFit.init (stash node : Nat) : DFit stash [] (DSt.init stash node) :=
  ⟨rfl, by simp [DSt.init, Tree.contents, Tree.empty], by simp [DSt.init, Tree.contents, Tree.empty, absMass], fun _ => rfl⟩

/-- A party's half of the tree exchange. -/
theorem update_total (K : KeyPair p q mont pk sk) {h : Nat → List Bool} (hh : ∀ e, (h e).length = 256) {B : Nat} (hB : B ≤ p * q)
    {stash : Nat} {X xs : List EP} {s : DSt} {other : Upsi.Tree.Tree (Int × Int)} {lost : List EP}
    (hwf : TWF (fun e : EP => h e.1) s.my) (hsize : s.my.actualSize = X.length) (hkeys : ∀ e ∈ s.my.contents, e.1 < B)
    (hm : Mirror (EncP (p * q)) (PadP B (p * q)) s.my other) (hfit : DFit stash X s) (hlost : lost = s.lost)
    {hsh : List (List Bool)} (hbatch : Batch.WF (xs, hsh)) (hX : ∀ e ∈ xs, e.1 < B) (tX : (X ++ xs).length < 2 ^ 30)
    (hmass : absMass (X ++ xs) < p * q) {enc : Nat → Nat → Nat → Int} (henc : ∀ i j k, 0 ≤ enc i j k) {pads : Nat → Nat → EP}
    (hpads : ∀ i j, B ≤ (pads i j).1 ∧ (pads i j).1 < p * q) (hpads' : ∀ i j, (pads i j).2.natAbs < p * q) :
    ∃ u other', sendUpdate (fun e : EP => h e.1) mergeBucket (fun i j => encPair mont sk (enc i j)) pads s.my xs hsh = .ok u ∧
      recvUpdate deserPair other u.msg = .ok other' ∧ TWF (fun e : EP => h e.1) u.tree ∧
      Mirror (EncP (p * q)) (PadP B (p * q)) u.tree other' ∧ (∀ o, DFit stash (X ++ xs) ⟨u.tree, o, lost ++ u.lost⟩) := by
  have hh' : ∀ e : EP, 256 ≤ ((fun e : EP => h e.1) e).length := fun e => by simp only [hh]; omega
  simp only [List.length_append] at tX
  have hs : xs.length + s.my.actualSize < 2 ^ 30 := by rw [hsize]; omega
  have hsend := sendUpdate_only (hashOf := fun e : EP => h e.1) (fun e => hh e.1) (mergeBucket_post h)
    (enc := fun i j => encPair mont sk (enc i j)) (pads := pads) hwf hbatch hs (E := fun _ => False)
    (Q := fun w => ∃ c, deserPair w = .ok c) (fun ri hri i j a ha => by
      have hw := (insertWith_weight (mergeBucket_post h) hh' (fun e : EP => e.2.natAbs) (fun b => (mergeBucket_weight b).1)
        hwf hbatch hs hri).1
      have : a.1 < p * q ∧ a.2.natAbs < p * q := by
        rcases ha with ha | ⟨k, l, rfl⟩
        · have hk := insertWith_preserves (mergeBucket_post h) hh' (fun e : EP => e.1 < B) (by
            intro b hbb e he
            obtain ⟨e', k1, k2⟩ := mergeBucket_keys b e he
            rw [k2]; exact hbb e' k1) hwf hbatch hs hX hkeys hri a ha
          have h1 := le_absMass ha
          have h2 := hfit.mass
          rw [absMass_append] at hmass
          unfold absMass at h1 h2 hmass
          exact ⟨by omega, by omega⟩
        · exact ⟨(hpads k l).2, hpads' k l⟩
      obtain ⟨w, k1, k2⟩ := encPair_total K (henc i j) this.1 this.2
      rw [k1]; exact k2)
  rcases hsend.cases with ⟨u, hu, q1, q2, ri, q3, q4⟩ | ⟨m, _, hf⟩
  · obtain ⟨_, _, _, _, other', ho, _⟩ := Props.recv_total (fun e : EP => hh e.1) (mergeBucket_post h) hwf (mirror_shape hm)
      hbatch hs hu (Props.deserNodes_total (deser := deserPair) _ q1)
    obtain ⟨b1, _, b3⟩ := mirror_step (mergeBucket_post h) hh' (isPad := PadP B (p * q)) hpads hwf hm
      hbatch hs (fun i j e _ w c hw hc => encPair_spec K hw hc) hu ho
    have htree : ri.tree = u.tree := by
      have hu' := hu
      unfold sendUpdate at hu'
      rw [q3, Outcome.bind_ok] at hu'
      simp only [Outcome.bind_eq_ok, Outcome.pure_eq, Outcome.ok.injEq] at hu'
      obtain ⟨ws, _, rfl⟩ := hu'
      rfl
    have hw := (insertWith_weight (mergeBucket_post h) hh' (fun e : EP => e.2.natAbs) (fun b => (mergeBucket_weight b).1)
        hwf hbatch hs q3).1
    have hw1 := insertWith_weight (mergeBucket_post h) hh' (fun _ : EP => 1) (fun b => by simpa using (mergeBucket_weight b).2)
        hwf hbatch hs q3
    obtain ⟨hw1, hw2⟩ := hw1
    simp only [List.map_const', List.sum_replicate, smul_eq_mul, mul_one] at hw1
    rw [htree, q4] at hw hw1
    have hlen := hfit.len
    refine ⟨u, other', hu, ho, b1, b3, fun o => ⟨q2.trans hfit.st, ?_, ?_, ?_⟩⟩
    · simp only [List.length_append, hlost]; omega
    · have h2 := hfit.mass
      rw [absMass_append]
      show absMass u.tree.contents ≤ _
      unfold absMass at h2 ⊢
      omega
    · intro hle
      simp only [List.length_append] at hle
      simp only
      rw [hlost, hfit.lost (by omega), ← q4, hw2 (fun _ => rfl) (by rw [hfit.st]; omega)]
      rfl
  · exact hf.elim

theorem round_total {p0 q0 p1 q1 : Nat} {k0 k1 : DKeys} (K : Keys p0 q0 p1 q1 mont k0 k1)
    {h : Nat → List Bool} (hh : ∀ e, (h e).length = 256) {B : Nat} (hB0 : B ≤ p0 * q0) (hB1 : B ≤ p1 * q1)
    {X Y xs ys : List EP} {s0 s1 : DSt} (hI : DInv h B (p0 * q0) (p1 * q1) X Y s0 s1) {stash : Nat}
    (hf0 : DFit stash X s0) (hf1 : DFit stash Y s1)
    {ρ : RoundCoins} (hρ : ρ.WF B (p0 * q0) (p1 * q1) xs ys) (hu : ρ.Usable B (p0 * q0) (p1 * q1))
    (hX : ∀ e ∈ xs, e.1 < B) (hY : ∀ e ∈ ys, e.1 < B)
    (tX : (X ++ xs).length < 2 ^ 30) (tY : (Y ++ ys).length < 2 ^ 30)
    (mX0 : absMass (X ++ xs) < p0 * q0) (mX1 : absMass (X ++ xs) ≤ p1 * q1)
    (mY0 : absMass (Y ++ ys) ≤ p0 * q0) (mY1 : absMass (Y ++ ys) < p1 * q1) :
    ∃ s0' s1' o, roundDel mont h k0 k1 s0 s1 xs ys ρ = .ok (s0', s1', o) ∧ DFit stash (X ++ xs) s0' ∧ DFit stash (Y ++ ys) s1' ∧
      List.Forall₂ (List.Forall₂ (InOK (p1 * q1))) o.items0 o.resp1 ∧ List.Forall₂ (List.Forall₂ (InOK (p0 * q0))) o.items1 o.resp0 := by
  obtain ⟨u0, other1, e1, e2, e3, e4, e5⟩ := update_total K.own0 hh hB0 hI.wf0 hI.size0 hI.keys0 hI.mir0 hf0 rfl hρ.hsh0 hX tX mX0
    hu.enc0 hρ.pads0 hu.pads0
  obtain ⟨u1, other0, g1, g2, g3, g4, g5⟩ := update_total K.own1 hh hB1 hI.wf1 hI.size1 hI.keys1 hI.mir1 hf1 rfl hρ.hsh1 hY tY mY1
    hu.enc1 hρ.pads1 hu.pads1
  obtain ⟨gs0, ws0, a1, a2⟩ := candidatesOf_total K.own1 hh hI.wf1 hI.mir1 hX (fun e he => by
    have := le_absMass he; rw [absMass_append] at mX1; omega) hu.path0
  obtain ⟨gs1, ws1, b1, b2⟩ := candidatesOf_total K.own0 hh e3 e4 hY (fun e he => by
    have := le_absMass he; rw [absMass_append] at mY0; omega) hu.path1
  obtain ⟨r1, c1, c2⟩ := forIdx_ok₂ (f := fun _ ws => combineResp k1.sk ws) a2 (fun _ g ws hg => combineResp_total K.own1 hg) 0
  obtain ⟨r0, d1, d2⟩ := forIdx_ok₂ (f := fun _ ws => combineResp k0.sk ws) b2 (fun _ g ws hg => combineResp_total K.own0 hg) 0
  refine ⟨⟨u0.tree, other0, s0.lost ++ u0.lost⟩, ⟨u1.tree, other1, s1.lost ++ u1.lost⟩, ⟨gs0, r1, gs1, r0⟩, ?_, e5 _, g5 _, c2, d2⟩
  simp only [roundDel, delGenI, delGenII, delRecvII, e1, e2, g1, g2, a1, b1, c1, d1, Outcome.bind_ok, Outcome.pure_eq]

end Upsi.Proto
