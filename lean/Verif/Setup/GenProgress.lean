import Verif.Setup.ImportProgress
/-
Property theorems C83 (continued): the generation of the initial trees never crashes either.
-/
namespace Upsi.Setup
open Upsi Upsi.ElGamal Upsi.Tree Upsi.Tree.Props Upsi.Num Upsi.Proto Upsi.Paillier

variable {α γ κ P σ G : Type}

/-! ### serialization of trees -/

theorem serElems_total {enc : α → Outcome PElem} (es : List α) (h : ∀ a ∈ es, ∃ p, enc a = .ok p) : ∃ ps, serElems enc es = .ok ps := by
  induction es with
  | nil => exact ⟨[], rfl⟩
  | cons e es ih =>
    obtain ⟨p, hp⟩ := h e (by simp)
    obtain ⟨ps, hps⟩ := ih (fun a ha => h a (by simp [ha]))
    exact ⟨p :: ps, by simp [serElems, hp, hps]⟩

theorem serNodes_total {enc : α → Outcome PElem} (ns : List (Node α)) (h : ∀ n ∈ ns, ∀ a ∈ n.elems, ∃ p, enc a = .ok p) :
    ∃ ps, serNodes enc ns = .ok ps := by
  induction ns with
  | nil => exact ⟨[], rfl⟩
  | cons n ns ih =>
    obtain ⟨p, hp⟩ := serElems_total n.elems (h n (by simp))
    obtain ⟨ps, hps⟩ := ih (fun a ha => h a (by simp [ha]))
    exact ⟨⟨n.cap, p⟩ :: ps, by simp [serNodes, serNode, hp, hps]⟩

theorem serialize_total {enc : α → Outcome PElem} (t : Upsi.Tree.Tree α) (h : ∀ a ∈ t.contents, ∃ p, enc a = .ok p) :
    ∃ p, serialize enc t = .ok p := by
  obtain ⟨ps, hps⟩ := serNodes_total t.nodes (fun n hn a ha => h a (List.mem_flatMap.2 ⟨n, hn, ha⟩))
  exact ⟨_, by simp only [serialize, hps, Outcome.bind_ok, Outcome.pure_eq]; rfl⟩

theorem serEncElems_only {E : String → Prop} {ser : γ → Outcome EncElem} (cs : List γ) (h : ∀ c ∈ cs, (ser c).Only E (fun _ => True)) :
    (serEncElems ser cs).Only E (fun _ => True) := by
  induction cs with
  | nil => trivial
  | cons c cs ih =>
    exact (h c (by simp)).bind fun w _ _ => (ih (fun a ha => h a (by simp [ha]))).bind fun ws _ _ => trivial

theorem serEncNodes_only {E : String → Prop} {ser : γ → Outcome EncElem} (ns : List (Node γ))
    (h : ∀ n ∈ ns, ∀ c ∈ n.elems, (ser c).Only E (fun _ => True)) :
    (serEncNodes ser ns).Only E (fun _ => True) := by
  induction ns with
  | nil => trivial
  | cons c cs ih =>
    exact (serEncElems_only _ (h c (by simp))).bind fun w _ _ => (ih (fun a ha => h a (by simp [ha]))).bind fun ws _ _ => trivial

/-- Generation ends normally or with one of the errors of encrypting an entry. -/
theorem generate_only {hashOf : α → List Bool} (hh : ∀ e, (hashOf e).length = 256) {post : List α → List α} (hpost : PostOK hashOf post)
    {enc : Tape → α → Outcome EncElem} {deser : EncElem → Outcome γ} {ser : γ → Outcome EncElem} {encP : α → Outcome PElem}
    {E : String → Prop} {R : γ → Prop} {stash node : Nat} {data : List α} {ρ : TreeCoins α} (hb : Batch.WF (data, ρ.hsh))
    (hsz : data.length < 2 ^ 30) (Ok : α → Prop)
    (hok : ∀ ri, insertWith hashOf post (Tree.empty stash node) data ρ.hsh = .ok ri → ∀ a ∈ ri.tree.contents, Ok a ∧ ∃ p, encP a = .ok p)
    (hpads : ∀ i j, Ok (ρ.pads i j))
    (hE : ∀ i j a, Ok a → (enc (ρ.enc i j) a).Only E (fun w => ∃ c, deser w = .ok c))
    (hR : ∀ i j a w c, Ok a → enc (ρ.enc i j) a = .ok w → deser w = .ok c → R c)
    (hser : ∀ c, R c → (ser c).Only E (fun _ => True)) :
    (generateTrees hashOf post enc deser ser encP stash node data ρ).Only E (fun _ => True) := by
  have hs : data.length + (Tree.empty stash node : Upsi.Tree.Tree α).actualSize < 2 ^ 30 := by simpa [Tree.empty] using hsz
  have ht := empty_wf hashOf stash node
  unfold generateTrees
  refine (sendUpdate_only hh hpost ht hb hs (E := E) (Q := fun w => ∃ c, deser w = .ok c) (fun ri hri i j a ha => hE i j a ?_)).bind
    fun u hu hq => ?_
  · rcases ha with ha | ⟨k, l, rfl⟩
    · exact (hok ri hri a ha).1
    · exact hpads k l
  obtain ⟨q1, q2, ri, q3, q4⟩ := hq
  have htree : ri.tree = u.tree := by
    have hu' := hu
    unfold sendUpdate at hu'
    rw [q3, Outcome.bind_ok] at hu'
    simp only [Outcome.bind_eq_ok, Outcome.pure_eq, Outcome.ok.injEq] at hu'
    obtain ⟨ws, _, rfl⟩ := hu'
    rfl
  obtain ⟨_, _, _, _, r, hr, _⟩ := Props.recv_total hh hpost (deser := deser) ht
    (mirror_shape (mirror_empty (fun (_ : α) (_ : γ) => True) (fun _ => True) stash node stash node)) hb hs hu (Props.deserNodes_total _ q1)
  obtain ⟨_, _, hm⟩ := mirror_step hpost (fun e => by rw [hh e]) (isPad := Ok) hpads ht (mirror_empty (fun (_ : α) c => R c) Ok stash node stash node)
    hb hs (fun i j a ha w c hw hc => hR i j a w c (ha.elim (fun h => (hok ri q3 a (by rw [htree]; exact h)).1) id) hw hc) hu hr
  rw [hr, Outcome.bind_ok]
  obtain ⟨p, hp⟩ := serialize_total (enc := encP) u.tree (fun a ha => (hok ri q3 a (by rw [htree]; exact ha)).2)
  rw [hp, Outcome.bind_ok]
  refine Outcome.Only.bind (Q := fun _ => True) ?_ fun _ _ _ => trivial
  unfold serializeEnc
  refine (serEncNodes_only r.nodes fun n hn c hc => hser c ?_).bind fun _ _ _ => trivial
  obtain ⟨i, hi⟩ := List.mem_iff_getElem?.1 hn
  obtain ⟨pads, -, hf⟩ := hm.node i
  have hat : r.at i = n.elems := by simp [Tree.at, hi]
  rw [hat] at hf
  obtain ⟨k, hk, rfl⟩ := List.mem_iff_getElem.1 hc
  exact hf.get (by rw [hf.length_eq]; exact hk) hk

/-- What an insertion into an empty tree stores comes from the data. -/
theorem stored_mem {hashOf : α → List Bool} (hh : ∀ e, (hashOf e).length = 256) {stash node : Nat} {data : List α} {hsh : List (List Bool)}
    (hb : Batch.WF (data, hsh)) (hsz : data.length < 2 ^ 30) {ri : InsertResult α}
    (hri : insertWith hashOf id (Tree.empty stash node) data hsh = .ok ri) : ∀ a ∈ ri.tree.contents, a ∈ data :=
  insertWith_preserves (PostOK.id _) (fun e => by rw [hh e]) (fun a => a ∈ data) (fun b h => h) (empty_wf _ _ _) hb
    (by simpa [Tree.empty] using hsz) (fun _ h => h) (by simp [Tree.contents, Tree.empty]) hri

theorem encNat_total (x : Nat) : ∃ p, encNat x = .ok p := by
  obtain ⟨w, h, _⟩ := C30_bytes_roundtrip (x : Int) (by omega)
  exact ⟨⟨w, []⟩, by simp [encNat, encElement, h]⟩

theorem encNatPair_total {p : Nat × Int} (h : 0 ≤ p.2) : ∃ w, encNatPair p = .ok w := by
  obtain ⟨w, h1, _⟩ := C30_bytes_roundtrip (p.1 : Int) (by omega)
  obtain ⟨v, h2, _⟩ := C30_bytes_roundtrip p.2 h
  exact ⟨⟨w, v⟩, by simp [encNatPair, Tree.encPair, h1, h2]⟩

variable [AddCommGroup G] [DecidableEq G]

/-- **C83** (generation, addition-only) For every initial set with non-negative values and all coins, the setup program's
generation of the trees of either party ends normally or with the infinity error. -/
theorem C83_generation_addition (c : Codec G) (hashOf : Nat → List Bool) (hh : ∀ e, (hashOf e).length = 256) (pk : PK G)
    (stash node : Nat) (X0 : List (Nat × Int)) (Y0 : List Nat) (ρ0 : TreeCoins (Nat × Int)) (ρ1 : TreeCoins Nat)
    (w0 : Batch.WF (X0, ρ0.hsh)) (w1 : Batch.WF (Y0, ρ1.hsh)) (hX : X0.length < 2 ^ 30) (hY : Y0.length < 2 ^ 30)
    (hval : ∀ p ∈ X0, 0 ≤ p.2) :
    (genAdd0 c hashOf pk stash node X0 ρ0 = .err "EC_POINT_point2oct failed" ∨ ∃ r, genAdd0 c hashOf pk stash node X0 ρ0 = .ok r) ∧
    (genAdd1 c hashOf pk stash node Y0 ρ1 = .err "EC_POINT_point2oct failed" ∨ ∃ r, genAdd1 c hashOf pk stash node Y0 ρ1 = .ok r) := by
  constructor
  · have := generate_only (E := InfErr) (R := fun _ => True) (fun e : Nat × Int => hh e.1) (PostOK.id _) (enc := (funcSum c).encTree pk)
      (deser := (funcSum c).deserTree) (ser := fun x => serElGamal c x.1 x.2) (encP := encNatPair) (stash := stash) (node := node)
      w0 hX (fun _ => True) (fun ri hri a ha => ⟨trivial, encNatPair_total (hval a (stored_mem (fun e : Nat × Int => hh e.1) w0 hX hri a ha))⟩)
      (fun _ _ => trivial) (fun i j a _ => (serElGamal_only c _ _).mono (fun _ h => h) (fun w _ h => ⟨_, h⟩))
      (fun _ _ _ _ _ _ _ _ => trivial) (fun x _ => (serElGamal_only c _ _).mono (fun _ h => h) (fun _ _ _ => trivial))
    rcases this.cases with ⟨r, hr, _⟩ | ⟨m, hm, rfl⟩
    · exact Or.inr ⟨r, hr⟩
    · exact Or.inl hm
  · have := generate_only (E := InfErr) (R := fun _ => True) hh (PostOK.id _) (enc := fun t y => serNoPayload c (encrypt pk (t 0) y))
      (deser := deserTreeCt c) (ser := serNoPayload c) (encP := encNat) (stash := stash) (node := node)
      w1 hY (fun _ => True) (fun ri hri a ha => ⟨trivial, encNat_total a⟩)
      (fun _ _ => trivial) (fun i j a _ => (serNoPayload_only c _).mono (fun _ h => h) (fun w _ h => ⟨_, h.2⟩))
      (fun _ _ _ _ _ _ _ _ => trivial) (fun x _ => (serNoPayload_only c _).mono (fun _ h => h) (fun _ _ _ => trivial))
    rcases this.cases with ⟨r, hr, _⟩ | ⟨m, hm, rfl⟩
    · exact Or.inr ⟨r, hr⟩
    · exact Or.inl hm

/-- **C83** (generation, secret sharing) The same for party zero's trees of a setup for secret sharing, when the values lie
below the Paillier modulus and the Paillier coins in their range. -/
theorem C83_generation_shares (S : Setup G) (c : Codec G) {p q : Nat} {mont : Int → Option Mont} {a b : TPaillier}
    (K : SSKeys p q mont a b) (hashOf : Nat → List Bool) (hh : ∀ e, (hashOf e).length = 256)
    (stash node : Nat) (X0 : List (Nat × Int)) (ρ0 : TreeCoins (Nat × Int))
    (w0 : Batch.WF (X0, ρ0.hsh)) (hX : X0.length < 2 ^ 30)
    (hval : ∀ e ∈ X0, 0 ≤ e.2 ∧ e.2 < ((p * q : Nat) : Int)) (hpads : ∀ i j, 0 ≤ (ρ0.pads i j).2 ∧ (ρ0.pads i j).2 < ((p * q : Nat) : Int))
    (hcoins : ∀ i j, 0 ≤ ρ0.enc i j 1 ∧ ρ0.enc i j 1 ≤ ((p * q : Nat) : Int)) :
    genAdd0SS c mont a hashOf S.pk stash node X0 ρ0 = .err "EC_POINT_point2oct failed" ∨
    ∃ r, genAdd0SS c mont a hashOf S.pk stash node X0 ρ0 = .ok r := by
  have hE : ∀ t e w x, (funcSS c mont a a).encTree S.pk t e = .ok w → (funcSS c mont a a).deserTree w = .ok x →
      PaySS (p * q) e x.2 :=
    fun t e w x hw hx => ((funcSS_ok S c K).tree t e w x hw hx).2
  have := generate_only (E := InfErr) (R := fun x : Ct G × Int => 0 ≤ x.2) (fun e : Nat × Int => hh e.1) (PostOK.id _)
      (enc := (funcSS c mont a a).encTree S.pk)
      (deser := (funcSS c mont a a).deserTree) (ser := fun x => serPaillier c x.1 x.2) (encP := encNatPair) (stash := stash) (node := node)
      w0 hX (fun e => 0 ≤ e.2 ∧ e.2 < ((p * q : Nat) : Int)) (fun ri hri e he => by
        have := hval e (stored_mem (fun e : Nat × Int => hh e.1) w0 hX hri e he)
        exact ⟨this, encNatPair_total this.1⟩)
      hpads (fun i j e he => (funcSS_total S c K).tree _ e (hcoins i j) he)
      (fun i j e w x he hw hx => (hE _ e w x hw hx).2.2.1)
      (fun x hx => (serPaillier_only c _ hx).mono (fun _ h => h) (fun _ _ _ => trivial))
  rcases this.cases with ⟨r, hr, _⟩ | ⟨m, hm, rfl⟩
  · exact Or.inr ⟨r, hr⟩
  · exact Or.inl hm

/-! ### with deletions -/

theorem mergeGo_nonneg (b : List EP) : ∀ (k : Nat) (v : Int), 0 ≤ v → (∀ e ∈ b, 0 ≤ e.2) → ∀ e ∈ mergeGo k v b, 0 ≤ e.2 := by
  have hemit : ∀ (k : Nat) (v : Int), 0 ≤ v → ∀ e ∈ emit k v, 0 ≤ e.2 := by
    intro k v hv e he
    unfold emit at he
    split at he
    · simp at he
    · simp at he; rw [he]; exact hv
  induction b with
  | nil => intro k v hv _ e he; exact hemit k v hv e he
  | cons x b ih =>
    intro k v hv hb e he
    obtain ⟨k', v'⟩ := x
    have hx : 0 ≤ v' := hb (k', v') (by simp)
    have hb' : ∀ e ∈ b, 0 ≤ e.2 := fun e he => hb e (by simp [he])
    unfold mergeGo at he
    split at he
    · exact ih _ _ (by omega) hb' e he
    · rcases List.mem_append.1 he with h | h
      · exact hemit _ _ hv e h
      · exact ih _ _ hx hb' e h

theorem mergeBucket_nonneg (b : List EP) (h : ∀ e ∈ b, 0 ≤ e.2) : ∀ e ∈ mergeBucket b, 0 ≤ e.2 := by
  intro e he
  unfold mergeBucket at he
  have hs : ∀ x ∈ sortEP b, 0 ≤ x.2 := fun x hx => h x ((sortEP_perm b).subset hx)
  cases hb : sortEP b with
  | nil => rw [hb] at he; simp [mergeSorted] at he
  | cons x r =>
    rw [hb] at he hs
    obtain ⟨j, v⟩ := x
    exact mergeGo_nonneg r j v (hs (j, v) (by simp)) (fun e he => hs e (by simp [he])) e he

variable {mont : Int → Option Mont} {p q : Nat} {pk : Public} {sk : Private}

omit [AddCommGroup G] [DecidableEq G] in
/-- **C83** (generation, deletions) For every initial set of updates with elements below the Paillier modulus and
non-negative payloads that sum up to less than the modulus, and all coins, the setup program's generation of the trees
of a party ends normally. -/
theorem C83_generation_deletion (K : KeyPair p q mont pk sk) (hashOf : Nat → List Bool) (hh : ∀ e, (hashOf e).length = 256)
    (stash node : Nat) (X0 : List EP) (ρ : TreeCoins EP) (w0 : Batch.WF (X0, ρ.hsh)) (hX : X0.length < 2 ^ 30)
    (hel : ∀ e ∈ X0, e.1 < p * q) (hval : ∀ e ∈ X0, 0 ≤ e.2) (hm : absMass X0 < p * q)
    (hpads : ∀ i j, (ρ.pads i j).1 < p * q ∧ (ρ.pads i j).2.natAbs < p * q) (hcoins : ∀ i j k, 0 ≤ ρ.enc i j k) :
    ∃ r, genDel mont sk hashOf stash node X0 ρ = .ok r := by
  have hs : X0.length + (Tree.empty stash node : Upsi.Tree.Tree EP).actualSize < 2 ^ 30 := by simpa [Tree.empty] using hX
  have ht := empty_wf (fun e : EP => hashOf e.1) stash node
  have hp := mergeBucket_post hashOf
  have hh' : ∀ e : EP, 256 ≤ ((fun e : EP => hashOf e.1) e).length := fun e => by simp only [hh]; omega
  have := generate_only (E := fun _ => False) (R := fun c : Int × Int => 0 ≤ c.1 ∧ 0 ≤ c.2) (fun e : EP => hh e.1) hp
      (enc := fun t e => Proto.encPair mont sk t e)
      (deser := deserPair) (ser := serPair) (encP := encNatPair) (stash := stash) (node := node)
      w0 hX (fun e => e.1 < p * q ∧ e.2.natAbs < p * q) (fun ri hri e he => by
        have a1 := insertWith_preserves hp hh' (fun e => e.1 < p * q ∧ 0 ≤ e.2)
          (fun b hb e he => ⟨by obtain ⟨e', h1, h2⟩ := mergeBucket_keys b e he; rw [h2]; exact (hb e' h1).1,
            mergeBucket_nonneg b (fun e he => (hb e he).2) e he⟩) ht w0 hs (fun e he => ⟨hel e he, hval e he⟩)
          (by simp [Tree.contents, Tree.empty]) hri e he
        have a2 := (insertWith_weight hp hh' (fun e : EP => e.2.natAbs) (fun b => (mergeBucket_weight b).1) ht w0 hs hri).1
        have a3 : absMass ri.tree.contents ≤ absMass X0 := by
          have : ((Tree.empty stash node : Upsi.Tree.Tree EP).contents.map (fun e : EP => e.2.natAbs)).sum = 0 := by
            simp [Tree.contents, Tree.empty]
          unfold absMass
          omega
        exact ⟨⟨a1.1, lt_of_le_of_lt ((le_absMass he).trans a3) hm⟩, encNatPair_total a1.2⟩)
      hpads (fun i j e he => by
        obtain ⟨w, hw, c, hc⟩ := encPair_total K (hcoins i j) he.1 he.2
        simp only [hw]
        exact ⟨c, hc⟩)
      (fun i j e w x he hw hx => by
        have := encPair_spec K hw hx
        exact ⟨this.1.bounds.1, this.2.bounds.1⟩)
      (fun x hx => by
        obtain ⟨wa, hwa, _⟩ := C30_bytes_roundtrip x.1 hx.1
        obtain ⟨wb, hwb, _⟩ := C30_bytes_roundtrip x.2 hx.2
        simp only [serPair, hwa, hwb, Outcome.bind_ok, Outcome.pure_eq]
        trivial)
  rcases this.cases with ⟨r, hr, _⟩ | ⟨m, hm, h⟩
  · exact ⟨r, hr⟩
  · exact h.elim

end Upsi.Setup
