import Verif.Proto.AddLemmas
/- The candidate exchange of one day yields exactly the matching pairs. -/
namespace Upsi.Proto
open Upsi Upsi.ElGamal Upsi.Tree Upsi.Num

variable {α β γ κ P G : Type}

/-- A mirrored path lookup: encryptions of a list whose matching entries are those stored. -/
theorem path_mirror {key : α → Nat} {hashOf : Nat → List Bool} (hh : ∀ e, (hashOf e).length = 256)
    {s : Upsi.Tree.Tree α} {r : Upsi.Tree.Tree γ} {Enc : α → γ → Prop} {B q : Nat}
    (hs : TWF (fun p => hashOf (key p)) s) (hm : Mirror Enc (fun p => B ≤ key p ∧ key p < q) s r)
    (hB : B ≤ q) (hc : ∀ a ∈ s.contents, key a < B) {k : Nat} (hk : k < B) {path : List γ}
    (hpath : getPath r (hashOf k) = .ok path) :
    ∃ l, List.Forall₂ Enc l path ∧ (∀ a ∈ l, key a < q) ∧
      (l.filter (fun a => key a = k)).Perm (s.contents.filter (fun a => key a = k)) := by
  have hd : s.depth ≤ (hashOf k).length := by rw [hh]; have := hs.depth; omega
  obtain ⟨p, qq, l, pads, h1, h2, h3, h4, h5⟩ := Props.C05_path Enc _ s r hm hs.nodes.len (hashOf k) hd
  rw [hpath] at h2
  simp only [Outcome.ok.injEq] at h2
  subst h2
  rw [getPath_ok hs.nodes.len hd] at h1
  simp only [Outcome.ok.injEq] at h1
  have hmem : ∀ a ∈ p, a ∈ s.contents := by
    intro a ha
    rw [← h1] at ha
    obtain ⟨u, _, hu⟩ := List.mem_flatMap.1 ha
    by_cases hlt : u < s.nodes.length
    · have hget : s.nodes[u]? = some s.nodes[u] := List.getElem?_eq_getElem hlt
      rw [nodeAt_of hget] at hu
      exact List.mem_flatMap.2 ⟨_, List.mem_of_getElem? hget, hu⟩
    · simp [nodeAt, List.getElem?_eq_none (Nat.le_of_not_lt hlt)] at hu
  refine ⟨l, h5, ?_, ?_⟩
  · intro a ha
    rcases List.mem_append.1 (h4.subset ha) with h | h
    · have := hc a (hmem a h); omega
    · exact (h3 a h).2
  · refine (h4.filter _).trans ?_
    rw [List.filter_append]
    have : pads.filter (fun a => decide (key a = k)) = [] := by
      rw [List.filter_eq_nil_iff]
      intro a ha
      have := (h3 a ha).1
      simp; omega
    rw [this, List.append_nil, ← h1]
    exact filter_path hs hd _ (by intro e he; simp at he; rw [he])

/-- Concatenating per-element candidate lists. -/
theorem exists_specs {δ ε : Type} {R : α → β → Prop} {Sx : γ → List β → Prop} {l : List γ}
    {bs : List (List β)} (m : α → Bool) (f : α → ε) (target : γ → List ε)
    (h : List.Forall₂ Sx l bs)
    (hS : ∀ c ∈ l, ∀ b, Sx c b → ∃ a, List.Forall₂ R a b ∧ ((a.filter m).map f).Perm (target c)) :
    ∃ as, List.Forall₂ R as bs.flatten ∧ ((as.filter m).map f).Perm (l.flatMap target) := by
  induction h with
  | nil => exact ⟨[], .nil, by simp⟩
  | cons h1 _ ih =>
    obtain ⟨as, k1, k2⟩ := ih (fun c hc => hS c (by simp [hc]))
    obtain ⟨a, j1, j2⟩ := hS _ (by simp) _ h1
    refine ⟨a ++ as, ?_, ?_⟩
    · simp only [List.flatten_cons]; exact List.rel_append j1 k1
    · simp only [List.filter_append, List.map_append, List.flatMap_cons]
      exact j2.append k2

theorem forall₂_map_left {R : β → γ → Prop} {f : α → β} {l : List α} {m : List γ}
    (h : List.Forall₂ (fun a c => R (f a) c) l m) : List.Forall₂ R (l.map f) m := by
  rw [List.forall₂_map_left_iff]; exact h

theorem forall₂_map_left' {R : β → γ → Prop} {f : α → β} {l : List α} {m : List γ}
    (h : List.Forall₂ R (l.map f) m) : List.Forall₂ (fun a c => R (f a) c) l m := by
  rw [List.forall₂_map_left_iff] at h; exact h

theorem filter_map_const_left [DecidableEq P] (key : P → Nat) (p : P) (l : List Nat) :
    (((l.map (fun y => (p, y))).filter (fun pr : P × Nat => key pr.1 = pr.2)).map Prod.fst) =
      List.replicate (l.count (key p)) p := by
  induction l with
  | nil => rfl
  | cons y l ih =>
    by_cases h : key p = y
    · subst h
      simp [List.replicate_succ, ih]
    · have h' : ¬ y = key p := fun e => h e.symm
      simp [h, h', ih]

variable [AddCommGroup G] [DecidableEq G]

/-- The relation between an abstract pair (entry of party zero, element of party one) and a
candidate before masking. -/
def CandRel (S : Setup G) (key : P → Nat) (Pay : P → κ → Prop) (pr : P × Nat) (x : Ct G × κ) : Prop :=
  (S.dec x.1 = 0 ↔ key pr.1 = pr.2) ∧ Pay pr.1 x.2

theorem exchange_spec {S : Setup G} {F : Func G P γ κ} {Pay Pay' : P → κ → Prop}
    {Good : Tape → Prop} (hF : FuncOK S F Pay Pay' Good) (c : Codec G) {hashOf : Nat → List Bool}
    (hh : ∀ e, (hashOf e).length = 256) {B : Nat} (hB : B ≤ S.q) {X xs : List P} {Y ys : List Nat}
    {s0 s0' : St0 G P} {s1 s1' : St1 γ} (hI : Inv S F Pay hashOf B X Y s0 s1)
    {ρ : Coins G P κ} (hρ : ρ.WF S F.key B Good xs ys)
    (hX : ∀ p ∈ X ++ xs, F.key p < B) (hY : ∀ y ∈ Y ++ ys, y < B)
    (ht0 : (X ++ xs).length < 2 ^ 30) (ht1 : (Y ++ ys).length < 2 ^ 30)
    {cands : List (Ct G × κ)}
    (h : exchange F c hashOf S.pk S.sk1 s0 s1 xs ys ρ = .ok (s0', s1', cands)) :
    Inv S F Pay hashOf B (X ++ xs) (Y ++ ys) s0' s1' ∧ s0.lost <+: s0'.lost ∧ s1.lost <+: s1'.lost ∧
    (s0'.lost = [] → s1'.lost = [] →
      ∃ ms, ms.Perm (matched F.key xs Y ++ matched F.key (X ++ xs) ys) ∧
        List.Forall₂ (fun p x => Pay' p x.2) ms
          (cands.filter (fun x => decrypt S.sk0 x.1 = 0))) := by
  classical
  simp only [exchange, genI, genII, recvII, Outcome.bind_eq_ok, Outcome.pure_eq, Outcome.ok.injEq,
    Prod.mk.injEq] at h
  obtain ⟨⟨t0, m1⟩, ⟨u0, hu0, cs, hcs, e0⟩, ⟨t1, m2⟩, ⟨other1, ho1, dec1, hdec1, own, hown, out, hout,
    u1, hu1, e1⟩, ⟨t2, cands'⟩, ⟨other0, ho0, cs2, hcs2, e2⟩, e3⟩ := h
  obtain ⟨rfl, rfl⟩ := Prod.mk.inj e0
  obtain ⟨rfl, rfl⟩ := Prod.mk.inj e1
  obtain ⟨rfl, rfl⟩ := Prod.mk.inj e2
  obtain ⟨rfl, rfl, rfl⟩ := e3
  simp only [List.length_append] at ht0 ht1
  have hh' : ∀ e, 256 ≤ (hashOf e).length := fun e => by rw [hh e]
  -- trees
  obtain ⟨a1, a2, a3⟩ := mirror_step (PostOK.id _) (fun p => hh' (F.key p)) hρ.pads0 hI.wf0 hI.mir0
    hρ.hsh0 (by rw [hI.size0]; omega) (fun i j p _ w c hw hc => hF.tree _ p w c hw hc) hu0 ho1
  obtain ⟨b1, b2, b3⟩ := mirror_step (PostOK.id _) hh' hρ.pads1 hI.wf1 hI.mir1
    hρ.hsh1 (by rw [hI.size1]; omega) (fun i j y _ w x hw hx => by
      simp only [serNoPayload, Outcome.bind_eq_ok, Outcome.pure_eq, Outcome.ok.injEq] at hw
      obtain ⟨p, hp, rfl⟩ := hw
      rw [serializeCt_deser c hp hx]
      simp only [Setup.dec, decrypt, encrypt, encryptPoint, Setup.pk]; module) hu1 ho0
  have a4 := sendUpdate_all (fun p => hh' (F.key p)) hI.wf0 hρ.hsh0 (by rw [hI.size0]; omega) hu0
  have b4 := sendUpdate_all hh' hI.wf1 hρ.hsh1 (by rw [hI.size1]; omega) hu1
  have a5 : (u0.tree.contents ++ (s0.lost ++ u0.lost)).Perm (X ++ xs) := by
    have : (u0.tree.contents ++ (s0.lost ++ u0.lost)).Perm ((u0.tree.contents ++ u0.lost) ++ s0.lost) := by
      rw [List.append_assoc]; exact List.Perm.append_left _ List.perm_append_comm
    refine this.trans ((a4.append_right _).trans ?_)
    have : ((s0.my.contents ++ xs) ++ s0.lost).Perm ((s0.my.contents ++ s0.lost) ++ xs) := by
      rw [List.append_assoc, List.append_assoc]; exact List.Perm.append_left _ List.perm_append_comm
    exact this.trans (hI.all0.append_right _)
  have b5 : (u1.tree.contents ++ (s1.lost ++ u1.lost)).Perm (Y ++ ys) := by
    have : (u1.tree.contents ++ (s1.lost ++ u1.lost)).Perm ((u1.tree.contents ++ u1.lost) ++ s1.lost) := by
      rw [List.append_assoc]; exact List.Perm.append_left _ List.perm_append_comm
    refine this.trans ((b4.append_right _).trans ?_)
    have : ((s1.my.contents ++ ys) ++ s1.lost).Perm ((s1.my.contents ++ s1.lost) ++ ys) := by
      rw [List.append_assoc, List.append_assoc]; exact List.Perm.append_left _ List.perm_append_comm
    exact this.trans (hI.all1.append_right _)
  refine ⟨⟨a1, b1, by simp [a2, hI.size0], by simp [b2, hI.size1], a5, b5, a3, b3⟩,
    List.prefix_append _ _, List.prefix_append _ _, ?_⟩
  intro l0 l1
  simp only [List.append_eq_nil_iff] at l0 l1
  -- nothing was lost
  have hYc : s1.my.contents.Perm Y := by have := hI.all1; rw [l1.1, List.append_nil] at this; exact this
  have hXc : u0.tree.contents.Perm (X ++ xs) := by rw [l0.1, l0.2] at a5; simpa using a5
  have hYb : ∀ y ∈ s1.my.contents, y < B := fun y hy => hY y (by
    rw [List.mem_append]; exact Or.inl (hYc.subset hy))
  have hXb : ∀ p ∈ u0.tree.contents, F.key p < B := fun p hp => hX p (hXc.subset hp)
  -- party zero's candidates
  have hA := forIdx_forall₂ _ _ _ hcs
  obtain ⟨specA, A1, A2⟩ := exists_specs (δ := P) (R := fun (pr : P × Nat) w => ∀ x, F.deser w = .ok x →
      CandRel S F.key Pay pr x) (fun pr : P × Nat => decide (F.key pr.1 = pr.2)) Prod.fst
    (fun p => List.replicate (Y.count (F.key p)) p) hA (by
      rintro p hp b ⟨i, hb⟩
      simp only [candI, Outcome.bind_eq_ok] at hb
      obtain ⟨path, hpath, pay, hpay, hb⟩ := hb
      have hpB : F.key p < B := hX p (by simp [hp])
      obtain ⟨l, k1, k2, k3⟩ := path_mirror (key := id) hh hI.wf1 hI.mir1 hB hYb hpB hpath
      refine ⟨l.map (fun y => (p, y)), ?_, ?_⟩
      · apply forall₂_map_left
        refine forall₂_mono (forall₂_comp k1 (forIdx_forall₂ _ _ _ hb) (T := fun (y : Nat) w => ∃ ct : Ct G, S.dec ct = (y : Int) • S.g ∧
          ∃ j, F.ser (reRandomize S.pk (ρ.rr i j) (mul ct (invert (encrypt S.pk (ρ.x0 i 0) (F.key p))))) pay = .ok w)
          (fun y ct w h1 ⟨j, h2⟩ => ⟨ct, h1, j, h2⟩)) ?_
        rintro y hy w ⟨ct, h1, j, h2⟩ x hx
        have := hF.ser _ _ _ _ h2 hx
        subst this
        refine ⟨?_, hF.payload _ _ _ hpay⟩
        have hdec : S.dec (reRandomize S.pk (ρ.rr i j) (mul ct (invert (encrypt S.pk (ρ.x0 i 0) (F.key p))))) =
            S.dec ct - (F.key p : Int) • S.g := by
          simp only [Setup.dec, decrypt, reRandomize, mul, invert, encrypt, encryptPoint, Setup.pk]
          module
        simp only
        rw [hdec, h1, S.smul_eq_iff (a := y) (k2 y hy) (b := F.key p) (by omega)]
        exact eq_comm
      · rw [filter_map_const_left]
        have : l.count (F.key p) = Y.count (F.key p) := by
          rw [← hYc.count_eq]
          have := k3.length_eq
          simp only [id] at this
          rw [List.count_eq_length_filter, List.count_eq_length_filter]
          simpa [beq_eq_decide] using this
        rw [this])
  -- party one's candidates
  have hBf := forIdx_forall₂ _ _ _ hown
  obtain ⟨specB, B1, B2⟩ := exists_specs (δ := P) (R := CandRel S F.key Pay)
    (fun pr : P × Nat => decide (F.key pr.1 = pr.2)) Prod.fst
    (fun y => (X ++ xs).filter (fun p => F.key p = y)) hBf (by
      rintro y hy b ⟨i, hb⟩
      simp only [candII, Outcome.bind_eq_ok, Outcome.pure_eq, Outcome.ok.injEq] at hb
      obtain ⟨path, hpath, rfl⟩ := hb
      have hyB : y < B := hY y (by simp [hy])
      obtain ⟨l, k1, k2, k3⟩ := path_mirror hh a1 a3 hB hXb hyB hpath
      refine ⟨l.map (fun p => (p, y)), ?_, ?_⟩
      · rw [List.forall₂_map_left_iff, List.forall₂_map_right_iff]
        refine forall₂_mono k1 ?_
        rintro p hp ct ⟨h1, h2⟩
        refine ⟨?_, h2⟩
        have hdec : S.dec (mul (F.first ct) (invert (encrypt S.pk (ρ.x1 i) (y : Int)))) =
            S.dec (F.first ct) - (y : Int) • S.g := by
          simp only [Setup.dec, decrypt, mul, invert, encrypt, encryptPoint, Setup.pk]
          module
        simp only
        rw [hdec, h1, S.smul_eq_iff (k2 p hp) (by omega)]
      · rw [List.filter_map, List.map_map]
        have : (Prod.fst ∘ fun p : P => (p, y)) = id := by funext p; rfl
        rw [this, List.map_id]
        exact k3.trans (hXc.filter _))
  -- decoded candidates of message I
  have hD : List.Forall₂ (CandRel S F.key Pay) specA dec1 := by
    refine forall₂_comp A1 (forIdx_forall₂ _ _ _ hdec1) ?_
    rintro pr w x h1 ⟨_, h2⟩
    exact h1 x h2
  have hall : List.Forall₂ (CandRel S F.key Pay) (specA ++ specB) (dec1 ++ own.flatten) :=
    List.rel_append hD B1
  have hcomp : (Relation.Comp (List.Forall₂ (CandRel S F.key Pay)) List.Perm)
      (specA ++ specB) (ρ.shuffle (dec1 ++ own.flatten)) := ⟨_, hall, (hρ.shuffle _).symm⟩
  rw [List.forall₂_comp_perm_eq_perm_comp_forall₂] at hcomp
  obtain ⟨spec, hsp, hperm⟩ := hcomp
  -- masking and sending
  have hmask : List.Forall₂ (fun pr z => ∃ i x, CandRel S F.key Pay pr x ∧ z = F.mask (ρ.masks i) x) spec
      ((ρ.shuffle (dec1 ++ own.flatten)).mapIdx (fun i x => F.mask (ρ.masks i) x)) :=
    forall₂_mapIdx _ hperm (fun i a b hab => ⟨i, b, hab, rfl⟩)
  have hfin : List.Forall₂ (fun pr (x' : Ct G × κ) => (decrypt S.sk0 x'.1 = 0 ↔ F.key pr.1 = pr.2) ∧
      (F.key pr.1 = pr.2 → Pay' pr.1 x'.2)) spec cs2 := by
    refine forall₂_comp (forall₂_comp hmask (forIdx_forall₂ _ _ _ hout)
      (T := fun pr w => ∃ i j x, CandRel S F.key Pay pr x ∧ F.send S.pk S.sk1 (ρ.send j) (F.mask (ρ.masks i) x) = .ok w)
      ?_) (forIdx_forall₂ _ _ _ hcs2) ?_
    · rintro pr z w ⟨i, x, h1, rfl⟩ ⟨j, h2⟩
      exact ⟨i, j, x, h1, h2⟩
    · rintro pr w x' ⟨i, j, x, h1, h2⟩ ⟨_, h3⟩
      obtain ⟨k1, k2⟩ := hF.send _ _ _ _ _ (hρ.masks i) h2 h3
      exact ⟨k1.trans h1.1, fun hk => k2 (h1.1.2 hk) _ h1.2⟩
  refine ⟨(spec.filter (fun pr => F.key pr.1 = pr.2)).map Prod.fst, ?_, ?_⟩
  · have h1 : ((spec.filter (fun pr => F.key pr.1 = pr.2)).map Prod.fst).Perm
        (((specA ++ specB).filter (fun pr => F.key pr.1 = pr.2)).map Prod.fst) :=
      (hsp.symm.filter _).map _
    refine h1.trans ?_
    rw [List.filter_append, List.map_append]
    exact A2.append (B2.trans (matched_comm F.key (X ++ xs) ys))
  · rw [List.forall₂_map_left_iff]
    exact forall₂_filter hfin (fun pr x' ⟨k1, k2⟩ => ⟨by
      simp only [decide_eq_decide]; exact k1.symm, fun hp => k2 (by simpa using hp)⟩)

end Upsi.Proto
