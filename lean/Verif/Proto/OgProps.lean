import Verif.Proto.OgLemmas
import Mathlib.Data.List.Nodup
/-
Property theorems C48 (the original protocol outputs exactly the intersection).
-/
namespace Upsi.Proto
open Upsi Upsi.ElGamal Upsi.Tree Upsi.Num

variable {G : Type} [AddCommGroup G] [DecidableEq G]

/-- Everything party zero has added. -/
def ogX (ds : List (OgDay G)) : List Nat := ds.flatMap (·.xs)
/-- Everything party one has added. -/
def ogY (ds : List (OgDay G)) : List Nat := ds.flatMap (·.ys)

/-- Well-formed coins of a day: path identifiers of 256 bits, paddings in `[B, q)`, non-zero masks,
shuffles permute. -/
structure OgCoins.WF (S : Setup G) (B : Nat) (ys : List Nat) (ρ : OgCoins G) : Prop where
  hsh : Batch.WF (ys, ρ.hsh)
  pads : ∀ i j, B ≤ ρ.pads i j ∧ ρ.pads i j < S.q
  beta : ∀ i j, NonZero S (ρ.beta i j)
  gamma : ∀ i j, NonZero S (ρ.gamma i j)
  shuffle : ∀ i l, (ρ.shuffle i l).Perm l
  mask : ∀ i, NonZero S (ρ.mask i)

/-- What both parties hold after `X` and `Y` have been added: party zero's tree is an encrypted
mirror of party one's, and the map holds the tag of (at least) every element of party zero that
party one does not have. -/
structure OgInv (S : Setup G) (cu : Codec G) (H : Nat → G) (hashOf : Nat → List Bool) (B : Nat)
    (X Y : List Nat) (s : OgSt G) : Prop where
  wf : TWF hashOf s.p1.tree
  size : s.p1.tree.actualSize = Y.length
  all : (s.p1.tree.contents ++ s.p1.lost).Perm Y
  mir : Mirror (fun (y : Nat) c => decrypt S.sk1 c = (y : Int) • S.g) (fun y => B ≤ y ∧ y < S.q)
    s.p1.tree s.p0.tree
  sound : ∀ e ∈ s.p0.mapping, e.2 ∈ X ∧ S.tag H e.2 ≠ 0 ∧ e.1 = cu.enc (S.tag H e.2)
  complete : ∀ x ∈ X, x ∉ Y → S.tag H x ≠ 0 ∧ (cu.enc (S.tag H x), x) ∈ s.p0.mapping

omit [DecidableEq G] in
theorem OgInv.init (S : Setup G) (cu : Codec G) (H : Nat → G) (hashOf : Nat → List Bool)
    (B stash node : Nat) :
    OgInv S cu H hashOf B [] [] ⟨Og0.init stash node, Og1.init stash node⟩ where
  wf := empty_wf _ _ _
  size := rfl
  all := by simp [Og1.init, Tree.contents, Tree.empty]
  mir := mirror_empty _ _ _ _ _ _
  sound := by simp [Og0.init]
  complete := by simp

/-- One candidate set: party zero sees a zero iff its element is in party one's tree. -/
theorem og_set_spec {S : Setup G} {c : Codec G} {hashOf : Nat → List Bool}
    (hh : ∀ e, (hashOf e).length = 256) {B : Nat} (hB : B ≤ S.q) {t : Upsi.Tree.Tree Nat} {r : Upsi.Tree.Tree (Ct G)}
    (hwf : TWF hashOf t) (hm : Mirror (fun (y : Nat) c => decrypt S.sk1 c = (y : Int) • S.g)
      (fun y => B ≤ y ∧ y < S.q) t r) (hc : ∀ y ∈ t.contents, y < B) {ys : List Nat} {ρ : OgCoins G}
    (hρ : ρ.WF S B ys) {x : Nat} (hx : x < B) {i i' : Nat} {al : CtProto} {al' : Ct G}
    {ws ws' : List EncElem} {cts : List (Ct G)} {k : Nat}
    (h0 : serializeCt c (encryptPoint S.og.pk0 ρ.a0 ρ.hr) = .ok al) (h0' : deserializeCt c al = .ok al')
    (h1 : ogCand c hashOf S.og.pk1 r (encryptPoint S.og.pk1 ρ.a1 ρ.hr) ρ i x = .ok ws)
    (h2 : ogSet c S.og.pk0 S.sk1 (invert al') ρ i' ws = .ok ws')
    (h3 : forIdx (fun _ w => deserNoPayload c w) k ws' = .ok cts) :
    (cts.any (fun ct => decrypt S.sk0 ct = 0) = true) ↔ x ∈ t.contents := by
  have := serializeCt_deser c h0 h0'
  subst this
  simp only [ogCand, Outcome.bind_eq_ok] at h1
  obtain ⟨path, hpath, h1⟩ := h1
  obtain ⟨l, k1, k2, k3⟩ := path_mirror (key := id) hh hwf hm hB hc hx hpath
  simp only [ogSet, Outcome.bind_eq_ok] at h2
  obtain ⟨cs, hcs, h2⟩ := h2
  have := roundtrip_list c _ h2 h3
  subst this
  -- the incoming ciphertexts, element by element
  have hin : List.Forall₂ (fun (y : Nat) ct => ∃ i j, decrypt S.sk1 ct =
      ρ.hr + (ρ.beta i j) • ((x : Int) • S.g - (y : Int) • S.g)) l cs := by
    refine forall₂_comp (forall₂_comp k1 (forIdx_forall₂ _ _ _ h1)
      (T := fun (y : Nat) w => ∃ ct : Ct G, decrypt S.sk1 ct = (y : Int) • S.g ∧ ∃ j, serNoPayload c
        (mul (encryptPoint S.og.pk1 ρ.a1 ρ.hr) (exp (mul (encrypt S.og.pk1 (ρ.x i) x) (invert ct)) (ρ.beta i j))) = .ok w)
      (fun y ct w a1 ⟨j, a2⟩ => ⟨ct, a1, j, a2⟩)) (forIdx_forall₂ _ _ _ hcs) ?_
    rintro y w ct ⟨ct0, e1, j, e2⟩ ⟨_, e3⟩
    obtain ⟨p, hp, rfl⟩ := serNoPayload_inv c e2
    have := serializeCt_deser c hp e3
    subst this
    refine ⟨i, j, ?_⟩
    rw [← e1]
    simp only [decrypt, mul, exp, invert, encrypt, encryptPoint, OgKeys.pk1, Setup.og]
    module
  have hout : List.Forall₂ (fun (y : Nat) ct => (decrypt S.sk0 ct = 0 ↔ x = y)) l
      (cs.mapIdx (fun j ct => exp (mul (encryptPoint S.og.pk0 (ρ.re i' j) (decrypt S.sk1 ct))
        (invert (encryptPoint S.og.pk0 ρ.a0 ρ.hr))) (ρ.gamma i' j))) := by
    have hin' : List.Forall₂ (fun (y : Nat) ct => y < S.q ∧ ∃ i j, decrypt S.sk1 ct =
      ρ.hr + (ρ.beta i j) • ((x : Int) • S.g - (y : Int) • S.g)) l cs :=
      forall₂_mono hin (fun y hy ct h => ⟨k2 y hy, h⟩)
    refine forall₂_mapIdx _ hin' ?_
    rintro j y ct ⟨hy, i0, j0, e⟩
    have hd : decrypt S.sk0 (exp (mul (encryptPoint S.og.pk0 (ρ.re i' j) (decrypt S.sk1 ct))
        (invert (encryptPoint S.og.pk0 ρ.a0 ρ.hr))) (ρ.gamma i' j)) =
        (ρ.gamma i' j) • (ρ.beta i0 j0) • ((x : Int) • S.g - (y : Int) • S.g) := by
      rw [e]
      simp only [decrypt, mul, exp, invert, encryptPoint, OgKeys.pk0, Setup.og]
      module
    rw [hd, S.smul_zero_iff (hρ.gamma _ _), S.smul_zero_iff (hρ.beta _ _), S.smul_eq_iff (by omega) hy]
  rw [List.any_eq_true]
  have hmem : ∀ ct, ct ∈ ρ.shuffle i' (cs.mapIdx (fun j ct => exp (mul (encryptPoint S.og.pk0 (ρ.re i' j)
      (decrypt S.sk1 ct)) (invert (encryptPoint S.og.pk0 ρ.a0 ρ.hr))) (ρ.gamma i' j))) ↔ ct ∈
      (cs.mapIdx (fun j ct => exp (mul (encryptPoint S.og.pk0 (ρ.re i' j) (decrypt S.sk1 ct))
        (invert (encryptPoint S.og.pk0 ρ.a0 ρ.hr))) (ρ.gamma i' j))) := fun ct => (hρ.shuffle _ _).mem_iff
  have hxl : x ∈ t.contents ↔ x ∈ l := by
    have := k3.mem_iff (a := x)
    simpa using this.symm
  rw [hxl]
  simp only [hmem, decide_eq_true_eq]
  clear hmem h2 h3 hcs hin
  revert hout
  generalize cs.mapIdx _ = out
  intro hout
  clear h1 k1 k2 k3 hxl
  induction hout with
  | nil => simp
  | cons a _ ih => simp only [List.mem_cons, exists_eq_or_imp, ih, a]

/-- One day. -/
theorem dayOg_spec {S : Setup G} (ha : NonZero S S.sk0) (hb : NonZero S S.sk1) {c cu : Codec G}
    {H : Nat → G} {hashOf : Nat → List Bool} (hh : ∀ e, (hashOf e).length = 256) {B : Nat}
    (hB : B ≤ S.q) {X Y xs ys : List Nat} {s s' : OgSt G} {ρ : OgCoins G}
    (hI : OgInv S cu H hashOf B X Y s) (hρ : ρ.WF S B ys)
    (hX : ∀ x ∈ X ++ xs, x < B) (hY : ∀ y ∈ Y ++ ys, y < B) (hdY : (Y ++ ys).Nodup)
    (hsz : (Y ++ ys).length < 2 ^ 30)
    (hH : ∀ x ∈ X ++ Y ++ xs ++ ys, ∀ y ∈ X ++ Y ++ xs ++ ys, H x = H y → x = y)
    (h : dayOg S.og c cu H hashOf s xs ys ρ = .ok s') :
    OgInv S cu H hashOf B (X ++ xs) (Y ++ ys) s' ∧ s.p1.lost <+: s'.p1.lost ∧
    s'.p0.intersection = s.p0.intersection ++ ys.filter (fun y => y ∈ X) ++
      xs.filter (fun x => x ∈ s'.p1.tree.contents) := by
  simp only [dayOg, ogSendI, ogSendII, ogSendIII, ogSendIV, ogSendV, ogProcV, Outcome.bind_eq_ok,
    Outcome.pure_eq, Outcome.ok.injEq] at h
  obtain ⟨⟨p1, m1⟩, ⟨u, hu, cs, hcs, e1⟩, ⟨p0, m2⟩, ⟨tree, htree, out, hout, al, hal, cands, hcands, e2⟩,
    m3, ⟨al', hal', hm3⟩, ⟨p0', m4⟩, ⟨rs, hrs, e3⟩, m5, hm5, p0'', ⟨mp, hmp, rfl⟩, rfl⟩ := h
  obtain ⟨rfl, rfl⟩ := Prod.mk.inj e1
  obtain ⟨rfl, rfl⟩ := Prod.mk.inj e2
  obtain ⟨rfl, rfl⟩ := Prod.mk.inj e3
  simp only [List.length_append] at hsz
  simp only at htree hout hal' hm3 hrs hm5 hmp ⊢
  have hh' : ∀ e, 256 ≤ (hashOf e).length := fun e => by rw [hh e]
  -- the tree
  obtain ⟨a1, a2, a3⟩ := mirror_step (PostOK.id _) hh' hρ.pads hI.wf hI.mir
    hρ.hsh (by rw [hI.size]; omega) (fun i j y _ w x hw hx => by
      obtain ⟨p, hp, rfl⟩ := serNoPayload_inv c hw
      rw [serializeCt_deser c hp hx]
      simp only [decrypt, encrypt, encryptPoint, Setup.og, OgKeys.pk1]; module) hu htree
  have a4 := sendUpdate_all hh' hI.wf hρ.hsh (by rw [hI.size]; omega) hu
  have a5 : (u.tree.contents ++ (s.p1.lost ++ u.lost)).Perm (Y ++ ys) := by
    have : (u.tree.contents ++ (s.p1.lost ++ u.lost)).Perm ((u.tree.contents ++ u.lost) ++ s.p1.lost) := by
      rw [List.append_assoc]; exact List.Perm.append_left _ List.perm_append_comm
    refine this.trans ((a4.append_right _).trans ?_)
    have : ((s.p1.tree.contents ++ ys) ++ s.p1.lost).Perm ((s.p1.tree.contents ++ s.p1.lost) ++ ys) := by
      rw [List.append_assoc, List.append_assoc]; exact List.Perm.append_left _ List.perm_append_comm
    exact this.trans (hI.all.append_right _)
  have hcB : ∀ y ∈ u.tree.contents, y < B := fun y hy => hY y (a5.subset (by simp [hy]))
  -- the lookups
  have hlk : ∀ y ∈ ys, S.tag H y ≠ 0 → s.p0.mapping.lookup (cu.enc (S.tag H y)) =
      if decide (y ∈ X) then some y else none := by
    intro y hy hne
    have hyY : y ∉ Y := fun hy' => (List.nodup_append.1 hdY).2.2 y hy' y hy rfl
    cases hl : s.p0.mapping.lookup (cu.enc (S.tag H y)) with
    | none =>
      have : y ∉ X := by
        intro hx
        obtain ⟨_, hmem⟩ := hI.complete y hx hyY
        rw [List.lookup_eq_none_iff] at hl
        have := hl _ hmem
        simp at this
      simp [this]
    | some x =>
      rw [List.lookup_eq_some_iff] at hl
      obtain ⟨l1, l2, hl, _⟩ := hl
      obtain ⟨hx, hne', hk⟩ := hI.sound (cu.enc (S.tag H y), x) (by rw [hl]; simp)
      have hpt : S.tag H y = S.tag H x := Codec.enc_inj cu hne hne' hk
      have := hH y (by simp [hy]) x (by simp [hx]) (S.tag_inj ha hb hpt)
      subst this
      simp [hx]
  have hout' := ogLookup_spec hlk (forIdx_forall₂ _ _ _ hcs) hout
  -- the candidate sets
  obtain ⟨g1, g2⟩ := forIdx_get _ _ _ hcands
  obtain ⟨g3, g4⟩ := forIdx_get _ _ _ hm3
  obtain ⟨g5, g6⟩ := forIdx_get _ _ _ hrs
  obtain ⟨g7, g8⟩ := forIdx_get _ _ _ hm5
  have hpos : ∀ (i : Nat) x, xs[i]? = some x → ∃ r, rs[i]? = some r ∧
      ((x ∈ u.tree.contents ∧ r.1 = some x ∧ r.2.1 = 0) ∨
       (x ∉ u.tree.contents ∧ r.1 = none ∧ r.2.1 = ρ.mask i ∧ (ρ.mask i • (S.sk0 • H x)) ≠ 0 ∧
        r.2.2 = c.enc (ρ.mask i • (S.sk0 • H x)))) := by
    intro i x hx
    obtain ⟨ws, hws, f1⟩ := g2 i x hx
    obtain ⟨ws', hws', f2⟩ := g4 i ws hws
    obtain ⟨r, hr, f3⟩ := g6 i ws' hws'
    refine ⟨r, hr, ?_⟩
    simp only [ogOpen, Outcome.bind_eq_ok, Nat.zero_add] at f3
    obtain ⟨cts, f4, x', f5, f3⟩ := f3
    rw [vget_eq_ok, hx] at f5
    simp only [Option.some.injEq] at f5
    subst f5
    have hxB : x < B := hX x (by rw [List.mem_append]; exact Or.inr (List.mem_of_getElem? hx))
    have hiff : cts.any (fun ct => decrypt S.og.a ct = 0) = true ↔ x ∈ u.tree.contents :=
      og_set_spec hh hB a1 a3 hcB hρ hxB hal hal' f1 f2 f4
    by_cases hin : x ∈ u.tree.contents
    · rw [if_pos (hiff.2 hin)] at f3
      simp only [Outcome.bind_eq_ok, Outcome.pure_eq, Outcome.ok.injEq] at f3
      obtain ⟨w, _, rfl⟩ := f3
      exact Or.inl ⟨hin, rfl, rfl⟩
    · rw [if_neg (fun hc => hin (hiff.1 hc))] at f3
      simp only [Outcome.bind_eq_ok, Outcome.pure_eq, Outcome.ok.injEq] at f3
      obtain ⟨w, hw, rfl⟩ := f3
      obtain ⟨hne, rfl⟩ := pointToBytes_ok hw
      exact Or.inr ⟨hin, rfl, rfl, hne, rfl⟩
  have hlen : rs.length = xs.length := by rw [g5, g3, g1]
  -- what is recorded
  have hrec : ∀ (j : Nat) w, m5[j]? = some w → ∃ x, xs[0 + j]? = some x ∧
      ((x ∈ u.tree.contents ∧ (rs.map (·.2.1))[0 + j]? = some 0) ∨
       (¬ x ∈ u.tree.contents ∧ ∃ k, (rs.map (·.2.1))[0 + j]? = some k ∧ NonZero S k ∧
        k • S.tag H x ≠ 0 ∧ w = c.enc (k • S.tag H x))) := by
    intro j w hj
    rw [Nat.zero_add]
    have hjl : j < xs.length := by
      have := (List.getElem?_eq_some_iff.1 hj).1
      rw [g7, List.length_map, hlen] at this; exact this
    obtain ⟨x, hx⟩ : ∃ x, xs[j]? = some x := ⟨_, List.getElem?_eq_getElem hjl⟩
    refine ⟨x, hx, ?_⟩
    obtain ⟨r, hr, hcase⟩ := hpos j x hx
    have hm4 : (rs.map (·.2.2))[j]? = some r.2.2 := by rw [List.getElem?_map, hr]; rfl
    obtain ⟨w', hw', f⟩ := g8 j _ hm4
    rw [hj] at hw'
    simp only [Option.some.injEq] at hw'
    subst hw'
    rcases hcase with ⟨c1, c2, c3⟩ | ⟨c1, c2, c3, c4, c5⟩
    · exact Or.inl ⟨c1, by rw [List.getElem?_map, hr]; simp [c3]⟩
    · refine Or.inr ⟨c1, ρ.mask j, by rw [List.getElem?_map, hr]; simp [c3], hρ.mask j, ?_⟩
      simp only [Outcome.bind_eq_ok] at f
      obtain ⟨p, hp, hw⟩ := f
      rw [c5] at hp
      have := createECPoint_enc c4 hp
      subst this
      obtain ⟨hne, rfl⟩ := pointToBytes_ok hw
      have e : S.og.b • (ρ.mask j • (S.sk0 • H x)) = ρ.mask j • S.tag H x := by
        simp only [Setup.og, Setup.tag]; module
      rw [e] at hne ⊢
      exact ⟨hne, rfl⟩
  obtain ⟨r1, r2, r3⟩ := ogRecord_spec m5 0 _ _ hrec hmp
  refine ⟨⟨a1, by simp [a2, hI.size], a5, a3, ?_, ?_⟩, List.prefix_append _ _, ?_⟩
  · intro e he
    rcases r1 e he with h1 | ⟨h1, h2, h3⟩
    · obtain ⟨k1, k2, k3⟩ := hI.sound e h1
      exact ⟨by simp [k1], k2, k3⟩
    · exact ⟨by simp [h1], h2, h3⟩
  · intro x hx hxY
    rcases List.mem_append.1 hx with hx | hx
    · obtain ⟨k1, k2⟩ := hI.complete x hx (fun hy => hxY (by simp [hy]))
      exact ⟨k1, r2 _ k2⟩
    · obtain ⟨j, hj⟩ := List.mem_iff_getElem?.1 hx
      have hnot : x ∉ u.tree.contents := fun hc => hxY (a5.subset (by simp [hc]))
      have hjl : j < m5.length := by
        rw [g7, List.length_map, hlen]; exact (List.getElem?_eq_some_iff.1 hj).1
      exact r3 j _ x (List.getElem?_eq_getElem hjl) (by rw [Nat.zero_add]; exact hj) hnot
  · rw [hout']
    congr 1
    apply filterMap_eq_filter
    apply forall₂_of_get _ _ hlen
    intro i x r hx hr
    obtain ⟨r', hr', hcase⟩ := hpos i x hx
    rw [hr] at hr'
    simp only [Option.some.injEq] at hr'
    subst hr'
    rcases hcase with ⟨c1, c2, _⟩ | ⟨c1, c2, _⟩
    · simp [c1, c2]
    · simp [c1, c2]

/-- A history is admissible, given what the parties already hold: elements are below `B` and
paddings in `[B, q)`; no party adds an element twice; party one adds fewer than `2^30` elements;
both secret keys are non-zero (ec_group.cc:136-138); the hash to the curve does not collide on the
elements involved. -/
structure OgAdmissible (S : Setup G) (B : Nat) (H : Nat → G) (X0 Y0 : List Nat)
    (ds : List (OgDay G)) : Prop where
  bound : B ≤ S.q
  key0 : NonZero S S.sk0
  key1 : NonZero S S.sk1
  coins : ∀ d ∈ ds, d.coins.WF S B d.ys
  x : ∀ x ∈ X0 ++ ogX ds, x < B
  y : ∀ y ∈ Y0 ++ ogY ds, y < B
  nodupX : (X0 ++ ogX ds).Nodup
  nodupY : (Y0 ++ ogY ds).Nodup
  sizeY : (Y0 ++ ogY ds).length < 2 ^ 30
  inj : ∀ x ∈ X0 ++ ogX ds ++ (Y0 ++ ogY ds), ∀ y ∈ X0 ++ ogX ds ++ (Y0 ++ ogY ds), H x = H y → x = y

/-- What the output is, in terms of what has been added: no repetition, only common elements, and
every common element not lost to a stash overflow; `E` are the elements both had at the start. -/
def OgOut (E X Y lost out : List Nat) : Prop :=
  (out ++ E).Nodup ∧ (∀ v ∈ out, v ∈ X ∧ v ∈ Y) ∧ (∀ v ∈ X, v ∈ Y → v ∉ lost → v ∈ out ++ E)

theorem ogOut_step {E X Y xs ys lost lost' out contents : List Nat} (hE : ∀ v ∈ E, v ∈ X ∧ v ∈ Y)
    (hX : (X ++ xs).Nodup) (hY : (Y ++ ys).Nodup) (hl : lost <+: lost')
    (hall : (contents ++ lost').Perm (Y ++ ys)) (h : OgOut E X Y lost out) :
    OgOut E (X ++ xs) (Y ++ ys) lost' (out ++ ys.filter (fun y => y ∈ X) ++
      xs.filter (fun x => x ∈ contents)) := by
  obtain ⟨h1, h2, h3⟩ := h
  have dX : ∀ v, v ∈ X → v ∉ xs := fun v a b => (List.nodup_append.1 hX).2.2 v a v b rfl
  have dY : ∀ v, v ∈ Y → v ∉ ys := fun v a b => (List.nodup_append.1 hY).2.2 v a v b rfl
  have hcY : ∀ v ∈ contents, v ∈ Y ++ ys := fun v hv => hall.subset (by simp [hv])
  refine ⟨?_, ?_, ?_⟩
  · have nys : (ys.filter (fun y => y ∈ X)).Nodup := (List.nodup_append.1 hY).2.1.filter _
    have nxs : (xs.filter (fun x => x ∈ contents)).Nodup := (List.nodup_append.1 hX).2.1.filter _
    have hp : (out ++ ys.filter (fun y => y ∈ X) ++ xs.filter (fun x => x ∈ contents) ++ E).Perm
        ((out ++ E) ++ (ys.filter (fun y => y ∈ X) ++ xs.filter (fun x => x ∈ contents))) := by
      rw [List.append_assoc, List.append_assoc, List.append_assoc]
      refine List.Perm.append_left _ ?_
      rw [← List.append_assoc]
      exact List.perm_append_comm
    rw [hp.nodup_iff, List.nodup_append]
    refine ⟨h1, ?_, ?_⟩
    · rw [List.nodup_append]
      refine ⟨nys, nxs, ?_⟩
      rintro v hv w hw rfl
      simp only [List.mem_filter, decide_eq_true_eq] at hv hw
      exact dX v hv.2 hw.1
    · rintro v hv w hw rfl
      have hvXY : v ∈ X ∧ v ∈ Y := by
        rcases List.mem_append.1 hv with h | h
        · exact h2 v h
        · exact hE v h
      simp only [List.mem_append, List.mem_filter, decide_eq_true_eq] at hw
      rcases hw with ⟨hw, _⟩ | ⟨hw, _⟩
      · exact dY v hvXY.2 hw
      · exact dX v hvXY.1 hw
  · intro v hv
    simp only [List.mem_append, List.mem_filter, decide_eq_true_eq] at hv ⊢
    rcases hv with (hv | ⟨hv, hv'⟩) | ⟨hv, hv'⟩
    · have := h2 v hv; tauto
    · tauto
    · have := hcY v hv'
      rw [List.mem_append] at this
      tauto
  · intro v hvX hvY hvl
    have hvl0 : v ∉ lost := fun h => hvl (hl.subset h)
    simp only [List.mem_append, List.mem_filter, decide_eq_true_eq] at hvX hvY ⊢
    have hc : v ∈ contents := by
      have := hall.mem_iff (a := v)
      simp only [List.mem_append] at this
      tauto
    rcases hvX with hx | hx
    · rcases hvY with hy | hy
      · have := h3 v hx hy hvl0
        rw [List.mem_append] at this; tauto
      · tauto
    · tauto

theorem runOg_spec {S : Setup G} (ha : NonZero S S.sk0) (hb : NonZero S S.sk1) {c cu : Codec G}
    {H : Nat → G} {hashOf : Nat → List Bool} (hh : ∀ e, (hashOf e).length = 256) {B : Nat}
    (hB : B ≤ S.q) {E : List Nat} (ds : List (OgDay G)) : ∀ (X Y : List Nat) (s s' : OgSt G),
    OgInv S cu H hashOf B X Y s → OgAdmissible S B H X Y ds → (∀ v ∈ E, v ∈ X ∧ v ∈ Y) →
    OgOut E X Y s.p1.lost s.p0.intersection → runOgFrom S.og c cu H hashOf s ds = .ok s' →
    OgInv S cu H hashOf B (X ++ ogX ds) (Y ++ ogY ds) s' ∧
    OgOut E (X ++ ogX ds) (Y ++ ogY ds) s'.p1.lost s'.p0.intersection := by
  induction ds with
  | nil =>
    intro X Y s s' hI _ _ hO h
    simp only [runOgFrom, runDays, Outcome.ok.injEq] at h
    subst h
    simpa [ogX, ogY] using ⟨hI, hO⟩
  | cons d ds ih =>
    intro X Y s s' hI hA hE hO h
    simp only [runOgFrom, runDays, Outcome.bind_eq_ok] at h
    obtain ⟨s1, h1, h2⟩ := h
    have eX : X ++ ogX (d :: ds) = (X ++ d.xs) ++ ogX ds := by simp [ogX]
    have eY : Y ++ ogY (d :: ds) = (Y ++ d.ys) ++ ogY ds := by simp [ogY]
    obtain ⟨A1, A2, A3, A4, A5, A6, A7, A8, A9, A10⟩ := hA
    rw [eX] at A5 A7 A10 ⊢
    rw [eY] at A6 A8 A9 A10 ⊢
    have hA' : OgAdmissible S B H (X ++ d.xs) (Y ++ d.ys) ds :=
      ⟨A1, A2, A3, fun e he => A4 e (by simp [he]), A5, A6, A7, A8, A9, A10⟩
    have nX := (List.nodup_append.1 A7).1
    have nY := (List.nodup_append.1 A8).1
    obtain ⟨k1, k2, k3⟩ := dayOg_spec ha hb hh hB hI (A4 d (by simp))
      (fun x hx => A5 x (by rw [List.mem_append]; exact Or.inl hx))
      (fun x hx => A6 x (by rw [List.mem_append]; exact Or.inl hx)) nY
      (by rw [List.length_append (as := Y ++ d.ys)] at A9; omega)
      (fun x hx y hy => A10 x (by simp at hx ⊢; tauto) y (by simp at hy ⊢; tauto)) h1
    refine ih _ _ _ _ k1 hA' (fun v hv => by have := hE v hv; simp; tauto) ?_ h2
    rw [k3]
    exact ogOut_step hE nX nY k2 k1.all hO

end Upsi.Proto

namespace Upsi.Proto.Props
open Upsi Upsi.ElGamal Upsi.Tree Upsi.Num

variable {G : Type} [AddCommGroup G] [DecidableEq G]

/-- C48: a completed run of the original protocol in which no element was dropped from party one's
tree leaves in party zero's result exactly the elements both parties have added, each once – whatever
the order in which they were added, on the same day or on different ones. -/
theorem C48_original (S : Setup G) (c cu : Codec G) (H : Nat → G) (hashOf : Nat → List Bool)
    (hh : ∀ e, (hashOf e).length = 256) (B stash node : Nat) (ds : List (OgDay G))
    (hA : OgAdmissible S B H [] [] ds) (s : OgSt G)
    (h : runOg S.og c cu H hashOf stash node ds = .ok s) (hl : s.p1.lost = []) :
    s.p0.intersection.Perm ((ogX ds).filter (fun x => x ∈ ogY ds)) := by
  obtain ⟨_, h1, h2, h3⟩ := runOg_spec hA.key0 hA.key1 hh hA.bound (E := []) ds [] [] _ _
    (OgInv.init S cu H hashOf B stash node) hA (by simp) (by simp [OgOut, Og0.init]) h
  simp only [List.append_nil, List.nil_append] at h1 h2 h3
  have nX := hA.nodupX
  rw [List.nil_append] at nX
  rw [List.perm_ext_iff_of_nodup h1 (nX.filter _)]
  intro v
  simp only [List.mem_filter, decide_eq_true_eq]
  exact ⟨h2 v, fun ⟨a, b⟩ => h3 v a b (by simp [hl])⟩

/-- C48 without the no-loss hypothesis: the result has no repetition and no false positive, and a
common element is missing only if it was dropped from party one's tree by a stash overflow. -/
theorem C48_original_lossy (S : Setup G) (c cu : Codec G) (H : Nat → G) (hashOf : Nat → List Bool)
    (hh : ∀ e, (hashOf e).length = 256) (B stash node : Nat) (ds : List (OgDay G))
    (hA : OgAdmissible S B H [] [] ds) (s : OgSt G)
    (h : runOg S.og c cu H hashOf stash node ds = .ok s) :
    s.p0.intersection.Nodup ∧ (∀ v ∈ s.p0.intersection, v ∈ ogX ds ∧ v ∈ ogY ds) ∧
    (∀ v ∈ ogX ds, v ∈ ogY ds → v ∉ s.p0.intersection → v ∈ s.p1.lost) := by
  obtain ⟨_, h1, h2, h3⟩ := runOg_spec hA.key0 hA.key1 hh hA.bound (E := []) ds [] [] _ _
    (OgInv.init S cu H hashOf B stash node) hA (by simp) (by simp [OgOut, Og0.init]) h
  simp only [List.append_nil, List.nil_append] at h1 h2 h3
  exact ⟨h1, h2, fun v a b d => by_contra fun e => d (h3 v a b e)⟩

/-- C48 from any starting state in which party zero's tree mirrors party one's (holding `Y0`) and the
map holds the tags of `X0`: the result is exactly the common elements not common from the start. -/
theorem C48_original_from (S : Setup G) (c cu : Codec G) (H : Nat → G) (hashOf : Nat → List Bool)
    (hh : ∀ e, (hashOf e).length = 256) (B : Nat) (X0 Y0 : List Nat) (s0 : OgSt G)
    (hI : OgInv S cu H hashOf B X0 Y0 s0) (h0 : s0.p0.intersection = []) (ds : List (OgDay G))
    (hA : OgAdmissible S B H X0 Y0 ds) (s : OgSt G)
    (h : runOgFrom S.og c cu H hashOf s0 ds = .ok s) (hl : s.p1.lost = []) :
    (s.p0.intersection ++ X0.filter (fun x => x ∈ Y0)).Perm
      ((X0 ++ ogX ds).filter (fun x => x ∈ Y0 ++ ogY ds)) := by
  have nX := hA.nodupX
  have n0 := (List.nodup_append.1 nX).1
  obtain ⟨_, h1, h2, h3⟩ := runOg_spec hA.key0 hA.key1 hh hA.bound
    (E := X0.filter (fun x => x ∈ Y0)) ds X0 Y0 _ _ hI hA (by simp) (by
      rw [h0]
      refine ⟨by simpa using n0.filter _, by simp, fun v a b _ => by simp [a, b]⟩) h
  rw [List.perm_ext_iff_of_nodup h1 (nX.filter _)]
  intro v
  constructor
  · intro hv
    rcases List.mem_append.1 hv with hv | hv
    · have := h2 v hv; simp only [List.mem_filter, decide_eq_true_eq]; exact this
    · simp only [List.mem_filter, decide_eq_true_eq, List.mem_append] at hv ⊢
      exact ⟨Or.inl hv.1, Or.inl hv.2⟩
  · intro hv
    simp only [List.mem_filter, decide_eq_true_eq] at hv
    exact h3 v hv.1 hv.2 (by simp [hl])

end Upsi.Proto.Props
