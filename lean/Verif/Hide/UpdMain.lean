import Verif.Hide.UpdModel
import Verif.Hide.Main
/- The tree updates are a function of their ciphertexts and of public data (C81). -/
namespace Upsi.Hide
open Upsi Upsi.Tree Upsi.Num Upsi.Proto Upsi.Paillier Upsi.View Upsi.Tree.Props

/-- The histories for which nothing is refused and the paths are in order: one identifier of 256 bits per entry, fewer than
`2^30` entries, elements and pads below `n`, payloads that add up to less than `n` in absolute value. -/
structure FitsU (n : Nat) (t : Upsi.Tree.Tree EP) (days : List UpDay) : Prop where
  batches : ∀ d ∈ days, Batch.WF (d.es, d.hsh)
  size : (days.map (fun d => d.es.length)).sum + t.actualSize < 2 ^ 30
  keys : ∀ d ∈ days, ∀ e ∈ d.es, e.1 < n
  stored : ∀ e ∈ t.contents, e.1 < n
  mass : absMass t.contents + (days.map (fun d => absMass d.es)).sum < n
  pads : ∀ d ∈ days, ∀ i j, (d.pads i j).1 < n ∧ (d.pads i j).2.natAbs < n

/-- What an insertion does to the tree and which nodes are sent. -/
theorem up_step {n : Nat} {hashOf : Nat → List Bool} (hh : ∀ e, (hashOf e).length = 256) {t : Upsi.Tree.Tree EP}
    (ht : TWF (fun e : EP => hashOf e.1) t) {d : UpDay} {ds : List UpDay} (hf : FitsU n t (d :: ds)) :
    ∃ r, insertWith (fun e : EP => hashOf e.1) mergeBucket t d.es d.hsh = .ok r ∧ TWF (fun e : EP => hashOf e.1) r.tree ∧ FitsU n r.tree ds ∧
      (∀ m ∈ r.update, m.elems.length ≤ m.cap) ∧
      pubDays t.stashSize t.nodeSize t.depth t.actualSize (upIds (d :: ds)) =
        ⟨d.hsh, r.update.map Node.cap⟩ :: pubDays r.tree.stashSize r.tree.nodeSize r.tree.depth r.tree.actualSize (upIds ds) ∧
      ∀ (i j : Nat) m e, r.update[i]? = some m → (padNode m (d.pads i)).elems[j]? = some e → e.1 < n ∧ e.2.natAbs < n := by
  have hb : Batch.WF (d.es, d.hsh) := hf.batches d (by simp)
  have hsz := hf.size
  simp only [List.map_cons, List.sum_cons] at hsz
  have htot : d.es.length + t.actualSize < 2 ^ 30 := by omega
  have hh' : ∀ e : EP, 256 ≤ ((fun e : EP => hashOf e.1) e).length := fun e => by simp only [hh]; omega
  obtain ⟨r, k1, k2, k3, k4, k5, k6, k7, -, k9, k10, -⟩ := insertWith_spec (M := Nat) (mergeBucket_post hashOf)
    hh' (fun _ => 0) (fun b => by simp [wsum]) ht hb htot
  have hb1 : d.hsh.length = d.es.length := hb.1
  have hdep : r.tree.depth = max t.depth (Nat.log2 (t.actualSize + d.hsh.length)) := by
    rw [hb1, Nat.add_comm]
    refine depth_eq k6 ?_ k7
    have := k2.size
    rw [k5, Nat.add_comm] at this
    exact this
  have hnode : ∀ (i : Nat) m, r.update[i]? = some m → ∃ u, (updateAddrs r.tree.depth d.hsh)[i]? = some u ∧ r.tree.nodes[u]? = some m := by
    intro i m hn
    have := k10 i
    rw [hn] at this
    cases hu : (updateAddrs r.tree.depth d.hsh)[i]? with
    | none => rw [hu] at this; simp at this
    | some u => rw [hu] at this; exact ⟨u, rfl, this.symm⟩
  have hcap : ∀ m ∈ r.update, m.elems.length ≤ m.cap := by
    intro m hn
    obtain ⟨i, hi⟩ := List.getElem?_of_mem hn
    obtain ⟨u, -, hu⟩ := hnode i m hi
    exact k2.nodes.room u m hu
  have hsizes : (updateAddrs (max t.depth (Nat.log2 (t.actualSize + d.hsh.length))) d.hsh).map
      (fun u => if u = 0 then t.stashSize else t.nodeSize) = r.update.map Node.cap := by
    rw [← hdep]
    refine List.ext_getElem (by simp [k9]) fun i hi hi' => ?_
    simp only [List.length_map] at hi'
    obtain ⟨u, hu1, hu2⟩ := hnode i _ (List.getElem?_eq_getElem hi')
    have hl : i < (updateAddrs r.tree.depth d.hsh).length := by omega
    rw [List.getElem?_eq_getElem hl, Option.some.injEq] at hu1
    rw [List.getElem_map, List.getElem_map, hu1, k2.nodes.caps u _ hu2, k3, k4]
  have hkeys : ∀ e ∈ r.tree.contents, e.1 < n := insertWith_preserves (mergeBucket_post hashOf) hh' (fun e : EP => e.1 < n) (by
      intro b hbb e he
      obtain ⟨e', q1, q2⟩ := mergeBucket_keys b e he
      rw [q2]; exact hbb e' q1) ht hb htot (hf.keys d (by simp)) hf.stored k1
  have hw := (insertWith_weight (mergeBucket_post hashOf) hh' (fun e : EP => e.2.natAbs) (fun b => (mergeBucket_weight b).1)
    ht hb htot k1).1
  have hmass := hf.mass
  simp only [List.map_cons, List.sum_cons] at hmass
  have hmass' : absMass r.tree.contents + (ds.map (fun d => absMass d.es)).sum < n := by
    unfold absMass at hmass ⊢
    omega
  refine ⟨r, k1, k2, ⟨fun d' hd' => hf.batches d' (by simp [hd']), by rw [k5]; omega, fun d' hd' => hf.keys d' (by simp [hd']), hkeys, hmass',
    fun d' hd' => hf.pads d' (by simp [hd'])⟩, hcap, ?_, ?_⟩
  · rw [upIds, List.map_cons, pubDays, hsizes, k3, k4, hdep, k5, hb1]; rfl
  · intro i j m e hm he
    obtain ⟨u, -, hu⟩ := hnode i m hm
    have hmem := List.mem_of_getElem? he
    simp only [padNode, List.mem_append, List.mem_map] at hmem
    rcases hmem with hmem | ⟨j', -, rfl⟩
    · have hc : e ∈ r.tree.contents := by
        rw [Tree.contents, List.mem_flatMap]
        exact ⟨m, List.mem_of_getElem? hu, hmem⟩
      have := le_absMass hc
      exact ⟨hkeys e hc, by omega⟩
    · exact hf.pads d (by simp) i j'

theorem usedPlaces_next (ps : List PubDay) : ∀ d, usedPlaces (d + 1) ps = (usedPlaces d ps).map Place.next := by
  induction ps with
  | nil => intro d; rfl
  | cons p ps ih =>
    intro d
    simp only [usedPlaces, ih, List.map_append, List.map_flatMap, List.map_map]
    rfl

theorem mem_place {p : PubDay} {ps : List PubDay} {i j k m : Nat} (hi : p.sizes[i]? = some m) (hj : j < m) (hk : k < 2) :
    Place.mk 0 i j k ∈ usedPlaces 0 (p :: ps) := by
  simp only [usedPlaces, List.mem_append, List.mem_flatMap, List.mem_map, List.mem_range]
  exact Or.inl ⟨i, (List.getElem?_eq_some_iff.1 hi).1, j, by rw [List.getD_eq_getElem?_getD, hi]; exact hj, k, hk, rfl⟩

theorem mem_place_next {p : PubDay} {ps : List PubDay} {s : Place} (h : s ∈ usedPlaces 0 ps) : s.next ∈ usedPlaces 0 (p :: ps) := by
  rw [usedPlaces, usedPlaces_next]
  exact List.mem_append_right _ (List.mem_map_of_mem h)

theorem usedPlaces_nodup (ps : List PubDay) : ∀ d, (usedPlaces d ps).Nodup := by
  induction ps with
  | nil => intro d; simp [usedPlaces]
  | cons p ps ih =>
    intro d
    rw [usedPlaces]
    refine List.Nodup.append ?_ (ih _) ?_
    · refine nodup_flatMap_range (fun i => nodup_flatMap_range (fun j => ?_) ?_) ?_
      · exact List.nodup_range.map (fun a b h => by injection h)
      · intro j j' a ha hb
        simp only [List.mem_map] at ha hb
        obtain ⟨k, -, rfl⟩ := ha
        obtain ⟨k', -, h⟩ := hb
        injection h with h1 h2 h3 h4; exact h3.symm
      · intro i i' a ha hb
        simp only [List.mem_flatMap, List.mem_map] at ha hb
        obtain ⟨j, -, k, -, rfl⟩ := ha
        obtain ⟨j', -, k', -, h⟩ := hb
        injection h with h1 h2 h3 h4; exact h2.symm
    · have hge : ∀ (ps : List PubDay) d, ∀ s ∈ usedPlaces d ps, d ≤ s.d := by
        intro ps
        induction ps with
        | nil => intro d s h; simp [usedPlaces] at h
        | cons p ps ih =>
          intro d s h
          simp only [usedPlaces, List.mem_append, List.mem_flatMap, List.mem_map] at h
          rcases h with ⟨i, -, j, -, k, -, rfl⟩ | h
          · exact le_rfl
          · have := ih _ _ h; omega
      intro s ha hb
      simp only [List.mem_flatMap, List.mem_map] at ha
      obtain ⟨i, -, j, -, k, -, rfl⟩ := ha
      have := hge _ _ _ hb
      simp only at this
      omega

theorem updatesC_congr {n : Nat} (ps : List PubDay) : ∀ {ct ct' : Place → (ZMod (n ^ 2))ˣ},
    (∀ s ∈ usedPlaces 0 ps, ct s = ct' s) → updatesC ct ps = updatesC ct' ps := by
  induction ps with
  | nil => intro ct ct' _; rfl
  | cons p ps ih =>
    intro ct ct' h
    rw [updatesC, updatesC, ih (ct := fun s => ct s.next) (ct' := fun s => ct' s.next) (fun s hs => h _ (mem_place_next hs))]
    congr 1
    refine forIdx_congr2 _ _ 0 rfl fun i m m' hm hm' => ?_
    obtain rfl : m = m' := Option.some.inj (hm.symm.trans hm')
    refine forIdx_congr2 _ _ 0 rfl fun j x _ hx _ => ?_
    simp only [Nat.zero_add]
    obtain ⟨hj, -⟩ := List.getElem?_eq_some_iff.1 hx
    rw [List.length_range] at hj
    rw [h _ (mem_place hm hj (by omega)), h _ (mem_place hm hj (by omega))]

/-- The tree updates are made of their ciphertexts. -/
theorem treeUpdates_eq {n : Nat} [NeZero n] {mont : Int → Option Mont} {hashOf : Nat → List Bool} (hh : ∀ e, (hashOf e).length = 256) {sk : Private}
    (hns : sk.ns = n) {A : Type} {c : A → Int × Int} {z : A → (ZMod (n ^ 2))ˣ}
    (hz : ∀ a (m : Nat), m < n → sk.encrypt mont m (c a).1 (c a).2 = .ok (rep (gen n ^ m * z a))) (days : List UpDay) :
    ∀ (t : Upsi.Tree.Tree EP) (coin : Place → A), TWF (fun e : EP => hashOf e.1) t → FitsU n t days →
    treeUpdates mont hashOf sk (fun s => c (coin s)) t days =
      updatesC (fun s => gen n ^ plainsU n hashOf t days s * z (coin s)) (pubDays t.stashSize t.nodeSize t.depth t.actualSize (upIds days)) := by
  induction days with
  | nil => intros; rfl
  | cons d ds ih =>
    intro t coin ht hf
    obtain ⟨r, k1, k2, k3, k4, k5, k6⟩ := up_step hh ht hf
    have hpl : ∀ (i j k : Nat) m e, r.update[i]? = some m → (padNode m (d.pads i)).elems[j]? = some e →
        plainsU n hashOf t (d :: ds) ⟨0, i, j, k⟩ = plainOf n e k := by
      intro i j k m e hm he
      simp only [plainsU, k1, hm, Option.bind_some]
      rw [he]; rfl
    have h1 : encNodes (fun i j => Proto.encPair mont sk (tapeAt (fun s => c (coin s)) i j)) d.pads 0 r.update =
        forIdx (fun i m => forIdx (fun j (_ : Nat) => entryC (gen n ^ plainsU n hashOf t (d :: ds) ⟨0, i, j, 0⟩ * z (coin ⟨0, i, j, 0⟩))
          (gen n ^ plainsU n hashOf t (d :: ds) ⟨0, i, j, 1⟩ * z (coin ⟨0, i, j, 1⟩))) 0 (List.range m)) 0 (r.update.map Node.cap) := by
      rw [encNodes_forIdx _ k4]
      refine forIdx_congr2 _ _ 0 (by simp) fun i m m' hm hm' => ?_
      rw [List.getElem?_map, hm] at hm'
      simp only [Option.map_some, Option.some.injEq] at hm'
      subst hm'
      refine forIdx_congr2 _ _ 0 (by rw [padNode_length (k4 m (List.mem_of_getElem? hm)), List.length_range]) fun j e _ he _ => ?_
      rw [Nat.zero_add] at he
      simp only [Nat.zero_add]
      obtain ⟨e1, e2⟩ := k6 i j m e hm he
      rw [hpl i j 0 m e hm he, hpl i j 1 m e hm he, Proto.encPair, hns]
      have hv : 0 ≤ (if e.2 < 0 then (n : Int) + e.2 else e.2) ∧ (if e.2 < 0 then (n : Int) + e.2 else e.2) < n := by
        split <;> omega
      have hp1 : plainOf n e 1 = (if e.2 < 0 then (n : Int) + e.2 else e.2).toNat := rfl
      have hp0 : plainOf n e 0 = e.1 := rfl
      have hb := hz (coin ⟨0, i, j, 1⟩) (plainOf n e 1) (by rw [hp1]; omega)
      rw [hp1, Int.toNat_of_nonneg hv.1] at hb
      have ha := hz (coin ⟨0, i, j, 0⟩) e.1 e1
      simp only [tapeAt, ha, hb, Outcome.bind_ok, hp0, hp1, entryC]
    rw [treeUpdates, sendUpdate, k1, Outcome.bind_ok, h1, k5, updatesC]
    have h2 := ih r.tree (fun s => coin s.next) k2 k3
    have h3 : (fun s : Place => gen n ^ plainsU n hashOf r.tree ds s * z (coin s.next)) =
        fun s => gen n ^ plainsU n hashOf t (d :: ds) s.next * z (coin s.next) := by
      funext s
      simp only [Place.next, plainsU, k1]
    rw [h3] at h2
    simp only at h2 ⊢
    rw [← h2]
    generalize forIdx _ 0 (r.update.map Node.cap) = o
    cases o <;> rfl

/-- Only the coins of the listed places are used. -/
theorem treeUpdates_congr {n : Nat} {mont : Int → Option Mont} {hashOf : Nat → List Bool} (hh : ∀ e, (hashOf e).length = 256) {sk : Private}
    (days : List UpDay) : ∀ (t : Upsi.Tree.Tree EP) (coin coin' : Place → Int × Int), TWF (fun e : EP => hashOf e.1) t → FitsU n t days →
    (∀ s ∈ placesOf t (upIds days), coin s = coin' s) → treeUpdates mont hashOf sk coin t days = treeUpdates mont hashOf sk coin' t days := by
  induction days with
  | nil => intros; rfl
  | cons d ds ih =>
    intro t coin coin' ht hf hc
    obtain ⟨r, k1, k2, k3, k4, k5, k6⟩ := up_step hh ht hf
    rw [placesOf, k5] at hc
    have h1 : encNodes (fun i j => Proto.encPair mont sk (tapeAt coin i j)) d.pads 0 r.update =
        encNodes (fun i j => Proto.encPair mont sk (tapeAt coin' i j)) d.pads 0 r.update := by
      rw [encNodes_forIdx _ k4, encNodes_forIdx _ k4]
      refine forIdx_congr2 _ _ 0 rfl fun i m m' hm hm' => ?_
      obtain rfl : m = m' := Option.some.inj (hm.symm.trans hm')
      refine forIdx_congr2 _ _ 0 rfl fun j e e' he he' => ?_
      obtain rfl : e = e' := Option.some.inj (he.symm.trans he')
      simp only [Nat.zero_add]
      have hj := (List.getElem?_eq_some_iff.1 he).1
      rw [padNode_length (k4 m (List.mem_of_getElem? hm))] at hj
      have hm2 : (r.update.map Node.cap)[i]? = some m.cap := by rw [List.getElem?_map, hm]; rfl
      have h0 := hc _ (mem_place (p := ⟨d.hsh, r.update.map Node.cap⟩) hm2 hj (show 0 < 2 by omega))
      have h1 := hc _ (mem_place (p := ⟨d.hsh, r.update.map Node.cap⟩) hm2 hj (show 1 < 2 by omega))
      have : tapeAt coin i j = tapeAt coin' i j := by
        funext k
        match k with
        | 0 => simp only [tapeAt, h0]
        | 1 => simp only [tapeAt, h0]
        | 2 => simp only [tapeAt, h1]
        | _ + 3 => simp only [tapeAt, h1]
      rw [this]
    have h2 := ih r.tree (fun s => coin s.next) (fun s => coin' s.next) k2 k3 (fun s hs => hc _ (mem_place_next hs))
    rw [treeUpdates, treeUpdates, sendUpdate, sendUpdate, k1, Outcome.bind_ok, Outcome.bind_ok, h1]
    generalize encNodes _ _ _ _ = o
    cases o with
    | ok ns => simp only [Outcome.bind_ok, Outcome.pure_eq, h2]
    | err e => rfl
    | abort => rfl
    | ub => rfl

end Upsi.Hide
