import Verif.Setup.Trees
import Verif.Tree.SerialProps
import Verif.Proto.SSProps
import Verif.Proto.DelPsiProps
import Verif.Proto.OgProps
/- Generating initial trees and importing them (helper lemmas for C60-C62). -/
namespace Upsi.Setup
open Upsi Upsi.ElGamal Upsi.Tree Upsi.Tree.Props Upsi.Num Upsi.Proto

variable {α β γ δ : Type}

/-- A tree with every stored element replaced by its image. -/
def mapTree (f : α → β) (t : Upsi.Tree.Tree α) : Upsi.Tree.Tree β :=
  { nodeSize := t.nodeSize, stashSize := t.stashSize, depth := t.depth, actualSize := t.actualSize
    nodes := t.nodes.map (fun n => ⟨n.cap, n.elems.map f⟩) }

theorem mapTree_contents (f : α → β) (t : Upsi.Tree.Tree α) : (mapTree f t).contents = t.contents.map f := by
  simp only [mapTree, Tree.contents, List.flatMap_map, List.map_flatMap]

theorem mapTree_at (f : α → β) (t : Upsi.Tree.Tree α) (u : Nat) : (mapTree f t).at u = (t.at u).map f := by
  simp only [mapTree, Tree.at, List.getElem?_map]
  cases t.nodes[u]? <;> simp

theorem mapTree_wf {h : β → List Bool} {f : α → β} {t : Upsi.Tree.Tree α} (ht : TWF (fun a => h (f a)) t) :
    TWF h (mapTree f t) := by
  have key : ∀ (u : Nat) (n : Node β), (mapTree f t).nodes[u]? = some n →
      ∃ m, t.nodes[u]? = some m ∧ n = ⟨m.cap, m.elems.map f⟩ := by
    intro u n hn
    simp only [mapTree, List.getElem?_map, Option.map_eq_some_iff] at hn
    obtain ⟨m, h1, h2⟩ := hn
    exact ⟨m, h1, h2.symm⟩
  refine ⟨⟨by simp [mapTree, ht.nodes.len], ?_, ?_, ?_⟩, ht.size, ht.depth⟩
  · intro u n hn
    obtain ⟨m, h1, rfl⟩ := key u n hn
    exact ht.nodes.caps u m h1
  · intro u n hn
    obtain ⟨m, h1, rfl⟩ := key u n hn
    simpa using ht.nodes.room u m h1
  · intro u n hn e he
    obtain ⟨m, h1, rfl⟩ := key u n hn
    obtain ⟨a, ha, rfl⟩ := List.mem_map.1 he
    exact ht.nodes.pos u m h1 a ha

theorem serElems_inv {enc : α → Outcome PElem} {dec : PElem → β} {f : α → β} (es : List α) :
    ∀ ps, serElems enc es = .ok ps → (∀ e ∈ es, ∀ p, enc e = .ok p → dec p = f e) → ps.map dec = es.map f := by
  induction es with
  | nil => intro ps h _; simp [serElems] at h; subst h; rfl
  | cons e es ih =>
    intro ps h hd
    simp only [serElems, Outcome.bind_eq_ok, Outcome.pure_eq, Outcome.ok.injEq] at h
    obtain ⟨p, hp, qs, hq, rfl⟩ := h
    simp only [List.map_cons]
    rw [hd e (by simp) p hp, ih qs hq (fun x hx => hd x (by simp [hx]))]

theorem serNodes_inv {enc : α → Outcome PElem} {dec : PElem → β} {f : α → β} (ns : List (Node α)) :
    ∀ ps, serNodes enc ns = .ok ps → (∀ n ∈ ns, n.elems.length ≤ n.cap) →
    (∀ n ∈ ns, ∀ e ∈ n.elems, ∀ p, enc e = .ok p → dec p = f e) →
    ps.map (deserNode dec) = ns.map (fun n => ⟨n.cap, n.elems.map f⟩) := by
  induction ns with
  | nil => intro ps h _ _; simp [serNodes] at h; subst h; rfl
  | cons n ns ih =>
    intro ps h hc hd
    simp only [serNodes, serNode, Outcome.bind_eq_ok, Outcome.pure_eq, Outcome.ok.injEq] at h
    obtain ⟨p, ⟨es, he, rfl⟩, qs, hq, rfl⟩ := h
    simp only [List.map_cons]
    rw [ih qs hq (fun m hm => hc m (by simp [hm])) (fun m hm => hd m (by simp [hm]))]
    congr 1
    simp only [deserNode, deserNode_spec, serElems_inv _ _ he (hd n (by simp))]
    simp only [List.length_nil, Nat.sub_zero, List.nil_append]
    rw [List.take_of_length_le (by simpa using hc n (by simp))]

/-- Reading back a serialized plaintext tree, possibly with another element decoder. -/
theorem serialize_inv {enc : α → Outcome PElem} {dec : PElem → β} {f : α → β} {t : Upsi.Tree.Tree α} {p : PTree}
    (h : serialize enc t = .ok p) (hc : ∀ n ∈ t.nodes, n.elems.length ≤ n.cap)
    (hd : ∀ e ∈ t.contents, ∀ p, enc e = .ok p → dec p = f e) : deserialize dec p = mapTree f t := by
  simp only [serialize, Outcome.bind_eq_ok, Outcome.pure_eq, Outcome.ok.injEq] at h
  obtain ⟨ps, hp, rfl⟩ := h
  simp only [deserialize, mapTree]
  rw [serNodes_inv _ _ hp hc (fun n hn e he => hd e (List.mem_flatMap.2 ⟨n, hn, he⟩))]

theorem serEncElems_inv {ser : γ → Outcome EncElem} {deser : EncElem → Outcome δ} {R : γ → δ → Prop}
    (hR : ∀ c w, ser c = .ok w → ∃ d, deser w = .ok d ∧ R c d) (cs : List γ) :
    ∀ ws, serEncElems ser cs = .ok ws → ∃ ds, deserElems deser ws = .ok ds ∧ List.Forall₂ R cs ds := by
  induction cs with
  | nil => intro ws h; simp [serEncElems] at h; subst h; exact ⟨[], rfl, .nil⟩
  | cons c cs ih =>
    intro ws h
    simp only [serEncElems, Outcome.bind_eq_ok, Outcome.pure_eq, Outcome.ok.injEq] at h
    obtain ⟨w, hw, vs, hv, rfl⟩ := h
    obtain ⟨ds, h1, h2⟩ := ih vs hv
    obtain ⟨d, h3, h4⟩ := hR c w hw
    exact ⟨d :: ds, by simp [deserElems, h1, h3], .cons h4 h2⟩

theorem serEncNodes_inv {ser : γ → Outcome EncElem} {deser : EncElem → Outcome δ} {R : γ → δ → Prop}
    (hR : ∀ c w, ser c = .ok w → ∃ d, deser w = .ok d ∧ R c d) (ns : List (Node γ)) :
    ∀ ws, serEncNodes ser ns = .ok ws → ∃ ms, deserNodes deser ws = .ok ms ∧
      List.Forall₂ (fun (n : Node γ) (m : Node δ) => List.Forall₂ R n.elems m.elems) ns ms := by
  induction ns with
  | nil => intro ws h; simp [serEncNodes] at h; subst h; exact ⟨[], rfl, .nil⟩
  | cons n ns ih =>
    intro ws h
    simp only [serEncNodes, Outcome.bind_eq_ok, Outcome.pure_eq, Outcome.ok.injEq] at h
    obtain ⟨w, hw, vs, hv, rfl⟩ := h
    obtain ⟨ms, h1, h2⟩ := ih vs hv
    obtain ⟨d, h3, h4⟩ := serEncElems_inv hR _ _ hw
    exact ⟨⟨d.length, d⟩ :: ms, by simp [deserNodes, h1, h3], .cons h4 h2⟩

theorem forall₂_at {R : γ → δ → Prop} {ns : List (Node γ)} {ms : List (Node δ)}
    (h : List.Forall₂ (fun (n : Node γ) (m : Node δ) => List.Forall₂ R n.elems m.elems) ns ms) : ∀ (u : Nat),
    List.Forall₂ R ((ns[u]?.map Node.elems).getD []) ((ms[u]?.map Node.elems).getD []) := by
  induction h with
  | nil => intro u; simp
  | cons h1 _ ih =>
    intro u
    match u with
    | 0 => simpa using h1
    | u + 1 => simpa using ih u

/-- Reading back a serialized encrypted tree, possibly with another element decoder. -/
theorem serializeEnc_inv {ser : γ → Outcome EncElem} {deser : EncElem → Outcome δ} {R : γ → δ → Prop}
    (hR : ∀ c w, ser c = .ok w → ∃ d, deser w = .ok d ∧ R c d) {t : Upsi.Tree.Tree γ} {e : ETree}
    (h : serializeEnc ser t = .ok e) : ∃ t', deserializeEnc deser e = .ok t' ∧ t'.depth = t.depth ∧
      t'.actualSize = t.actualSize ∧ t'.nodes.length = t.nodes.length ∧
      ∀ u, List.Forall₂ R (t.at u) (t'.at u) := by
  simp only [serializeEnc, Outcome.bind_eq_ok, Outcome.pure_eq, Outcome.ok.injEq] at h
  obtain ⟨ws, hw, rfl⟩ := h
  obtain ⟨ms, h1, h2⟩ := serEncNodes_inv hR _ _ hw
  refine ⟨⟨t.nodeSize, t.stashSize, t.depth, t.actualSize, ms⟩, by simp [deserializeEnc, h1], rfl, rfl,
    h2.length_eq.symm, fun u => ?_⟩
  exact forall₂_at h2 u

/-- A mirror read back on both sides is a mirror. -/
theorem mirror_map {Enc : α → γ → Prop} {Enc' : β → δ → Prop} {isPad : α → Prop} {isPad' : β → Prop}
    {f : α → β} {R : γ → δ → Prop} (hE : ∀ a c d, Enc a c → R c d → Enc' (f a) d)
    (hp : ∀ a, isPad a → isPad' (f a)) {s : Upsi.Tree.Tree α} {r : Upsi.Tree.Tree γ} {r' : Upsi.Tree.Tree δ} (hm : Mirror Enc isPad s r)
    (h1 : r'.depth = r.depth) (h2 : r'.actualSize = r.actualSize) (h3 : r'.nodes.length = r.nodes.length)
    (h4 : ∀ u, List.Forall₂ R (r.at u) (r'.at u)) : Mirror Enc' isPad' (mapTree f s) r' := by
  refine ⟨by rw [h1, hm.depth]; rfl, by rw [h2, hm.size]; rfl, by rw [h3, hm.count]; simp [mapTree], fun u => ?_⟩
  obtain ⟨pads, k1, k2⟩ := hm.node u
  refine ⟨pads.map f, ?_, ?_⟩
  · intro p hpm
    obtain ⟨a, ha, rfl⟩ := List.mem_map.1 hpm
    exact hp a (k1 a ha)
  · rw [mapTree_at, ← List.map_append, List.forall₂_map_left_iff]
    exact forall₂_comp k2 (h4 u) (fun a c d => hE a c d)

theorem wf_caps {h : α → List Bool} {t : Upsi.Tree.Tree α} (ht : TWF h t) : ∀ n ∈ t.nodes, n.elems.length ≤ n.cap := by
  intro n hn
  obtain ⟨u, hu, hun⟩ := List.mem_iff_getElem.1 hn
  exact ht.nodes.room u n (by rw [List.getElem?_eq_getElem hu, hun])

/-- **Main lemma.**  What `GenerateTrees` leaves in the two files, read back by both parties. -/
theorem generateTrees_import {hashOf : β → List Bool} (hh : ∀ e, (hashOf e).length = 256) {f : α → β}
    {post : List α → List α} (hpost : PostOK (fun a => hashOf (f a)) post)
    {enc : Tape → α → Outcome EncElem} {deser : EncElem → Outcome γ} {ser : γ → Outcome EncElem}
    {encP : α → Outcome PElem} {dec : PElem → β} {deser' : EncElem → Outcome δ} {Enc : α → γ → Prop}
    {Enc' : β → δ → Prop} {isPad : α → Prop} {isPad' : β → Prop} {R : γ → δ → Prop}
    (hE : ∀ t a w c, enc t a = .ok w → deser w = .ok c → Enc a c)
    (hR : ∀ c w, ser c = .ok w → ∃ d, deser' w = .ok d ∧ R c d)
    (hE' : ∀ a c d, Enc a c → R c d → Enc' (f a) d) (hp' : ∀ a, isPad a → isPad' (f a))
    (hdec : ∀ a p, encP a = .ok p → dec p = f a)
    {stash node : Nat} {data : List α} {ρ : TreeCoins α} (hb : Batch.WF (data, ρ.hsh))
    (hpads : ∀ i j, isPad (ρ.pads i j)) (hsz : data.length < 2 ^ 30)
    {fs : TreeFiles} {lost : List α}
    (h : generateTrees (fun a => hashOf (f a)) post enc deser ser encP stash node data ρ = .ok (fs, lost)) :
    ∃ x : SendResult α EncElem,
      sendUpdate (fun a => hashOf (f a)) post (fun i j => enc (ρ.enc i j)) ρ.pads (Tree.empty stash node) data
        ρ.hsh = .ok x ∧ x.lost = lost ∧ deserialize dec fs.plain = mapTree f x.tree ∧
      TWF hashOf (mapTree f x.tree) ∧ x.tree.actualSize = data.length ∧
      ∃ r, deserializeEnc deser' fs.enc = .ok r ∧ Mirror Enc' isPad' (mapTree f x.tree) r := by
  simp only [generateTrees, Outcome.bind_eq_ok, Outcome.pure_eq, Outcome.ok.injEq, Prod.mk.injEq] at h
  obtain ⟨x, hx, r, hr, p, hp, e, he, rfl, rfl⟩ := h
  have hh' : ∀ a, 256 ≤ (hashOf (f a)).length := fun a => by rw [hh]
  obtain ⟨k1, k2, k3⟩ := mirror_step hpost hh' hpads (empty_wf _ _ _) (mirror_empty Enc isPad _ _ _ _) hb
    (by simpa [Tree.empty] using hsz) (fun i j a _ w c hw hc => hE _ a w c hw hc) hx hr
  obtain ⟨r', j1, j2, j3, j4, j5⟩ := serializeEnc_inv hR he
  refine ⟨x, hx, rfl, serialize_inv hp (wf_caps k1) (fun a _ p hp => hdec a p hp), mapTree_wf k1,
    by simpa [Tree.empty] using k2, r', j1, mirror_map hE' hp' k3 j2 j3 j4 j5⟩

end Upsi.Setup
