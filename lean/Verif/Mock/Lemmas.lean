import Verif.Mock.Model
import Verif.Data.NamesProps
import Verif.Proto.AddCore
/- Helper lemmas for C78: trees made by `CreateMockTrees`. -/
namespace Upsi.Mock
open Upsi Upsi.ElGamal Upsi.Tree Upsi.Num Upsi.Proto Upsi.Data

variable {α β γ : Type}

/-- Whatever `rand()` returns, the mock elements are drawn and below `10^15`. -/
theorem mockElements_ok (rnd : Nat → List Nat) (h : ∀ i, 15 ≤ (rnd i).length) : ∀ n i, ∃ es, mockElements rnd i n = .ok es ∧
    es.length = n ∧ ∀ e ∈ es, e < 10 ^ 15 := by
  intro n
  induction n with
  | zero => intro i; exact ⟨[], rfl, rfl, by simp⟩
  | succ n ih =>
    intro i
    obtain ⟨es, h1, h2, h3⟩ := ih (i + 1)
    obtain ⟨k1, k2⟩ := C40_set_range (rnd i) (h i)
    refine ⟨digitsValue (randomSetElement (rnd i)) :: es, ?_, by simp [h2], ?_⟩
    · rw [mockElements, stoull_numeric k1, Outcome.bind_ok, h1, Outcome.bind_ok]; rfl
    · intro e he
      rcases List.mem_cons.1 he with rfl | he
      · exact k2
      · exact h3 e he

/-- A tree with one batch inserted into an empty tree. -/
structure Filled (hashOf : α → List Bool) (stash node : Nat) (es : List α) (t : Upsi.Tree.Tree α) (lost : List α) : Prop where
  wf : TWF hashOf t
  nodeSize : t.nodeSize = node
  stashSize : t.stashSize = stash
  size : t.actualSize = es.length
  least : ∀ d, es.length < 2 ^ (d + 1) → t.depth ≤ d
  all : (t.contents ++ lost).Perm es

theorem filled_insert {hashOf : α → List Bool} (hh : ∀ e, 256 ≤ (hashOf e).length) (stash node : Nat) {es : List α}
    {hsh : List (List Bool)} (hb : Batch.WF (es, hsh)) (hl : es.length < 2 ^ 30) :
    ∃ r, insert hashOf (Tree.empty stash node) es hsh = .ok r ∧ Filled hashOf stash node es r.tree r.lost := by
  obtain ⟨r, k1, k2, k3, k4, k5, _, k7, k8, _⟩ := insertWith_spec (PostOK.id hashOf) hh (fun a => ({a} : Multiset α))
    (fun _ => rfl) (empty_wf hashOf stash node) hb (by simpa [Tree.empty] using hl)
  refine ⟨r, k1, k2, k3, k4, by rw [k5]; simp [Tree.empty], fun d hd => k7 d (by simp [Tree.empty]) (by simpa [Tree.empty] using hd), ?_⟩
  rw [wsum_singleton, wsum_singleton, wsum_singleton, wsum_singleton] at k8
  simpa [Tree.contents, Tree.empty] using k8

/-- Two trees filled with equally many elements have the same depth. -/
theorem Filled.depth_eq {hashOf : α → List Bool} {hashOf' : β → List Bool} {stash node : Nat} {es : List α} {es' : List β}
    {t : Upsi.Tree.Tree α} {t' : Upsi.Tree.Tree β} {lost : List α} {lost' : List β} (h : Filled hashOf stash node es t lost)
    (h' : Filled hashOf' stash node es' t' lost') (hl : es.length = es'.length) : t.depth = t'.depth := by
  apply Nat.le_antisymm
  · exact h.least _ (by rw [hl, ← h'.size]; exact h'.wf.size)
  · exact h'.least _ (by rw [← hl, ← h.size]; exact h.wf.size)

/-- A copy made by one party mirrors the tree of the other party, if both used the same size, where the encryption of
zero is allowed to stand for every stored element and for some padding. -/
theorem mockCopy_mirror {hashOf : α → List Bool} {hashOf' : β → List Bool} {stash node : Nat} {es : List α} {es' : List β}
    {t : Upsi.Tree.Tree α} {t' : Upsi.Tree.Tree β} {lost : List α} {lost' : List β} (h : Filled hashOf stash node es t lost)
    (h' : Filled hashOf' stash node es' t' lost') (hl : es.length = es'.length) {Enc : α → γ → Prop} {isPad : α → Prop}
    (z : γ) (other : Upsi.Tree.Tree γ) (pad : α) (hp : isPad pad) (hz : Enc pad z) (hc : ∀ a ∈ t.contents, Enc a z) :
    Mirror Enc isPad t (mockCopy z other t') := by
  have hd := h.depth_eq h' hl
  refine ⟨hd.symm, by simp [mockCopy, h.size, h'.size, hl], by simp [mockCopy, h.wf.nodes.len, h'.wf.nodes.len, hd], fun u => ?_⟩
  by_cases hu : u < t.nodes.length
  · have hu' : u < t'.nodes.length := by rw [h'.wf.nodes.len, ← hd, ← h.wf.nodes.len]; exact hu
    have e1 : t.nodes[u]? = some t.nodes[u] := List.getElem?_eq_getElem hu
    have e2 : t'.nodes[u]? = some t'.nodes[u] := List.getElem?_eq_getElem hu'
    have hr := h.wf.nodes.room u _ e1
    have hcap : t'.nodes[u].cap = t.nodes[u].cap := by
      rw [h.wf.nodes.caps u _ e1, h'.wf.nodes.caps u _ e2, h.nodeSize, h'.nodeSize, h.stashSize, h'.stashSize]
    have e3 : (mockCopy z other t').at u = List.replicate t'.nodes[u].cap z := by
      simp [Tree.at, mockCopy, e2]
    have e4 : t.at u = t.nodes[u].elems := by simp [Tree.at, e1]
    refine ⟨List.replicate (t.nodes[u].cap - t.nodes[u].elems.length) pad, fun p hp' => by rw [List.eq_of_mem_replicate hp']; exact hp, ?_⟩
    rw [e3, e4, hcap, List.forall₂_iff_get]
    refine ⟨by simp; omega, fun i h1 h2 => ?_⟩
    simp only [List.get_eq_getElem, List.getElem_replicate]
    have hm := List.getElem_mem h1
    rcases List.mem_append.1 hm with hm | hm
    · exact hc _ (List.mem_flatMap.2 ⟨_, List.getElem_mem hu, hm⟩)
    · rw [List.eq_of_mem_replicate hm]; exact hz
  · have e1 : t.nodes[u]? = none := List.getElem?_eq_none (Nat.le_of_not_lt hu)
    have e2 : t'.nodes[u]? = none := List.getElem?_eq_none (by rw [h'.wf.nodes.len, ← hd, ← h.wf.nodes.len]; omega)
    refine ⟨[], by simp, ?_⟩
    simp [Tree.at, mockCopy, e1, e2]

end Upsi.Mock
