import Verif.Main.FileProps
import Verif.Main.AddMain
import Verif.Setup.TreeLemmas
/- The numbers of a generated tree fit the fields of its file; tree files are read as written (helper lemmas for C74). -/
namespace Upsi.Main
open Upsi Upsi.Rec Upsi.Setup Upsi.Tree Upsi.Wire Upsi.Proto

theorem serNodes_sizes {enc : α → Outcome PElem} : ∀ {ns : List (Node α)} {ps : List PNode}, serNodes enc ns = .ok ps →
    ∀ p ∈ ps, ∃ n ∈ ns, p.nodeSize = n.cap := by
  intro ns
  induction ns with
  | nil => intro ps h; simp only [serNodes, Outcome.ok.injEq] at h; subst h; simp
  | cons n ns ih =>
    intro ps h p hp
    simp only [serNodes, serNode, Outcome.bind_eq_ok, Outcome.pure_eq, Outcome.ok.injEq] at h
    obtain ⟨x, ⟨es, _, rfl⟩, r, hr, rfl⟩ := h
    rcases List.mem_cons.1 hp with rfl | hp
    · exact ⟨n, by simp, rfl⟩
    · obtain ⟨m, hm, e⟩ := ih hr p hp
      exact ⟨m, by simp [hm], e⟩

/-- The trees of `GenerateTrees` can be written to files and read back. -/
theorem generateTrees_sizes {hashOf : α → List Bool} (hh : ∀ e, (hashOf e).length = 256)
    {post : List α → List α} (hpost : PostOK hashOf post)
    {enc : Tape → α → Outcome EncElem} {deser : EncElem → Outcome γ} {ser : γ → Outcome EncElem}
    {encP : α → Outcome PElem} {stash node : Nat} {data : List α} {ρ : TreeCoins α} (hb : Batch.WF (data, ρ.hsh))
    (hsz : data.length < 2 ^ 30) (hst : stash < 2 ^ 31) (hno : node < 2 ^ 31) {t : TreeFiles} {lost : List α}
    (h : generateTrees hashOf post enc deser ser encP stash node data ρ = .ok (t, lost)) :
    SizesFit t.plain.stashSize t.plain.nodeSize t.plain.actualSize t.plain.depth ∧ (∀ n ∈ t.plain.nodes, n.nodeSize < 2 ^ 31) ∧
      SizesFit t.enc.stashSize t.enc.nodeSize t.enc.actualSize t.enc.depth := by
  simp only [generateTrees, Outcome.bind_eq_ok, Outcome.pure_eq, Outcome.ok.injEq, Prod.mk.injEq] at h
  obtain ⟨x, hx, r, hr, p, hp, e, he, rfl, rfl⟩ := h
  have hh' : ∀ a, 256 ≤ (hashOf a).length := fun a => by rw [hh]
  simp only [sendUpdate, Outcome.bind_eq_ok, Outcome.pure_eq, Outcome.ok.injEq] at hx
  obtain ⟨ri, hri, ws, hws, rfl⟩ := hx
  obtain ⟨ri', k1, k2, k3, k4, k5, k6, k7, -⟩ :=
    insertWith_spec (M := Nat) hpost hh' (fun _ => 0) (fun b => by simp [wsum]) (empty_wf hashOf stash node) hb
      (by simpa [Tree.empty] using hsz)
  obtain rfl := Outcome.ok.inj (hri.symm.trans k1)
  have kd := k2.depth
  simp only [Tree.empty] at k3 k4 k5
  simp only [serialize, Outcome.bind_eq_ok, Outcome.pure_eq, Outcome.ok.injEq] at hp
  obtain ⟨ps, hps, rfl⟩ := hp
  simp only [serializeEnc, Outcome.bind_eq_ok, Outcome.pure_eq, Outcome.ok.injEq] at he
  obtain ⟨es, hes, rfl⟩ := he
  refine ⟨⟨lt_of_eq_of_lt k4 hst, lt_of_eq_of_lt k3 hno, lt_of_eq_of_lt k5 (by omega), lt_of_le_of_lt kd (by norm_num)⟩, fun n hn => ?_, ?_⟩
  · obtain ⟨m, hm, e⟩ := serNodes_sizes hps n hn
    obtain ⟨u, hu⟩ := List.mem_iff_getElem?.1 hm
    have := k2.nodes.caps u m hu
    rw [e, this, k3, k4]
    split <;> assumption
  · -- the receiver grows like the sender
    simp only [recvUpdate, replaceNodes, Outcome.bind_eq_ok, Outcome.pure_eq, Outcome.ok.injEq] at hr
    obtain ⟨ns, hns, t1, ht1, ls, hls, ns', hns', rfl⟩ := hr
    have hl : ρ.hsh.length = data.length := hb.1
    obtain ⟨g, e1, -, e2, e3, e4, e5, -⟩ := grow_spec (hashOf := fun _ : γ => List.replicate 256 false) (fun _ => by rw [List.length_replicate])
      (empty_wf _ stash node) (k := ρ.hsh.length) (by rw [hl]; simpa [Tree.empty] using hsz)
    obtain rfl := Outcome.ok.inj (ht1.symm.trans e1)
    simp only [Tree.empty] at e2 e3 e4
    exact ⟨lt_of_eq_of_lt e3 hst, lt_of_eq_of_lt e2 hno, lt_of_eq_of_lt (congrArg (· + ρ.hsh.length) e4) (show 0 + ρ.hsh.length < 2 ^ 31 by omega), lt_of_le_of_lt e5 (by norm_num)⟩

/-- Writing the two files of `WriteTrees`. -/
theorem writeTrees_spec {t : TreeFiles}
    (h1 : SizesFit t.plain.stashSize t.plain.nodeSize t.plain.actualSize t.plain.depth) (h2 : ∀ n ∈ t.plain.nodes, n.nodeSize < 2 ^ 31)
    (h3 : SizesFit t.enc.stashSize t.enc.nodeSize t.enc.actualSize t.enc.depth) {D p p' : String} (hp : IsParty p) (hp' : IsParty p')
    {fs fs' : FS} (h : writeTrees t (D ++ p) (D ++ p') fs = .ok fs') :
    Reads fs' parsePTree (D ++ p ++ "plaintext.tree") t.plain ∧ Reads fs' parseETree (D ++ p' ++ "encrypted.tree") t.enc ∧
      SameExcept fs fs' [D ++ p ++ "plaintext.tree", D ++ p' ++ "encrypted.tree"] := by
  simp only [writeTrees, Outcome.bind_eq_ok] at h
  obtain ⟨f1, w1, w2⟩ := h
  obtain ⟨a1, a2⟩ := write_spec (m' := t.plain) (fun hl => C72_plain_tree t.plain h1 h2 hl) w1
  obtain ⟨b1, b2⟩ := write_spec (m' := t.enc) (fun hl => C72_encrypted_tree t.enc h3 hl) w2
  refine ⟨(a1 _ rfl).keep b2 ?_, b1 _ rfl, a2.trans b2⟩
  simp only [List.map_cons, List.map_nil, List.mem_singleton]
  rcases hp with rfl | rfl <;> rcases hp' with rfl | rfl <;>
    exact name_ne D _ _ _ _ (by decide) (by decide) (by decide)

end Upsi.Main
