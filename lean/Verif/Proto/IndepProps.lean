import Verif.Proto.SSProps
import Verif.Proto.DelPsiProps
import Verif.Proto.OgProps
/-
C53 for the remaining protocols: what is reported depends on the inputs only, not on keys, coins, masks, paddings,
shuffles, path identifiers, tree parameters or the split of the updates over days.
-/
namespace Upsi.Proto.Props
open Upsi Upsi.ElGamal Upsi.Tree Upsi.Num Upsi.Proto Upsi.Paillier Upsi.Tree.Props

variable {G : Type} [AddCommGroup G] [DecidableEq G]

/-! ### proofs -/

theorem filter_mem_perm {α : Type} [DecidableEq α] {β : Type} (f : β → α) {X X' : List β} {Y Y' : List α} (hX : X.Perm X') (hY : Y.Perm Y') :
    (X.filter (fun p => f p ∈ Y)).Perm (X'.filter (fun p => f p ∈ Y')) := by
  have : (fun p => decide (f p ∈ Y)) = (fun p => decide (f p ∈ Y')) := by
    funext p
    simp [hY.mem_iff]
  rw [this]
  exact hX.filter _

theorem payloadSum_perm {X X' : List EP} (h : X.Perm X') (k : Nat) : payloadSum k X = payloadSum k X' := by
  unfold payloadSum
  exact ((h.filter _).map _).sum_eq

theorem innerProduct_perm {X X' Y Y' : List EP} (hX : X.Perm X') (hY : Y.Perm Y') : innerProduct X Y = innerProduct X' Y' := by
  rw [innerProduct, innerProduct, List.toFinset_eq_of_perm _ _ (hX.map Prod.fst)]
  exact Finset.sum_congr rfl fun k _ => by rw [payloadSum_perm hX, payloadSum_perm hY]

/-! ### theorems -/

/-- **C53** (sum) The number of matches and the sum reported do not depend on keys, coins, masks, paddings, shuffles,
the bound of the decryption table (as long as the runs complete), nor on how the additions are split over days. -/
theorem C53_sum_independent (S S' : Setup G) (c c' : Codec G) (limit limit' : Nat) (hashOf hashOf' : Nat → List Bool)
    (hh : ∀ e, (hashOf e).length = 256) (hh' : ∀ e, (hashOf' e).length = 256)
    (B stash node stash' node' : Nat) (ds ds' : List (DayIn G (Nat × Int) (Ct G)))
    (hadm : Admissible S Prod.fst B (fun t => NonZero S (t 0)) ds)
    (hadm' : Admissible S' Prod.fst B (fun t => NonZero S' (t 0)) ds')
    (hlim : limit ≤ 2 ^ 64) (hlimq : limit ≤ S.q) (hlim' : limit' ≤ 2 ^ 64) (hlimq' : limit' ≤ S'.q)
    (hX : (allX ds).Perm (allX ds')) (hY : (allY ds).Perm (allY ds')) (hYn : (allY ds).Nodup)
    (hpos : ∀ p ∈ allX ds, 0 ≤ p.2)
    (hsmall : (((allX ds).filter (fun p => p.1 ∈ allY ds)).map Prod.snd).sum < min S.q S'.q) (s s' : StSum G)
    (h : runSum S c limit hashOf stash node ds = .ok s) (h' : runSum S' c' limit' hashOf' stash' node' ds' = .ok s')
    (l0 : s.p0.lost = []) (l1 : s.p1.lost = []) (l0' : s'.p0.lost = []) (l1' : s'.p1.lost = []) :
    s.cardinality = s'.cardinality ∧ s.sum = s'.sum := by
  have hp := filter_mem_perm Prod.fst hX hY
  have hsum := (hp.map Prod.snd).sum_eq
  obtain ⟨a1, a2⟩ := C44_sum S c limit hashOf hh B stash node ds hadm hlim hlimq hYn hpos (by push_cast at hsmall; omega) s h l0 l1
  obtain ⟨b1, b2⟩ := C44_sum S' c' limit' hashOf' hh' B stash' node' ds' hadm' hlim' hlimq' (hY.nodup_iff.1 hYn)
    (fun p hp => hpos p (hX.mem_iff.2 hp)) (by rw [← hsum]; push_cast at hsmall; omega) s' h' l0' l1'
  refine ⟨by rw [a1, b1, hp.length_eq], ?_⟩
  rw [hsum] at a2
  exact UInt64.toNat_inj.1 (by exact_mod_cast a2.trans b2.symm)

/-- **C53** (secret shares) The shared values – the elements the shares of the two parties reconstruct to – do not depend on
keys, coins, masks, paddings, shuffles, nor on how the additions are split over days. -/
theorem C53_shares_independent (S S' : Setup G) (c c' : Codec G) {p q p' q' : Nat} {mont mont' : Int → Option Mont} {a b a' b' : TPaillier}
    (K : SSKeys p q mont a b) (K' : SSKeys p' q' mont' a' b') (hashOf hashOf' : Nat → List Bool)
    (hh : ∀ e, (hashOf e).length = 256) (hh' : ∀ e, (hashOf' e).length = 256)
    (B stash node stash' node' : Nat) (ds ds' : List (DayIn G (Nat × Int) Int))
    (hadm : Admissible S Prod.fst B (fun t => NonZero S (t 0)) ds)
    (hadm' : Admissible S' Prod.fst B (fun t => NonZero S' (t 0)) ds')
    (hX : (allX ds).Perm (allX ds')) (hY : (allY ds).Perm (allY ds')) (hYn : (allY ds).Nodup) (s s' : StSS G)
    (h : runSS S c mont a b hashOf stash node ds = .ok s) (h' : runSS S' c' mont' a' b' hashOf' stash' node' ds' = .ok s')
    (l0 : s.p0.lost = []) (l1 : s.p1.lost = []) (l0' : s'.p0.lost = []) (l1' : s'.p1.lost = []) :
    (List.zipWith (fun x y => (x + y) % ((p * q : Nat) : Int)) s.shares0 s.shares1).Perm
      (List.zipWith (fun x y => (x + y) % ((p' * q' : Nat) : Int)) s'.shares0 s'.shares1) := by
  obtain ⟨-, a1, -, -⟩ := C45_secret_shares S c K hashOf hh B stash node ds hadm hYn s h l0 l1
  obtain ⟨-, b1, -, -⟩ := C45_secret_shares S' c' K' hashOf' hh' B stash' node' ds' hadm' (hY.nodup_iff.1 hYn) s' h' l0' l1'
  refine a1.trans (List.Perm.trans ?_ b1.symm)
  exact (filter_mem_perm id (hX.map Prod.fst) hY).map _

/-- **C53** (deletion) The 64-bit number reported does not depend on keys, coins, shares, paddings, path identifiers, nor on
the order and the days of the updates. -/
theorem C53_deletion_independent {p0 q0 p1 q1 p0' q0' p1' q1' : Nat} {mont mont' : Int → Option Mont} {k0 k1 k0' k1' : DKeys}
    (K : Keys p0 q0 p1 q1 mont k0 k1) (K' : Keys p0' q0' p1' q1' mont' k0' k1') (ro ro' : List UInt8 → Nat) (h h' : Nat → List Bool)
    (hh : ∀ e, (h e).length = 256) (hh' : ∀ e, (h' e).length = 256) (B B' stash node stash' node' : Nat) (ds ds' : List DayDelIn)
    (hA : DelAdmissible B (p0 * q0) (p1 * q1) ds) (hA' : DelAdmissible B' (p0' * q0') (p1' * q1') ds')
    (hX : (delX ds).Perm (delX ds')) (hY : (delY ds).Perm (delY ds')) (s s' : StDel)
    (hr : runDelDays ro mont h k0 k1 stash node ds = .ok s) (hr' : runDelDays ro' mont' h' k0' k1' stash' node' ds' = .ok s')
    (l0 : s.p0.lost = []) (l1 : s.p1.lost = []) (l0' : s'.p0.lost = []) (l1' : s'.p1.lost = [])
    (hc : ∀ f ∈ s.trace, f.Clean ro) (hc' : ∀ f ∈ s'.trace, f.Clean ro')
    (b : 2 * (mass (delX ds) * mass (delY ds)) < min (min (p0 * q0 : Nat) (p1 * q1 : Nat)) (min (p0' * q0' : Nat) (p1' * q1' : Nat))) :
    s.result = s'.result := by
  have hm : ∀ {X X' : List EP}, X.Perm X' → mass X = mass X' := fun hp => (hp.map _).sum_eq
  have e := innerProduct_perm hX hY
  push_cast at b
  rw [C46_inner_product K ro h hh B stash node ds hA s hr l0 l1 hc (by push_cast; omega) (by push_cast; omega),
    C46_inner_product K' ro' h' hh' B' stash' node' ds' hA' s' hr' l0' l1' hc' (by rw [← hm hX, ← hm hY]; push_cast; omega)
      (by rw [← hm hX, ← hm hY]; push_cast; omega), e]

/-- **C53** (intersection with deletions) The counter does not depend on keys, coins, shares, paddings, path identifiers or
shuffles: with the same sets held at the end it is the same number; and the reported sets are the same, when no removal is
processed after a re-insertion of the same element on the same day. -/
theorem C53_deletion_psi_independent {p0 q0 p1 q1 p0' q0' p1' q1' : Nat} {mont mont' : Int → Option Mont} {k0 k1 k0' k1' : DKeys}
    (K : Keys p0 q0 p1 q1 mont k0 k1) (K' : Keys p0' q0' p1' q1' mont' k0' k1') (ro ro' : List UInt8 → Nat) (h h' : Nat → List Bool)
    (hh : ∀ e, (h e).length = 256) (hh' : ∀ e, (h' e).length = 256) (v w v' w' : Nat → Int) (B B' stash node stash' node' : Nat)
    (ds ds' : List DayPsiIn)
    (hA : PsiAdmissible v w B (p0 * q0) (p1 * q1) ds) (hA' : PsiAdmissible v' w' B' (p0' * q0') (p1' * q1') ds')
    (hX : holdings ∅ (ds.map (·.xs)) = holdings ∅ (ds'.map (·.xs))) (hY : holdings ∅ (ds.map (·.ys)) = holdings ∅ (ds'.map (·.ys)))
    (s s' : StDelPsi)
    (hr : runDelPsi ro mont h k0 k1 stash node ds = .ok s) (hr' : runDelPsi ro' mont' h' k0' k1' stash' node' ds' = .ok s')
    (l0 : s.p0.lost = []) (l1 : s.p1.lost = []) (l0' : s'.p0.lost = []) (l1' : s'.p1.lost = [])
    (hc : ∀ f ∈ s.trace, f.Clean ro) (hc' : ∀ f ∈ s'.trace, f.Clean ro') :
    s.result = s'.result ∧ ((∀ u ∈ s.updates, OrderOK u) → (∀ u ∈ s'.updates, OrderOK u) → s.inter.Perm s'.inter) := by
  constructor
  · apply UInt64.toNat_inj.1
    rw [C47_cardinality K ro h hh v w B stash node ds hA s hr l0 l1 hc,
      C47_cardinality K' ro' h' hh' v' w' B' stash' node' ds' hA' s' hr' l0' l1' hc', hX, hY]
  · intro ho ho'
    obtain ⟨a1, a2⟩ := C47_intersection K ro h hh v w B stash node ds hA s hr l0 l1 hc (.inl ho)
    obtain ⟨b1, b2⟩ := C47_intersection K' ro' h' hh' v' w' B' stash' node' ds' hA' s' hr' l0' l1' hc' (.inl ho')
    rw [List.perm_ext_iff_of_nodup a1 b1]
    intro z
    rw [a2, b2, hX, hY]

/-- **C53** (original protocol) The elements reported do not depend on keys, the hash to the curve (as long as it is injective
on the elements used), coins, masks, shuffles, path identifiers, nor on how the additions are split over days. -/
theorem C53_original_independent (S S' : Setup G) (c c' cu cu' : Codec G) (H H' : Nat → G) (hashOf hashOf' : Nat → List Bool)
    (hh : ∀ e, (hashOf e).length = 256) (hh' : ∀ e, (hashOf' e).length = 256) (B B' stash node stash' node' : Nat)
    (ds ds' : List (OgDay G)) (hA : OgAdmissible S B H [] [] ds) (hA' : OgAdmissible S' B' H' [] [] ds')
    (hX : (ogX ds).Perm (ogX ds')) (hY : (ogY ds).Perm (ogY ds')) (s s' : OgSt G)
    (h : runOg S.og c cu H hashOf stash node ds = .ok s) (h' : runOg S'.og c' cu' H' hashOf' stash' node' ds' = .ok s')
    (hl : s.p1.lost = []) (hl' : s'.p1.lost = []) : s.p0.intersection.Perm s'.p0.intersection :=
  (C48_original S c cu H hashOf hh B stash node ds hA s h hl).trans
    ((filter_mem_perm id hX hY).trans (C48_original S' c' cu' H' hashOf' hh' B' stash' node' ds' hA' s' h' hl').symm)

end Upsi.Proto.Props
