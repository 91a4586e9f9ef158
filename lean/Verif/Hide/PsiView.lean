import Verif.Hide.PsiModel
import Verif.Hide.OneMain
/- The messages II of the intersection protocol are made of the ciphertexts the labels stand for (C82). -/
namespace Upsi.Hide
open Upsi Upsi.ElGamal Upsi.Tree Upsi.Num Upsi.Proto Upsi.View Upsi.Tree.Props

variable {G : Type} [AddCommGroup G] [DecidableEq G]

theorem map_fullI (hashOf : Nat → List Bool) (copy1 : Upsi.Tree.Tree (Slot × Int)) (d : DayIn G Nat Unit) :
    (fullI hashOf copy1 d).flatten.map Prod.fst = (symI hashOf copy1 d).flatten := by
  rw [List.map_flatten]
  congr 1
  refine List.ext_getElem (by simp [fullI, symI]) fun i h1 h2 => ?_
  simp only [fullI, symI, List.getElem_map, List.getElem_mapIdx]
  refine List.ext_getElem (by simp) fun j h3 h4 => ?_
  simp

theorem map_fullII (hashOf : Nat → List Bool) (n : Nat) (copy0 : Upsi.Tree.Tree (Int × Int)) (d : DayIn G Nat Unit) :
    (fullII hashOf n copy0 d).flatten.map Prod.fst = (symII hashOf n copy0 d).flatten := by
  rw [List.map_flatten]
  congr 1
  refine List.ext_getElem (by simp [fullII, symII]) fun i h1 h2 => ?_
  simp only [fullII, symII, List.getElem_map, List.getElem_mapIdx]
  refine List.ext_getElem (by simp) fun j h3 h4 => ?_
  simp

/-- What a candidate and its payload stand for. -/
def ctFull (pk : PK G) (coin : Slot → Int) (y : Sym × Int × Int) : Ct G × Ct G := (ctSym pk coin y.1, encrypt pk y.2.1 y.2.2)

theorem serElGamal_ok {c : Codec G} {x k : Ct G} {w : EncElem} (h : serElGamal c x k = .ok w) : deserElGamal c w = .ok (x, k) := by
  have := serElGamal_only c x k
  rw [h] at this
  exact this

/-- What party zero's first half of a day gives. -/
theorem genI_psi {c cu : Codec G} {hashOf : Nat → List Bool} (hh : ∀ e, (hashOf e).length = 256) {pk : PK G} {coin : Slot → Int}
    {stash node n : Nat} {H0 H1 : List (List (List Bool))} {Q : Slot → Prop} {s s' : SymSt} {r0 r1 : InsertResult Nat} {d : DayIn G Nat (Ct G)}
    (hI : SymInv hashOf stash node H0 H1 Q s) (hD : SymDay hashOf n s (cardDay d) s' r0 r1) {s0 s0' : St0 G Nat} {m : ProtoMsg}
    (hmy : s0.my = s.my0) (hot : s0.other = mapTree (fun l => encrypt pk (coin l.1) l.2) s.copy1)
    (h : genI (funcPSI c cu) hashOf pk s0 d.xs d.coins = .ok (s0', m)) :
    s0'.my = s'.my0 ∧ s0'.other = s0.other ∧ m.updates.hashes = d.coins.hsh0 ∧
    List.Forall₂ (List.Forall₂ (fun w (l : Int × Int) => deserTreeCt c w = .ok (encrypt pk l.1 l.2))) m.updates.nodes
      (labelNodes (fun i j (x : Nat) => (d.coins.enc0 i j 0, (x : Int))) d.coins.pads0 r0.update) ∧
    List.Forall₂ (fun w y => deserElGamal c w = .ok (ctFull pk coin y)) m.candidates (fullI hashOf s.copy1 (cardDay d)).flatten := by
  simp only [genI, sendUpdate, Outcome.bind_eq_ok, Outcome.pure_eq, Outcome.ok.injEq, Prod.mk.injEq] at h
  obtain ⟨u, ⟨r, hr, ws, hw, rfl⟩, cs, hcs, rfl, rfl⟩ := h
  rw [hmy] at hr
  obtain rfl : r = r0 := Outcome.ok.inj (hr.symm.trans hD.ins0)
  refine ⟨hD.tree0.symm, rfl, rfl, ?_, forall₂_flatten ?_⟩
  · refine encNodes_rel (fun i j a w hw => ?_) hD.cap0 hw
    exact (serNoPayload_ok hw).2
  · have := forIdx_rel (R := List.Forall₂ (fun w y => deserElGamal c w = .ok (ctFull pk coin y)))
      (f' := fun i (x : Nat) => (pathOf s.copy1 (hashOf x)).mapIdx fun j l => (Sym.mk l.1 1 (d.coins.rr i j - d.coins.x0 i 0) (l.2 - x), d.coins.x0 i 0, (x : Int)))
      (fun i x w hw => by
        have hp := getPath_map (fun l : Slot × Int => encrypt pk (coin l.1) l.2) ((shaped_whole hI.sh1).pathOf (hh x))
        rw [← hot] at hp
        simp only [candI] at hw
        change (getPath s0.other (hashOf x) >>= _) = _ at hw
        rw [hp, Outcome.bind_ok] at hw
        change ((pointToBytes cu ((x : Int) • pk.g) >>= fun _ => Outcome.ok (encrypt pk (d.coins.x0 i 0) x)) >>= _) = _ at hw
        simp only [Outcome.bind_eq_ok, Outcome.ok.injEq] at hw
        obtain ⟨pay, ⟨_, -, rfl⟩, hw⟩ := hw
        have h2 := forIdx_rel (R := fun w y => deserElGamal c w = .ok (ctFull pk coin y))
          (f := fun j (l : Slot × Int) => serElGamal c (reRandomize pk (d.coins.rr i j) (mul (encrypt pk (coin l.1) l.2) (invert (encrypt pk (d.coins.x0 i 0) (x : Nat)))))
            (encrypt pk (d.coins.x0 i 0) x))
          (f' := fun j (l : Slot × Int) => (Sym.mk l.1 1 (d.coins.rr i j - d.coins.x0 i 0) (l.2 - (x : Int)), d.coins.x0 i 0, (x : Int)))
          (fun j l w hw => by
            rw [cand_zero] at hw
            rw [serElGamal_ok hw]
            rfl) (pathOf s.copy1 (hashOf x)) 0 w (by
            rw [← hw]
            refine forIdx_congr2 _ _ 0 (by simp) fun j a a' ha ha' => ?_
            rw [List.getElem?_map, ha] at ha'
            simp only [Option.map_some, Option.some.injEq] at ha'
            subst ha'
            rfl)
        simpa only [Nat.zero_add] using h2) d.xs 0 cs hcs
    simp only [Nat.zero_add] at this
    exact this

/-- Party one's part of a day makes the message of the ciphertexts. -/
theorem genII_psi {c cu : Codec G} {hashOf : Nat → List Bool} (hh : ∀ e, (hashOf e).length = 256) {pk : PK G} {sk1 : Int} {coin mask : Slot → Int}
    {stash node n : Nat} {H0 H1 : List (List (List Bool))} {Q : Slot → Prop} {s s' : SymSt} {r0 r1 : InsertResult Nat} {d : DayIn G Nat (Ct G)}
    (hD : SymDay hashOf n s (cardDay d) s' r0 r1) (hI' : SymInv hashOf stash node H0 H1 Q s') {N : Nat → Nat} {D : Nat}
    (σ : (d : Fin D) → Equiv.Perm (Fin (N d))) {s1 : St1 (Ct G)} {m : ProtoMsg}
    (hmy : s1.my = s.my1) (hot : s1.other = mapTree (fun l => encrypt pk l.1 l.2) s.copy0) (hm0 : m.updates.hashes = d.coins.hsh0)
    (hm1 : List.Forall₂ (List.Forall₂ (fun w (l : Int × Int) => deserTreeCt c w = .ok (encrypt pk l.1 l.2))) m.updates.nodes
      (labelNodes (fun i j (x : Nat) => (d.coins.enc0 i j 0, (x : Int))) d.coins.pads0 r0.update))
    (hm2 : List.Forall₂ (fun w y => deserElGamal c w = .ok (ctFull pk coin y)) m.candidates (fullI hashOf s.copy1 (cardDay d)).flatten)
    {ct : Slot → Ct G}
    (hC : ∀ (k : Nat) y, (shuffleOf σ n ((fullI hashOf s.copy1 (cardDay d)).flatten ++ (fullII hashOf n s'.copy0 (cardDay d)).flatten))[k]? = some y →
      ct (.cand n k 0) = partialDecrypt sk1 (exp (ctSym pk coin y.1) (mask (.cand n k 0))) ∧
      ct (.cand n k 1) = partialDecrypt sk1 (mul (encrypt pk y.2.1 y.2.2) (exp (exp (ctSym pk coin y.1) (mask (.cand n k 0))) (mask (.cand n k 1)))))
    (hT : ∀ (i j : Nat) l a, (labelNodes (fun i j (y : Nat) => (Slot.tree n i j 0, (y : Int))) d.coins.pads1 r1.update)[i]? = some l → l[j]? = some a →
      ct (.tree n i j 0) = encrypt pk (coin (.tree n i j 0)) a.2) :
    genII (funcPSI c cu) c hashOf pk sk1 s1 m d.ys { d.coins with
        enc1 := fun i j => coin (.tree n i j 0)
        x1 := fun i => coin (.elem n i 0)
        masks := fun k i => mask (.cand n k i)
        shuffle := shuffleOf σ n } =
      (msgPsi c ct n d.coins.hsh1 (r1.update.map Node.cap) ((fullI hashOf s.copy1 (cardDay d)).flatten ++ (fullII hashOf n s'.copy0 (cardDay d)).flatten).length >>= fun m2 =>
        .ok (⟨s'.my1, mapTree (fun l => encrypt pk l.1 l.2) s'.copy0, s1.lost ++ r1.lost⟩, m2)) := by
  have a1 : recvUpdate (funcPSI c cu).deserTree s1.other m.updates = .ok (mapTree (fun l => encrypt pk l.1 l.2) s'.copy0) := by
    rw [hot]
    exact recvUpdate_map (m' := ⟨d.coins.hsh0, labelNodes (fun i j (x : Nat) => (d.coins.enc0 i j 0, (x : Int))) d.coins.pads0 r0.update⟩) hm0 hm1 hD.copy0
  have a2 : forIdx (fun _ w => (funcPSI c cu).deser w) 0 m.candidates = .ok ((fullI hashOf s.copy1 (cardDay d)).flatten.map (ctFull pk coin)) :=
    forIdx_forall₂ (f := (funcPSI c cu).deser) (h := ctFull pk coin) hm2 0
  have a3 : forIdx (candII (funcPSI c cu) hashOf pk (mapTree (fun l => encrypt pk l.1 l.2) s'.copy0) { d.coins with
        enc1 := fun i j => coin (.tree n i j 0)
        x1 := fun i => coin (.elem n i 0)
        masks := fun k i => mask (.cand n k i)
        shuffle := shuffleOf σ n }) 0 d.ys = .ok ((fullII hashOf n s'.copy0 (cardDay d)).map fun l => l.map (ctFull pk coin)) := by
    have : candII (funcPSI c cu) hashOf pk (mapTree (fun l => encrypt pk l.1 l.2) s'.copy0) { d.coins with
        enc1 := fun i j => coin (.tree n i j 0)
        x1 := fun i => coin (.elem n i 0)
        masks := fun k i => mask (.cand n k i)
        shuffle := shuffleOf σ n } = fun i (y : Nat) => .ok (((pathOf s'.copy0 (hashOf y)).map fun l => (Sym.mk (.elem n i 0) (-1) l.1 (l.2 - y), l)).map (ctFull pk coin)) := by
      funext i y
      rw [candII, getPath_map (fun l : Int × Int => encrypt pk l.1 l.2) ((shaped_whole hI'.sh0).pathOf (hh y)), Outcome.bind_ok]
      simp only [List.map_map, Outcome.pure_eq]
      congr 2
      funext l
      simp only [Function.comp, ctFull]
      rw [← cand_one]
      rfl
    rw [this, forIdx_pure]
    simp only [Nat.zero_add, fullII]
    congr 1
    refine List.ext_getElem (by simp [cardDay]) fun i h1 h2 => ?_
    simp [cardDay]
  rw [genII, a1, Outcome.bind_ok, a2, Outcome.bind_ok, a3, Outcome.bind_ok]
  have a4 : forIdx (fun i x => (funcPSI c cu).send pk sk1 (d.coins.send i) x) 0
      ((shuffleOf σ n ((fullI hashOf s.copy1 (cardDay d)).flatten.map (ctFull pk coin) ++ ((fullII hashOf n s'.copy0 (cardDay d)).map fun l => l.map (ctFull pk coin)).flatten)).mapIdx
        fun i x => (funcPSI c cu).mask (fun j => mask (.cand n i j)) x) =
      forIdx (fun k (_ : Nat) => serElGamal c (ct (.cand n k 0)) (ct (.cand n k 1))) 0
        (List.range ((fullI hashOf s.copy1 (cardDay d)).flatten ++ (fullII hashOf n s'.copy0 (cardDay d)).flatten).length) := by
    have e : (fullI hashOf s.copy1 (cardDay d)).flatten.map (ctFull pk coin) ++ ((fullII hashOf n s'.copy0 (cardDay d)).map fun l => l.map (ctFull pk coin)).flatten =
        ((fullI hashOf s.copy1 (cardDay d)).flatten ++ (fullII hashOf n s'.copy0 (cardDay d)).flatten).map (ctFull pk coin) := by
      rw [List.map_append, List.map_flatten (L := fullII hashOf n s'.copy0 (cardDay d))]
    rw [e, shuffleOf_map]
    refine forIdx_congr2 _ _ 0 (by rw [List.length_mapIdx, List.length_map, shuffleOf_length, List.length_range]) fun k x x' hx _ => ?_
    rw [List.getElem?_mapIdx, List.getElem?_map] at hx
    cases hy : (shuffleOf σ n ((fullI hashOf s.copy1 (cardDay d)).flatten ++ (fullII hashOf n s'.copy0 (cardDay d)).flatten))[k]? with
    | none => rw [hy] at hx; simp at hx
    | some y =>
      rw [hy] at hx
      simp only [Option.map_some, Option.some.injEq] at hx
      subst hx
      simp only [Nat.zero_add]
      rw [(hC k y hy).1, (hC k y hy).2]
      rfl
  have a5 : encNodes (fun i j (y : Nat) => serNoPayload c (encrypt pk (coin (.tree n i j 0)) y)) d.coins.pads1 0 r1.update =
      forIdx (fun i m => forIdx (fun j (_ : Nat) => serNoPayload c (ct (.tree n i j 0))) 0 (List.range m)) 0 (r1.update.map Node.cap) := by
    rw [encNodes_forIdx _ hD.cap1]
    refine forIdx_congr2 _ _ 0 (by simp) fun i nd nd' hn hn' => ?_
    rw [List.getElem?_map, hn] at hn'
    simp only [Option.map_some, Option.some.injEq] at hn'
    subst hn'
    have hc := hD.cap1 nd (List.mem_of_getElem? hn)
    refine forIdx_congr2 _ _ 0 (by rw [padNode_length hc, List.length_range]) fun j e _ he _ => ?_
    simp only [Nat.zero_add]
    have hl : (labelNodes (fun i j (y : Nat) => (Slot.tree n i j 0, (y : Int))) d.coins.pads1 r1.update)[i]? =
        some ((padNode nd (d.coins.pads1 i)).elems.mapIdx fun j (a : Nat) => (Slot.tree n i j 0, (a : Int))) := by
      rw [labelNodes, List.getElem?_mapIdx, hn]; rfl
    have ha : ((padNode nd (d.coins.pads1 i)).elems.mapIdx fun j (a : Nat) => (Slot.tree n i j 0, (a : Int)))[j]? = some (Slot.tree n i j 0, (e : Int)) := by
      rw [List.getElem?_mapIdx]
      rw [Nat.zero_add] at he
      rw [he]; rfl
    rw [hT i j _ _ hl ha]
  have hins := hD.ins1
  rw [← hmy] at hins
  change (forIdx (fun i x => (funcPSI c cu).send pk sk1 (d.coins.send i) x) 0 ((shuffleOf σ n _).mapIdx fun i x => (funcPSI c cu).mask (fun j => mask (.cand n i j)) x) >>= fun out =>
    (insertWith hashOf id s1.my d.ys d.coins.hsh1 >>= fun r => (encNodes (fun i j (y : Nat) => serNoPayload c (encrypt pk (coin (.tree n i j 0)) y)) d.coins.pads1 0 r.update >>= fun ws =>
      Outcome.ok (SendResult.mk r.tree (Msg.mk d.coins.hsh1 ws) r.lost))) >>= fun u => Outcome.ok (_, _)) = _
  change insertWith hashOf id s1.my d.ys d.coins.hsh1 = _ at hins
  rw [a4, hins, msgPsi]
  simp only [Outcome.bind_ok]
  rw [a5, hD.tree1]
  generalize forIdx (fun k (_ : Nat) => serElGamal c (ct (.cand n k 0)) (ct (.cand n k 1))) 0 _ = o
  cases o with
  | ok out =>
    simp only [Outcome.bind_ok]
    generalize forIdx (fun i m => forIdx (fun j (_ : Nat) => serNoPayload c (ct (.tree n i j 0))) 0 (List.range m)) 0 _ = o
    cases o <;> rfl
  | err e => rfl
  | abort => rfl
  | ub => rfl

/-- The candidates of a history with payloads are those without. -/
theorem fullRun_fst {hashOf : Nat → List Bool} {stash node : Nat} {Q : Slot → Prop} {n : Nat} {H0 H1 : List (List (List Bool))} {s : SymSt}
    {days : List (DayIn G Nat Unit)} {outs : List SymOut} (hR : SymRuns hashOf stash node Q n H0 H1 s days outs) :
    (fullRun hashOf n s days).map (fun l => l.map Prod.fst) = outs.map SymOut.cands := by
  induction hR with
  | nil => rfl
  | @cons n H0 H1 s s' d r0 r1 ds outs hI hD hI' hsz hR ih =>
    rw [fullRun, hD.step]
    simp only [List.map_cons, List.map_append, map_fullI, map_fullII, ih]

/-- The view of the program is the view made of the ciphertexts. -/
theorem viewPsi_eq {c cu : Codec G} {hashOf : Nat → List Bool} (hh : ∀ e, (hashOf e).length = 256) {pk : PK G} {sk0 sk1 : Int} {coin mask : Slot → Int}
    {stash node : Nat} {Q : Slot → Prop} {N : Nat → Nat} {D : Nat} (σ : (d : Fin D) → Equiv.Perm (Fin (N d))) {ct : Slot → Ct G} {sizes : Nat → List Nat}
    {n : Nat} {H0 H1 : List (List (List Bool))} {s : SymSt} {cdays : List (DayIn G Nat Unit)} {outs : List SymOut}
    (hR : SymRuns hashOf stash node Q n H0 H1 s cdays outs) : ∀ (days : List (DayIn G Nat (Ct G))), days.map cardDay = cdays →
    (∀ (m : Nat) o l, outs[m]? = some o → (fullRun hashOf n s cdays)[m]? = some l → N (n + m) = o.cands.length ∧ sizes (n + m) = o.nodes.map List.length ∧
      (∀ (k : Nat) y, (shuffleOf σ (n + m) l)[k]? = some y →
        ct (.cand (n + m) k 0) = partialDecrypt sk1 (exp (ctSym pk coin y.1) (mask (.cand (n + m) k 0))) ∧
        ct (.cand (n + m) k 1) = partialDecrypt sk1 (mul (encrypt pk y.2.1 y.2.2) (exp (exp (ctSym pk coin y.1) (mask (.cand (n + m) k 0))) (mask (.cand (n + m) k 1))))) ∧
      (∀ (i j : Nat) l a, o.nodes[i]? = some l → l[j]? = some a → ct (.tree (n + m) i j 0) = encrypt pk (coin (.tree (n + m) i j 0)) a.2)) →
    ∀ (got : List ProtoMsg) (s0 : St0 G Nat) (mp : Mapping) (res : List (Option Nat)) (s1 : St1 (Ct G)), s0.my = s.my0 →
    s0.other = mapTree (fun l => encrypt pk (coin l.1) l.2) s.copy1 →
    s1.my = s.my1 → s1.other = mapTree (fun l => encrypt pk l.1 l.2) s.copy0 →
    viewPsi c cu hashOf pk sk0 sk1 got s0 mp res s1 (redrawPsi coin mask σ n days) = viewGiven c cu hashOf pk sk0 sizes N ct n got s0 mp res days := by
  induction hR with
  | nil =>
    intro days hd
    obtain rfl : days = [] := by simpa using hd
    intros; rfl
  | @cons n H0 H1 s s' cd r0 r1 cds outs hI hD hI' hsz hR ih =>
    intro days hd hct got s0 mp res s1 m0 o0 m1 o1
    cases days with
    | nil => simp at hd
    | cons d ds =>
    simp only [List.map_cons, List.cons.injEq] at hd
    obtain ⟨rfl, hds⟩ := hd
    rw [fullRun, hD.step] at hct
    obtain ⟨g1, g2, g3, g4⟩ := hct 0 _ _ rfl rfl
    simp only [Nat.add_zero] at g1 g2 g3 g4
    rw [redrawPsi, viewPsi, viewGiven]
    refine after_congr _ _ fun mp' _ => ?_
    refine after_congr _ _ ?_
    rintro ⟨s0', msg⟩ hgen
    obtain ⟨a1, a2, a3, a4, a5⟩ := genI_psi hh hI hD m0 o0 hgen
    have hcap : r1.update.map Node.cap = sizes n := by
      rw [g2]
      refine List.ext_getElem (by simp [labelNodes]) fun i hi hi' => ?_
      simp only [List.length_map] at hi
      simp only [List.getElem_map, labelNodes, List.getElem_mapIdx, List.length_mapIdx]
      exact (padNode_length (hD.cap1 _ (List.getElem_mem hi))).symm
    have hII := genII_psi (cu := cu) (sk1 := sk1) (mask := mask) hh hD hI' σ m1 o1 a3 a4 a5 g3 g4
    have hlen : ((fullI hashOf s.copy1 (cardDay d)).flatten ++ (fullII hashOf n s'.copy0 (cardDay d)).flatten).length = N n := by
      rw [g1, ← map_fullI, ← map_fullII, ← List.map_append, List.length_map]
    simp only
    rw [hII, after_bind, hcap, hlen]
    refine after_congr _ _ fun m2 hm2 => ?_
    show after (got ++ [m2]) _ _ = _
    refine after_congr _ _ ?_
    rintro ⟨s0'', cands⟩ hrec
    refine after_congr _ _ fun res' _ => ?_
    refine ih ds hds (fun m o l ho hl => ?_) _ _ _ _ _ ?_ ?_ rfl rfl
    · have := hct (m + 1) o l (by simpa using ho) (by simpa using hl)
      rwa [show n + (m + 1) = n + 1 + m by omega] at this
    · simp only [recvII, Outcome.bind_eq_ok, Outcome.pure_eq, Outcome.ok.injEq, Prod.mk.injEq] at hrec
      obtain ⟨_, -, _, -, rfl, -⟩ := hrec
      exact a1
    · simp only [recvII, Outcome.bind_eq_ok, Outcome.pure_eq, Outcome.ok.injEq, Prod.mk.injEq] at hrec
      obtain ⟨o', ho', _, -, rfl, -⟩ := hrec
      simp only [msgPsi, Outcome.bind_eq_ok, Outcome.pure_eq, Outcome.ok.injEq] at hm2
      obtain ⟨out, -, ns, hns, rfl⟩ := hm2
      rw [a2, o0] at ho'
      refine Outcome.ok.inj (ho'.symm.trans (recvUpdate_map (m' := ⟨d.coins.hsh1, labelNodes (fun i j (y : Nat) => (Slot.tree n i j 0, (y : Int))) d.coins.pads1 r1.update⟩) rfl ?_ hD.copy1))
      show List.Forall₂ _ ns _
      rw [g2] at hns
      obtain ⟨l1, l2⟩ := View.forIdx_get _ _ _ hns
      rw [List.length_map] at l1
      refine List.forall₂_iff_get.2 ⟨l1, fun i h1 h2 => ?_⟩
      have h2' : i < (labelNodes (fun i j (y : Nat) => (Slot.tree n i j 0, (y : Int))) (cardDay d).coins.pads1 r1.update).length := h2
      have h3 := l2 i (by simpa using h2') h1
      obtain ⟨k1, k2⟩ := View.forIdx_get _ _ _ h3
      rw [List.length_range, List.getElem_map] at k1
      refine List.forall₂_iff_get.2 ⟨k1, fun j h4 h5 => ?_⟩
      have h6 := k2 j (by rw [List.length_range, List.getElem_map]; exact h5) h4
      simp only [Nat.zero_add] at h6
      have h7 := (serNoPayload_ok h6).2
      simp only [List.get_eq_getElem] at h2 h5 ⊢
      refine h7.trans ?_
      rw [g4 i j _ _ (List.getElem?_eq_getElem h2) (List.getElem?_eq_getElem h5)]
      simp only [labelNodes, List.getElem_mapIdx]

/-- Only the listed ciphertexts matter. -/
theorem viewGiven_congr {c cu : Codec G} {hashOf : Nat → List Bool} {pk : PK G} {sk0 : Int} {sizes : Nat → List Nat} {N : Nat → Nat} {ct ct' : Slot → Ct G}
    (days : List (DayIn G Nat (Ct G))) : ∀ (n : Nat) (got : List ProtoMsg) (s0 : St0 G Nat) (mp : Mapping) (res : List (Option Nat)),
    (∀ m k : Nat, m < days.length → k < N (n + m) → ct (.cand (n + m) k 0) = ct' (.cand (n + m) k 0) ∧ ct (.cand (n + m) k 1) = ct' (.cand (n + m) k 1)) →
    (∀ m i j : Nat, m < days.length → j < (sizes (n + m)).getD i 0 → ct (.tree (n + m) i j 0) = ct' (.tree (n + m) i j 0)) →
    viewGiven c cu hashOf pk sk0 sizes N ct n got s0 mp res days = viewGiven c cu hashOf pk sk0 sizes N ct' n got s0 mp res days := by
  induction days with
  | nil => intros; rfl
  | cons d ds ih =>
    intro n got s0 mp res hC hT
    have hm : msgPsi c ct n d.coins.hsh1 (sizes n) (N n) = msgPsi c ct' n d.coins.hsh1 (sizes n) (N n) := by
      have h1 : forIdx (fun k (_ : Nat) => serElGamal c (ct (.cand n k 0)) (ct (.cand n k 1))) 0 (List.range (N n)) =
          forIdx (fun k (_ : Nat) => serElGamal c (ct' (.cand n k 0)) (ct' (.cand n k 1))) 0 (List.range (N n)) := by
        refine forIdx_congr2 _ _ 0 rfl fun k a a' ha _ => ?_
        have hk := (List.getElem?_eq_some_iff.1 ha).1
        rw [List.length_range] at hk
        rw [Nat.zero_add]
        have := hC 0 k (by simp) hk
        rw [Nat.add_zero] at this
        rw [this.1, this.2]
      have h2 : forIdx (fun i m => forIdx (fun j (_ : Nat) => serNoPayload c (ct (.tree n i j 0))) 0 (List.range m)) 0 (sizes n) =
          forIdx (fun i m => forIdx (fun j (_ : Nat) => serNoPayload c (ct' (.tree n i j 0))) 0 (List.range m)) 0 (sizes n) := by
        refine forIdx_congr2 _ _ 0 rfl fun i a a' ha ha' => ?_
        obtain rfl : a = a' := Option.some.inj (ha.symm.trans ha')
        refine forIdx_congr2 _ _ 0 rfl fun j b b' hb _ => ?_
        have hj := (List.getElem?_eq_some_iff.1 hb).1
        rw [List.length_range] at hj
        simp only [Nat.zero_add]
        have := hT 0 i j (by simp) (by rw [Nat.add_zero, List.getD_eq_getElem?_getD, ha]; exact hj)
        rw [Nat.add_zero] at this
        rw [this]
      rw [msgPsi, msgPsi, h1, h2]
    rw [viewGiven, viewGiven, hm]
    refine after_congr _ _ fun mp' _ => after_congr _ _ ?_
    rintro ⟨s0', msg⟩ -
    refine after_congr _ _ fun m2 _ => after_congr _ _ ?_
    rintro ⟨s0'', cands⟩ -
    refine after_congr _ _ fun res' _ => ?_
    refine ih _ _ _ _ _ (fun m k hm hk => ?_) (fun m i j hm hj => ?_)
    · have := hC (m + 1) k (by simpa using hm) (by rwa [show n + (m + 1) = n + 1 + m by omega])
      rwa [show n + (m + 1) = n + 1 + m by omega] at this
    · have := hT (m + 1) i j (by simpa using hm) (by rwa [show n + (m + 1) = n + 1 + m by omega])
      rwa [show n + (m + 1) = n + 1 + m by omega] at this

/-- Made of the same ciphertexts, the views are the same. -/
theorem viewGiven_same {c cu : Codec G} {hashOf : Nat → List Bool} {pk : PK G} {sk0 : Int} {sizes : Nat → List Nat} {N : Nat → Nat} {ct : Slot → Ct G}
    {days days' : List (DayIn G Nat (Ct G))} (h : List.Forall₂ (fun d d' => SameZero (cardDay d) (cardDay d')) days days') :
    ∀ (n : Nat) (got : List ProtoMsg) (s0 : St0 G Nat) (mp : Mapping) (res : List (Option Nat)),
    viewGiven c cu hashOf pk sk0 sizes N ct n got s0 mp res days = viewGiven c cu hashOf pk sk0 sizes N ct n got s0 mp res days' := by
  induction h with
  | nil => intros; rfl
  | @cons d d' ds ds' h1 _ ih =>
    intro n got s0 mp res
    have hxs : d.xs = d'.xs := h1.xs
    have hx0 : d.coins.x0 = d'.coins.x0 := h1.x0
    have hrr : d.coins.rr = d'.coins.rr := h1.rr
    have hh0 : d.coins.hsh0 = d'.coins.hsh0 := h1.hsh0
    have hp0 : d.coins.pads0 = d'.coins.pads0 := h1.pads0
    have he0 : d.coins.enc0 = d'.coins.enc0 := h1.enc0
    have hh1 : d.coins.hsh1 = d'.coins.hsh1 := h1.hsh1
    have hg : genI (funcPSI c cu) hashOf pk s0 d.xs d.coins = genI (funcPSI c cu) hashOf pk s0 d'.xs d'.coins := by
      have : candI (funcPSI c cu) hashOf pk s0.other d.coins = candI (funcPSI c cu) hashOf pk s0.other d'.coins := by
        funext i p
        simp only [candI, hx0, hrr]
      rw [genI, genI, this, hxs, hh0, hp0, he0]
    rw [viewGiven, viewGiven, hg, hh1, hxs]
    refine after_congr _ _ fun mp' _ => after_congr _ _ ?_
    rintro ⟨s0', msg⟩ -
    refine after_congr _ _ fun m2 _ => after_congr _ _ ?_
    rintro ⟨s0'', cands⟩ -
    refine after_congr _ _ fun res' _ => ?_
    exact ih _ _ _ _ _

end Upsi.Hide
