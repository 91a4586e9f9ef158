import Verif.Hide.OneStep
import Verif.View.Props
import Mathlib.Tactic.Module
/- The messages II of the program are made of the ciphertexts the labels stand for (C80). -/
namespace Upsi.Hide
open Upsi Upsi.ElGamal Upsi.Tree Upsi.Num Upsi.Proto Upsi.View Upsi.Tree.Props

theorem permuteBy_map {N : Nat} {α β : Type} (σ : Equiv.Perm (Fin N)) (f : α → β) (l : List α) :
    permuteBy σ (l.map f) = (permuteBy σ l).map f := by
  unfold permuteBy
  by_cases h : l.length = N
  · rw [dif_pos (by simpa using h), dif_pos h, List.map_ofFn]
    congr 1
    funext i
    simp
  · rw [dif_neg (by simpa using h), dif_neg h]

theorem shuffleOf_map {N : Nat → Nat} {D : Nat} (σ : (d : Fin D) → Equiv.Perm (Fin (N d))) {α β : Type} (f : α → β) (d : Nat) (l : List α) :
    shuffleOf σ d (l.map f) = (shuffleOf σ d l).map f := by
  unfold shuffleOf
  split
  · exact permuteBy_map _ _ _
  · rfl

theorem shuffleOf_length {N : Nat → Nat} {D : Nat} (σ : (d : Fin D) → Equiv.Perm (Fin (N d))) {α : Type} (d : Nat) (l : List α) :
    (shuffleOf σ d l).length = l.length := by
  unfold shuffleOf
  split
  · exact (permuteBy_perm _ _).length_eq
  · rfl

/-- Every day of a history on labels goes through. -/
inductive SymRuns {G : Type} (hashOf : Nat → List Bool) (stash node : Nat) (Q : Slot → Prop) :
    Nat → List (List (List Bool)) → List (List (List Bool)) → SymSt → List (DayIn G Nat Unit) → List SymOut → Prop
  | nil {n H0 H1 s} : SymInv hashOf stash node H0 H1 Q s → SymRuns hashOf stash node Q n H0 H1 s [] []
  | cons {n H0 H1 s s' d r0 r1 ds outs} : SymInv hashOf stash node H0 H1 Q s → SymDay hashOf n s d s' r0 r1 →
      SymInv hashOf stash node (H0 ++ [d.coins.hsh0]) (H1 ++ [d.coins.hsh1]) Q s' →
      r1.update.map Node.cap = updateSizes stash node H1 d.coins.hsh1 →
      SymRuns hashOf stash node Q (n + 1) (H0 ++ [d.coins.hsh0]) (H1 ++ [d.coins.hsh1]) s' ds outs →
      SymRuns hashOf stash node Q n H0 H1 s (d :: ds) (⟨(symI hashOf s.copy1 d).flatten ++ (symII hashOf n s'.copy0 d).flatten,
        labelNodes (fun i j (y : Nat) => (Slot.tree n i j 0, (y : Int))) d.coins.pads1 r1.update⟩ :: outs)

variable {G : Type} [AddCommGroup G] [DecidableEq G]

/-- The ciphertext a candidate stands for. -/
def ctSym (pk : PK G) (coin : Slot → Int) (y : Sym) : Ct G := encrypt pk (y.eps * coin y.base + y.off) y.m

theorem cand_zero (pk : PK G) (coin : Slot → Int) (l : Slot × Int) (r t x : Int) :
    reRandomize pk t (mul (encrypt pk (coin l.1) l.2) (invert (encrypt pk r x))) = ctSym pk coin ⟨l.1, 1, t - r, l.2 - x⟩ := by
  simp only [ctSym, encrypt, encryptPoint, reRandomize, mul, invert, Ct.mk.injEq]
  exact ⟨by module, by module⟩

theorem cand_one (pk : PK G) (coin : Slot → Int) (l : Int × Int) (b : Slot) (y : Int) :
    mul (encrypt pk l.1 l.2) (invert (encrypt pk (coin b) y)) = ctSym pk coin ⟨b, -1, l.1, l.2 - y⟩ := by
  simp only [ctSym, encrypt, encryptPoint, mul, invert, Ct.mk.injEq]
  exact ⟨by module, by module⟩

theorem serNoPayload_ok {c : Codec G} {x : Ct G} {w : EncElem} (h : serNoPayload c x = .ok w) : deserNoPayload c w = .ok x ∧ deserTreeCt c w = .ok x := by
  have := serNoPayload_only c x
  rw [h] at this
  exact this

theorem forall₂_flatten {α β : Type} {R : α → β → Prop} {a : List (List α)} {b : List (List β)} (h : List.Forall₂ (List.Forall₂ R) a b) :
    List.Forall₂ R a.flatten b.flatten := by
  induction h with
  | nil => exact .nil
  | cons h1 _ ih => exact List.rel_append h1 ih

theorem forIdx_forall₂ {α β γ : Type} {f : α → Outcome γ} {h : β → γ} : ∀ {a : List α} {b : List β}, List.Forall₂ (fun w l => f w = .ok (h l)) a b →
    ∀ k, forIdx (fun _ w => f w) k a = .ok (b.map h)
  | [], [], _, _ => rfl
  | _ :: _, _ :: _, .cons h1 h2, k => by
    rw [forIdx, h1, Outcome.bind_ok, forIdx_forall₂ h2, Outcome.bind_ok]; rfl

/-- What party zero's first half of a day gives. -/
theorem genI_sym {c : Codec G} {hashOf : Nat → List Bool} (hh : ∀ e, (hashOf e).length = 256) {pk : PK G} {coin : Slot → Int}
    {stash node n : Nat} {H0 H1 : List (List (List Bool))} {Q : Slot → Prop} {s s' : SymSt} {r0 r1 : InsertResult Nat} {d : DayIn G Nat Unit}
    (hI : SymInv hashOf stash node H0 H1 Q s) (hD : SymDay hashOf n s d s' r0 r1) {s0 s0' : St0 G Nat} {m : ProtoMsg}
    (hmy : s0.my = s.my0) (hot : s0.other = mapTree (fun l => encrypt pk (coin l.1) l.2) s.copy1)
    (h : genI (funcCA c) hashOf pk s0 d.xs d.coins = .ok (s0', m)) :
    s0'.my = s'.my0 ∧ s0'.other = s0.other ∧ m.updates.hashes = d.coins.hsh0 ∧
    List.Forall₂ (List.Forall₂ (fun w (l : Int × Int) => deserTreeCt c w = .ok (encrypt pk l.1 l.2))) m.updates.nodes
      (labelNodes (fun i j (x : Nat) => (d.coins.enc0 i j 0, (x : Int))) d.coins.pads0 r0.update) ∧
    List.Forall₂ (fun w y => (deserNoPayload c w >>= fun x => .ok (x, ())) = .ok (ctSym pk coin y, ())) m.candidates (symI hashOf s.copy1 d).flatten := by
  simp only [genI, sendUpdate, Outcome.bind_eq_ok, Outcome.pure_eq, Outcome.ok.injEq, Prod.mk.injEq] at h
  obtain ⟨u, ⟨r, hr, ws, hw, rfl⟩, cs, hcs, rfl, rfl⟩ := h
  rw [hmy] at hr
  obtain rfl : r = r0 := Outcome.ok.inj (hr.symm.trans hD.ins0)
  refine ⟨hD.tree0.symm, rfl, rfl, ?_, forall₂_flatten ?_⟩
  · refine encNodes_rel (fun i j a w hw => ?_) hD.cap0 hw
    exact (serNoPayload_ok hw).2
  · have := forIdx_rel (R := List.Forall₂ (fun w y => (deserNoPayload c w >>= fun x => .ok (x, ())) = .ok (ctSym pk coin y, ())))
      (f' := fun i (x : Nat) => (pathOf s.copy1 (hashOf x)).mapIdx fun j l => Sym.mk l.1 1 (d.coins.rr i j - d.coins.x0 i 0) (l.2 - x))
      (fun i x w hw => by
        have hp := getPath_map (fun l : Slot × Int => encrypt pk (coin l.1) l.2) ((shaped_whole hI.sh1).pathOf (hh x))
        rw [← hot] at hp
        simp only [candI] at hw
        change (getPath s0.other (hashOf x) >>= _) = _ at hw
        rw [hp, Outcome.bind_ok] at hw
        change (Outcome.ok () >>= _) = _ at hw
        rw [Outcome.bind_ok] at hw
        have h2 := forIdx_rel (R := fun w y => (deserNoPayload c w >>= fun x => .ok (x, ())) = .ok (ctSym pk coin y, ()))
          (f := fun j (l : Slot × Int) => (funcCA c).ser (reRandomize pk (d.coins.rr i j) (mul (encrypt pk (coin l.1) l.2) (invert (encrypt pk (d.coins.x0 i 0) ((funcCA c).key x))))) ())
          (f' := fun j (l : Slot × Int) => Sym.mk l.1 1 (d.coins.rr i j - d.coins.x0 i 0) (l.2 - (x : Int)))
          (fun j l w hw => by
            rw [cand_zero] at hw
            rw [(serNoPayload_ok hw).1]
            rfl) (pathOf s.copy1 (hashOf x)) 0 w (by
            rw [← hw]
            refine forIdx_congr2 _ _ 0 (by simp) fun j a a' ha ha' => ?_
            rw [List.getElem?_map, ha] at ha'
            simp only [Option.map_some, Option.some.injEq] at ha'
            subst ha'
            rfl)
        simpa only [Nat.zero_add] using h2) d.xs 0 cs hcs
    simp only [Nat.zero_add] at this
    exact this

/-- Party one's part of a day makes the message of the ciphertexts. -/
theorem genII_sym {c : Codec G} {hashOf : Nat → List Bool} (hh : ∀ e, (hashOf e).length = 256) {pk : PK G} {sk1 : Int} {coin mask : Slot → Int}
    {stash node n : Nat} {H0 H1 : List (List (List Bool))} {Q : Slot → Prop} {s s' : SymSt} {r0 r1 : InsertResult Nat} {d : DayIn G Nat Unit}
    (hD : SymDay hashOf n s d s' r0 r1) (hI' : SymInv hashOf stash node H0 H1 Q s') {N : Nat → Nat} {D : Nat}
    (σ : (d : Fin D) → Equiv.Perm (Fin (N d))) {s1 : St1 (Ct G)} {m : ProtoMsg}
    (hmy : s1.my = s.my1) (hot : s1.other = mapTree (fun l => encrypt pk l.1 l.2) s.copy0) (hm0 : m.updates.hashes = d.coins.hsh0)
    (hm1 : List.Forall₂ (List.Forall₂ (fun w (l : Int × Int) => deserTreeCt c w = .ok (encrypt pk l.1 l.2))) m.updates.nodes
      (labelNodes (fun i j (x : Nat) => (d.coins.enc0 i j 0, (x : Int))) d.coins.pads0 r0.update))
    (hm2 : List.Forall₂ (fun w y => (deserNoPayload c w >>= fun x => .ok (x, ())) = .ok (ctSym pk coin y, ())) m.candidates (symI hashOf s.copy1 d).flatten)
    {ct : Slot → Ct G}
    (hC : ∀ (k : Nat) y, (shuffleOf σ n ((symI hashOf s.copy1 d).flatten ++ (symII hashOf n s'.copy0 d).flatten))[k]? = some y →
      ct (.cand n k 0) = partialDecrypt sk1 (exp (ctSym pk coin y) (mask (.cand n k 0))))
    (hT : ∀ (i j : Nat) l a, (labelNodes (fun i j (y : Nat) => (Slot.tree n i j 0, (y : Int))) d.coins.pads1 r1.update)[i]? = some l → l[j]? = some a →
      ct (.tree n i j 0) = encrypt pk (coin (.tree n i j 0)) a.2) :
    genII (funcCA c) c hashOf pk sk1 s1 m d.ys { d.coins with
        enc1 := fun i j => coin (.tree n i j 0)
        x1 := fun i => coin (.elem n i 0)
        masks := fun k _ => mask (.cand n k 0)
        shuffle := shuffleOf σ n } =
      (msgTwo c ct n d.coins.hsh1 (r1.update.map Node.cap) ((symI hashOf s.copy1 d).flatten ++ (symII hashOf n s'.copy0 d).flatten).length >>= fun m2 =>
        .ok (⟨s'.my1, mapTree (fun l => encrypt pk l.1 l.2) s'.copy0, s1.lost ++ r1.lost⟩, m2)) := by
  have a1 : recvUpdate (funcCA c).deserTree s1.other m.updates = .ok (mapTree (fun l => encrypt pk l.1 l.2) s'.copy0) := by
    rw [hot]
    exact recvUpdate_map (m' := ⟨d.coins.hsh0, labelNodes (fun i j (x : Nat) => (d.coins.enc0 i j 0, (x : Int))) d.coins.pads0 r0.update⟩) hm0 hm1 hD.copy0
  have a2 : forIdx (fun _ w => (funcCA c).deser w) 0 m.candidates = .ok ((symI hashOf s.copy1 d).flatten.map fun y => (ctSym pk coin y, ())) :=
    forIdx_forall₂ (f := (funcCA c).deser) (h := fun y => (ctSym pk coin y, ())) hm2 0
  have a3 : forIdx (candII (funcCA c) hashOf pk (mapTree (fun l => encrypt pk l.1 l.2) s'.copy0) { d.coins with
        enc1 := fun i j => coin (.tree n i j 0)
        x1 := fun i => coin (.elem n i 0)
        masks := fun k _ => mask (.cand n k 0)
        shuffle := shuffleOf σ n }) 0 d.ys = .ok ((symII hashOf n s'.copy0 d).map fun l => l.map fun y => (ctSym pk coin y, ())) := by
    have : candII (funcCA c) hashOf pk (mapTree (fun l => encrypt pk l.1 l.2) s'.copy0) { d.coins with
        enc1 := fun i j => coin (.tree n i j 0)
        x1 := fun i => coin (.elem n i 0)
        masks := fun k _ => mask (.cand n k 0)
        shuffle := shuffleOf σ n } = fun i (y : Nat) => .ok (((pathOf s'.copy0 (hashOf y)).map fun l => Sym.mk (.elem n i 0) (-1) l.1 (l.2 - y)).map fun y => (ctSym pk coin y, ())) := by
      funext i y
      rw [candII, getPath_map (fun l : Int × Int => encrypt pk l.1 l.2) ((shaped_whole hI'.sh0).pathOf (hh y)), Outcome.bind_ok]
      simp only [List.map_map, Outcome.pure_eq]
      congr 2
      funext l
      simp only [Function.comp]
      rw [← cand_one]
      rfl
    rw [this, forIdx_pure]
    simp only [Nat.zero_add, symII]
    congr 1
    refine List.ext_getElem (by simp) fun i h1 h2 => ?_
    simp
  rw [genII, a1, Outcome.bind_ok, a2, Outcome.bind_ok, a3, Outcome.bind_ok]
  have a4 : forIdx (fun i x => (funcCA c).send pk sk1 (d.coins.send i) x) 0
      ((shuffleOf σ n ((symI hashOf s.copy1 d).flatten.map (fun y => (ctSym pk coin y, ())) ++ ((symII hashOf n s'.copy0 d).map fun l => l.map fun y => (ctSym pk coin y, ())).flatten)).mapIdx
        fun i x => (funcCA c).mask (fun _ => mask (.cand n i 0)) x) =
      forIdx (fun k (_ : Nat) => serNoPayload c (ct (.cand n k 0))) 0
        (List.range ((symI hashOf s.copy1 d).flatten ++ (symII hashOf n s'.copy0 d).flatten).length) := by
    have e : (symI hashOf s.copy1 d).flatten.map (fun y => (ctSym pk coin y, ())) ++ ((symII hashOf n s'.copy0 d).map fun l => l.map fun y => (ctSym pk coin y, ())).flatten =
        ((symI hashOf s.copy1 d).flatten ++ (symII hashOf n s'.copy0 d).flatten).map fun y => (ctSym pk coin y, ()) := by
      rw [List.map_append, List.map_flatten (L := symII hashOf n s'.copy0 d)]
    rw [e, shuffleOf_map]
    refine forIdx_congr2 _ _ 0 (by rw [List.length_mapIdx, List.length_map, shuffleOf_length, List.length_range]) fun k x x' hx _ => ?_
    rw [List.getElem?_mapIdx, List.getElem?_map] at hx
    cases hy : (shuffleOf σ n ((symI hashOf s.copy1 d).flatten ++ (symII hashOf n s'.copy0 d).flatten))[k]? with
    | none => rw [hy] at hx; simp at hx
    | some y =>
      rw [hy] at hx
      simp only [Option.map_some, Option.some.injEq] at hx
      subst hx
      simp only [Nat.zero_add]
      rw [hC k y hy]
      rfl
  have a5 : encNodes (fun i j (y : Nat) => serNoPayload c (encrypt pk (coin (.tree n i j 0)) y)) d.coins.pads1 0 r1.update =
      forIdx (fun i m => forIdx (fun j (_ : Nat) => serNoPayload c (ct (.tree n i j 0))) 0 (List.range m)) 0 (r1.update.map Node.cap) := by
    rw [encNodes_forIdx _ hD.cap1]
    refine forIdx_congr2 _ _ 0 (by simp) fun i nd nd' hn hn' => ?_
    rw [List.getElem?_map, hn] at hn'
    simp only [Option.map_some, Option.some.injEq] at hn'
    subst hn'
    have hc := hD.cap1 nd (List.mem_of_getElem? hn)
    refine forIdx_congr2 _ _ 0 (by rw [padNode_length hc, List.length_range]) fun j e _ he _ => ?_
    simp only [Nat.zero_add]
    have hl : (labelNodes (fun i j (y : Nat) => (Slot.tree n i j 0, (y : Int))) d.coins.pads1 r1.update)[i]? =
        some ((padNode nd (d.coins.pads1 i)).elems.mapIdx fun j (a : Nat) => (Slot.tree n i j 0, (a : Int))) := by
      rw [labelNodes, List.getElem?_mapIdx, hn]; rfl
    have ha : ((padNode nd (d.coins.pads1 i)).elems.mapIdx fun j (a : Nat) => (Slot.tree n i j 0, (a : Int)))[j]? = some (Slot.tree n i j 0, (e : Int)) := by
      rw [List.getElem?_mapIdx]
      rw [Nat.zero_add] at he
      rw [he]; rfl
    rw [hT i j _ _ hl ha]
  have hins := hD.ins1
  rw [← hmy] at hins
  change (forIdx (fun i x => (funcCA c).send pk sk1 (d.coins.send i) x) 0 ((shuffleOf σ n _).mapIdx fun i x => (funcCA c).mask (fun _ => mask (.cand n i 0)) x) >>= fun out =>
    (insertWith hashOf id s1.my d.ys d.coins.hsh1 >>= fun r => (encNodes (fun i j (y : Nat) => serNoPayload c (encrypt pk (coin (.tree n i j 0)) y)) d.coins.pads1 0 r.update >>= fun ws =>
      Outcome.ok (SendResult.mk r.tree (Msg.mk d.coins.hsh1 ws) r.lost))) >>= fun u => Outcome.ok (_, _)) = _
  rw [a4, hins, msgTwo]
  simp only [Outcome.bind_ok]
  rw [a5, hD.tree1]
  generalize forIdx (fun k (_ : Nat) => serNoPayload c (ct (.cand n k 0))) 0 _ = o
  cases o with
  | ok out =>
    simp only [Outcome.bind_ok]
    generalize forIdx (fun i m => forIdx (fun j (_ : Nat) => serNoPayload c (ct (.tree n i j 0))) 0 (List.range m)) 0 _ = o
    cases o <;> rfl
  | err e => rfl
  | abort => rfl
  | ub => rfl

theorem symRuns_exists {hashOf : Nat → List Bool} (hh : ∀ e, (hashOf e).length = 256) {stash node : Nat} {Q : Slot → Prop} (days : List (DayIn G Nat Unit)) :
    ∀ (n : Nat) (H0 H1 : List (List (List Bool))) (s : SymSt), SymInv hashOf stash node H0 H1 Q s →
    (∀ d ∈ days, Batch.WF (d.xs, d.coins.hsh0)) → (∀ d ∈ days, Batch.WF (d.ys, d.coins.hsh1)) →
    idCount H0 + idCount (ids0 days) < 2 ^ 30 → idCount H1 + idCount (ids1 days) < 2 ^ 30 →
    (∀ (m : Nat) d, days[m]? = some d → ∀ i j : Nat, j < (updateSizes stash node (H1 ++ (ids1 days).take m) d.coins.hsh1).getD i 0 → Q (.tree (n + m) i j 0)) →
    SymRuns hashOf stash node Q n H0 H1 s days (symRun hashOf n s days) := by
  induction days with
  | nil => intro n H0 H1 s hI _ _ _ _ _; exact .nil hI
  | cons d ds ih =>
    intro n H0 H1 s hI hb0 hb1 t0 t1 hQ
    have e0 : idCount (ids0 (d :: ds)) = d.coins.hsh0.length + idCount (ids0 ds) := by simp [ids0, idCount]
    have e1 : idCount (ids1 (d :: ds)) = d.coins.hsh1.length + idCount (ids1 ds) := by simp [ids1, idCount]
    rw [e0] at t0
    rw [e1] at t1
    obtain ⟨s', r0, r1, hD, hI', hsz⟩ := symStep_ok (n := n) hh hI (hb0 d (by simp)) (hb1 d (by simp)) (by omega) (by omega)
      (fun i j hj => by have := hQ 0 d rfl i j (by simpa [ids1] using hj); simpa using this)
    rw [symRun, hD.step]
    refine .cons hI hD hI' hsz (ih (n + 1) _ _ s' hI' (fun e he => hb0 e (by simp [he])) (fun e he => hb1 e (by simp [he]))
      (by rw [idCount_snoc]; omega) (by rw [idCount_snoc]; omega) fun m e he i j hj => ?_)
    have := hQ (m + 1) e (by simpa using he) i j (by simpa [ids1] using hj)
    rwa [show n + (m + 1) = n + 1 + m by omega] at this

/-- The view of the program is the view made of the ciphertexts. -/
theorem view0_eq {c : Codec G} {hashOf : Nat → List Bool} (hh : ∀ e, (hashOf e).length = 256) {pk : PK G} {sk1 : Int} {coin mask : Slot → Int}
    {stash node : Nat} {Q : Slot → Prop} {N : Nat → Nat} {D : Nat} (σ : (d : Fin D) → Equiv.Perm (Fin (N d))) {ct : Slot → Ct G} {sizes : Nat → List Nat}
    {n : Nat} {H0 H1 : List (List (List Bool))} {s : SymSt} {days : List (DayIn G Nat Unit)} {outs : List SymOut}
    (hR : SymRuns hashOf stash node Q n H0 H1 s days outs) :
    (∀ (m : Nat) o, outs[m]? = some o → N (n + m) = o.cands.length ∧ sizes (n + m) = o.nodes.map List.length ∧
      (∀ (k : Nat) y, (shuffleOf σ (n + m) o.cands)[k]? = some y →
        ct (.cand (n + m) k 0) = partialDecrypt sk1 (exp (ctSym pk coin y) (mask (.cand (n + m) k 0)))) ∧
      (∀ (i j : Nat) l a, o.nodes[i]? = some l → l[j]? = some a → ct (.tree (n + m) i j 0) = encrypt pk (coin (.tree (n + m) i j 0)) a.2)) →
    ∀ (got : List ProtoMsg) (s0 : St0 G Nat) (s1 : St1 (Ct G)), s0.my = s.my0 → s0.other = mapTree (fun l => encrypt pk (coin l.1) l.2) s.copy1 →
    s1.my = s.my1 → s1.other = mapTree (fun l => encrypt pk l.1 l.2) s.copy0 →
    view0 c hashOf pk sk1 got s0 s1 (redrawOne coin mask σ n days) = viewC c hashOf pk sizes N ct n got s0 days := by
  induction hR with
  | nil => intros; rfl
  | @cons n H0 H1 s s' d r0 r1 ds outs hI hD hI' hsz hR ih =>
    intro hct got s0 s1 m0 o0 m1 o1
    obtain ⟨g1, g2, g3, g4⟩ := hct 0 _ rfl
    simp only [Nat.add_zero] at g1 g2 g3 g4
    rw [redrawOne, view0, viewC]
    refine after_congr _ _ ?_
    rintro ⟨s0', msg⟩ hgen
    obtain ⟨a1, a2, a3, a4, a5⟩ := genI_sym hh hI hD m0 o0 hgen
    have hcap : r1.update.map Node.cap = sizes n := by
      rw [g2]
      refine List.ext_getElem (by simp [labelNodes]) fun i hi hi' => ?_
      simp only [List.length_map] at hi
      simp only [List.getElem_map, labelNodes, List.getElem_mapIdx, List.length_mapIdx]
      exact (padNode_length (hD.cap1 _ (List.getElem_mem hi))).symm
    have hII := genII_sym (sk1 := sk1) (mask := mask) hh hD hI' σ m1 o1 a3 a4 a5 g3 g4
    simp only
    rw [hII, after_bind, hcap, g1]
    refine after_congr _ _ fun m2 hm2 => ?_
    show after (got ++ [m2]) _ _ = _
    refine after_congr _ _ ?_
    rintro ⟨s0'', cands⟩ hrec
    refine ih (fun m o ho => ?_) _ _ _ ?_ ?_ rfl rfl
    · have := hct (m + 1) o (by simpa using ho)
      rwa [show n + (m + 1) = n + 1 + m by omega] at this
    · simp only [recvII, Outcome.bind_eq_ok, Outcome.pure_eq, Outcome.ok.injEq, Prod.mk.injEq] at hrec
      obtain ⟨_, -, _, -, rfl, -⟩ := hrec
      exact a1
    · simp only [recvII, Outcome.bind_eq_ok, Outcome.pure_eq, Outcome.ok.injEq, Prod.mk.injEq] at hrec
      obtain ⟨o', ho', _, -, rfl, -⟩ := hrec
      simp only [msgTwo, Outcome.bind_eq_ok, Outcome.pure_eq, Outcome.ok.injEq] at hm2
      obtain ⟨out, -, ns, hns, rfl⟩ := hm2
      rw [a2, o0] at ho'
      refine Outcome.ok.inj (ho'.symm.trans (recvUpdate_map (m' := ⟨d.coins.hsh1, labelNodes (fun i j (y : Nat) => (Slot.tree n i j 0, (y : Int))) d.coins.pads1 r1.update⟩) rfl ?_ hD.copy1))
      show List.Forall₂ _ ns _
      rw [g2] at hns
      obtain ⟨l1, l2⟩ := View.forIdx_get _ _ _ hns
      rw [List.length_map] at l1
      refine List.forall₂_iff_get.2 ⟨l1, fun i h1 h2 => ?_⟩
      have h3 := l2 i (by simpa using h2) h1
      obtain ⟨k1, k2⟩ := View.forIdx_get _ _ _ h3
      rw [List.length_range, List.getElem_map] at k1
      refine List.forall₂_iff_get.2 ⟨k1, fun j h4 h5 => ?_⟩
      have h6 := k2 j (by rw [List.length_range, List.getElem_map]; exact h5) h4
      simp only [Nat.zero_add] at h6
      have h7 := (serNoPayload_ok h6).2
      simp only [List.get_eq_getElem] at h2 h5 ⊢
      refine h7.trans ?_
      rw [g4 i j _ _ (List.getElem?_eq_getElem h2) (List.getElem?_eq_getElem h5)]
      simp only [labelNodes, List.getElem_mapIdx]

/-- Only the listed ciphertexts matter. -/
theorem viewC_congr {c : Codec G} {hashOf : Nat → List Bool} {pk : PK G} {sizes : Nat → List Nat} {N : Nat → Nat} {ct ct' : Slot → Ct G}
    (days : List (DayIn G Nat Unit)) : ∀ (n : Nat) (got : List ProtoMsg) (s0 : St0 G Nat),
    (∀ m k : Nat, m < days.length → k < N (n + m) → ct (.cand (n + m) k 0) = ct' (.cand (n + m) k 0)) →
    (∀ m i j : Nat, m < days.length → j < (sizes (n + m)).getD i 0 → ct (.tree (n + m) i j 0) = ct' (.tree (n + m) i j 0)) →
    viewC c hashOf pk sizes N ct n got s0 days = viewC c hashOf pk sizes N ct' n got s0 days := by
  induction days with
  | nil => intros; rfl
  | cons d ds ih =>
    intro n got s0 hC hT
    have hm : msgTwo c ct n d.coins.hsh1 (sizes n) (N n) = msgTwo c ct' n d.coins.hsh1 (sizes n) (N n) := by
      have h1 : forIdx (fun k (_ : Nat) => serNoPayload c (ct (.cand n k 0))) 0 (List.range (N n)) =
          forIdx (fun k (_ : Nat) => serNoPayload c (ct' (.cand n k 0))) 0 (List.range (N n)) := by
        refine forIdx_congr2 _ _ 0 rfl fun k a a' ha _ => ?_
        have hk := (List.getElem?_eq_some_iff.1 ha).1
        rw [List.length_range] at hk
        rw [Nat.zero_add]
        have := hC 0 k (by simp) hk
        rw [Nat.add_zero] at this
        rw [this]
      have h2 : forIdx (fun i m => forIdx (fun j (_ : Nat) => serNoPayload c (ct (.tree n i j 0))) 0 (List.range m)) 0 (sizes n) =
          forIdx (fun i m => forIdx (fun j (_ : Nat) => serNoPayload c (ct' (.tree n i j 0))) 0 (List.range m)) 0 (sizes n) := by
        refine forIdx_congr2 _ _ 0 rfl fun i a a' ha ha' => ?_
        obtain rfl : a = a' := Option.some.inj (ha.symm.trans ha')
        refine forIdx_congr2 _ _ 0 rfl fun j b b' hb _ => ?_
        have hj := (List.getElem?_eq_some_iff.1 hb).1
        rw [List.length_range] at hj
        simp only [Nat.zero_add]
        have := hT 0 i j (by simp) (by rw [Nat.add_zero, List.getD_eq_getElem?_getD, ha]; exact hj)
        rw [Nat.add_zero] at this
        rw [this]
      rw [msgTwo, msgTwo, h1, h2]
    rw [viewC, viewC, hm]
    refine after_congr _ _ ?_
    rintro ⟨s0', msg⟩ -
    refine after_congr _ _ fun m2 _ => after_congr _ _ ?_
    rintro ⟨s0'', cands⟩ -
    refine ih _ _ _ (fun m k hm hk => ?_) (fun m i j hm hj => ?_)
    · have := hC (m + 1) k (by simpa using hm) (by rwa [show n + (m + 1) = n + 1 + m by omega])
      rwa [show n + (m + 1) = n + 1 + m by omega] at this
    · have := hT (m + 1) i j (by simpa using hm) (by rwa [show n + (m + 1) = n + 1 + m by omega])
      rwa [show n + (m + 1) = n + 1 + m by omega] at this

/-- Made of the same ciphertexts, the views are the same. -/
theorem viewC_same {c : Codec G} {hashOf : Nat → List Bool} {pk : PK G} {sizes : Nat → List Nat} {N : Nat → Nat} {ct : Slot → Ct G}
    {days days' : List (DayIn G Nat Unit)} (h : List.Forall₂ SameZero days days') : ∀ (n : Nat) (got : List ProtoMsg) (s0 : St0 G Nat),
    viewC c hashOf pk sizes N ct n got s0 days = viewC c hashOf pk sizes N ct n got s0 days' := by
  induction h with
  | nil => intros; rfl
  | @cons d d' ds ds' h1 _ ih =>
    intro n got s0
    have hg : genI (funcCA c) hashOf pk s0 d.xs d.coins = genI (funcCA c) hashOf pk s0 d'.xs d'.coins := by
      have : candI (funcCA c) hashOf pk s0.other d.coins = candI (funcCA c) hashOf pk s0.other d'.coins := by
        funext i p
        simp only [candI, h1.x0, h1.rr]
      rw [genI, genI, this, h1.xs, h1.hsh0, h1.pads0, h1.enc0]
    rw [viewC, viewC, hg, h1.hsh1]
    refine after_congr _ _ ?_
    rintro ⟨s0', msg⟩ -
    refine after_congr _ _ fun m2 _ => after_congr _ _ ?_
    rintro ⟨s0'', cands⟩ -
    exact ih _ _ _

end Upsi.Hide
