import Verif.View.OgModel
/- C67: proofs. -/
namespace Upsi.View
open Upsi Upsi.ElGamal Upsi.Tree Upsi.Num Upsi.Proto

/-! ### counting -/

theorem draws_congr {X W : Type} [Fintype X] [DecidableEq W] {f f' : X → W} {w : W} (h : ∀ x, f x = f' x) : draws f w = draws f' w := by
  rw [show f = f' from funext h]

theorem draws_ok {X W : Type} [Fintype X] [DecidableEq W] {f : X → Outcome W} {f' : X → W} {w : W} (h : ∀ x, f x = .ok (f' x)) :
    draws f (.ok w) = draws f' w := by
  unfold draws
  refine Fintype.card_congr (Equiv.subtypeEquivRight fun x => ?_)
  rw [h]
  exact ⟨Outcome.ok.inj, congrArg _⟩

theorem draws_ok_le {X W : Type} [Fintype X] [DecidableEq W] {f : X → Outcome W} {f' : X → W} {w : W}
    (h : ∀ x r, f x = .ok r → r = f' x) : draws f (.ok w) ≤ draws f' w := by
  unfold draws
  exact Fintype.card_le_of_injective (fun x => (⟨x.1, (h x.1 w x.2).symm⟩ : {x // f' x = w}))
    (fun x y e => Subtype.ext (congrArg (fun z => z.1) e))

theorem draws_equiv {X Y W : Type} [Fintype X] [Fintype Y] [DecidableEq W] (e : X ≃ Y) (f : Y → W) (w : W) :
    draws (fun x => f (e x)) w = draws f w := by
  unfold draws
  exact Fintype.card_congr (e.subtypeEquiv fun x => Iff.rfl)

/-- Rows drawn independently: equal numbers per row give equal numbers for the list of rows. -/
theorem draws_pi {n : Nat} {K K' : Fin n → Type} [∀ i, Fintype (K i)] [∀ i, Fintype (K' i)] {W : Type} [DecidableEq W]
    {f : ∀ i, K i → W} {f' : ∀ i, K' i → W} (h : ∀ i w, draws (f i) w = draws (f' i) w) (ws : List W) :
    draws (fun x : ∀ i, K i => List.ofFn fun i => f i (x i)) ws = draws (fun x : ∀ i, K' i => List.ofFn fun i => f' i (x i)) ws := by
  unfold draws
  by_cases hw : ws.length = n
  · subst hw
    have e : ∀ g : Fin ws.length → W, List.ofFn g = ws ↔ ∀ i, g i = ws[i] := fun g => by
      have e0 : List.ofFn (fun i : Fin ws.length => ws[i]) = ws := List.ofFn_getElem
      exact ⟨fun hg i => congrFun (List.ofFn_inj.1 (hg.trans e0.symm)) i, fun hg => by rw [funext hg]; exact e0⟩
    have hc : ∀ (K : Fin ws.length → Type) [∀ i, Fintype (K i)] (f : ∀ i, K i → W),
        Fintype.card {x : ∀ i, K i // List.ofFn (fun i => f i (x i)) = ws} = ∏ i, Fintype.card {k : K i // f i k = ws[i]} := by
      intro K _ f
      have e1 : Fintype.card {x : ∀ i, K i // List.ofFn (fun i => f i (x i)) = ws} =
          Fintype.card {x : ∀ i, K i // ∀ i, f i (x i) = ws[i]} :=
        Fintype.card_congr (Equiv.subtypeEquivRight fun x => e (fun i => f i (x i)))
      rw [e1, Fintype.card_congr (Equiv.subtypePiEquivPi (p := fun i k => f i k = ws[i])), Fintype.card_pi]
    rw [hc, hc]
    exact Finset.prod_congr rfl fun i _ => h i _
  · rw [Fintype.card_eq_zero_iff.2 ⟨fun x => hw (by rw [← x.2, List.length_ofFn])⟩,
      Fintype.card_eq_zero_iff.2 ⟨fun x => hw (by rw [← x.2, List.length_ofFn])⟩]

variable {G : Type} [AddCommGroup G] [DecidableEq G]

/-- Masks applied before the shuffle. -/
theorem draws_masked (S : Setup G) {N : Nat} (D : Fin N → G) {M : Nat} (hM : Fintype.card {j // D j = 0} = M) (w : List G) :
    draws (fun x : (Fin N → Fin (S.q - 1)) × Equiv.Perm (Fin N) => List.ofFn fun k => maskOf (x.1 (x.2 k)) • D (x.2 k)) w =
      draws (idealView S.g S.q N M) w := by
  let e : ((Fin N → Fin (S.q - 1)) × Equiv.Perm (Fin N)) ≃ ((Fin N → Fin (S.q - 1)) × Equiv.Perm (Fin N)) :=
    ⟨fun x => (fun k => x.1 (x.2 k), x.2), fun x => (fun k => x.1 (x.2.symm k), x.2), fun x => by simp, fun x => by simp⟩
  have h1 := draws_equiv e (fun x => List.ofFn (observe (masked (q := S.q)) D x)) w
  have h2 := observe_masked S D hM w
  rw [show draws (idealView S.g S.q N M) w = ways (idealView S.g S.q N M) w from rfl, ← h2]
  exact h1

/-! ### the day, step by step -/

/-- Every loop that completes has, position by position, completed. -/
theorem forIdx_ok_iff {α β : Type} {f : Nat → α → Outcome β} {l : List α} {n : Nat} (hn : l.length = n) {g : Fin n → β}
    (h : ∀ k : Fin n, f k (l[(k : Nat)]'(hn.symm ▸ k.isLt)) = .ok (g k)) : forIdx f 0 l = .ok (List.ofFn g) := by
  subst hn
  obtain ⟨bs, hbs⟩ := forIdx_total (f := f) l 0 (fun k hk => ⟨_, by rw [Nat.zero_add]; exact h ⟨k, hk⟩⟩)
  rw [hbs]
  obtain ⟨h1, h2⟩ := View.forIdx_get _ _ _ hbs
  congr 1
  refine List.ext_getElem (by simp [h1]) fun k hk hk' => ?_
  have := h2 k (h1 ▸ hk) hk
  rw [Nat.zero_add, h ⟨k, h1 ▸ hk⟩] at this
  rw [List.getElem_ofFn]
  exact (Outcome.ok.inj this).symm

/-- The inputs of a day of the original protocol: what party one's tree holds on the paths party zero asks for. -/
structure OgSteps (S : Setup G) (c cu : Codec G) (H : Nat → G) (hashOf : Nat → List Bool) (s : OgSt G) (d : OgDay G)
    (inter : Nat → Bool) where
  p1 : Og1
  m1 : OgMsgI
  tree : Upsi.Tree.Tree (Ct G)
  out : List Nat
  al : CtProto
  cands : List (List EncElem)
  paths : Fin d.xs.length → List (Ct G)
  hI : ogSendI c H hashOf S.og.pk1 S.og.b s.p1 d.ys d.coins = .ok (p1, m1)
  hupd : recvUpdate (deserTreeCt c) s.p0.tree m1.updates = .ok tree
  hout : ogLookup c cu S.og.a s.p0.mapping m1.ciphertexts s.p0.intersection = .ok out
  hal : serializeCt c (encryptPoint S.og.pk0 d.coins.a0 d.coins.hr) = .ok al
  hal' : deserializeCt c al = .ok (encryptPoint S.og.pk0 d.coins.a0 d.coins.hr)
  hcands : forIdx (ogCand c hashOf S.og.pk1 tree (encryptPoint S.og.pk1 d.coins.a1 d.coins.hr) d.coins) 0 d.xs = .ok cands
  m3 : List (List EncElem)
  hm3 : forIdx (ogSet c S.og.pk0 S.og.b (invert (encryptPoint S.og.pk0 d.coins.a0 d.coins.hr)) d.coins) 0 cands = .ok m3
  r4 : Og0 G × List (List UInt8)
  hIV : ogSendIV c H S.og.a ⟨tree, s.p0.mapping, out, s.p0.masks⟩ m3 d.xs d.coins = .ok r4
  hpath : ∀ i, getPath tree (hashOf d.xs[i]) = .ok (paths i)
  /-- a candidate matches iff it encrypts the element -/
  hcount : ∀ i, Fintype.card {j : Fin (paths i).length // decrypt S.sk1 (paths i)[j] = (d.xs[i] : Int) • S.g} =
    if inter d.xs[i] then 1 else 0

theorem card_forall₂ {α β : Type} {R : α → β → Prop} {l : List α} {m : List β} (h : List.Forall₂ R l m) (p : α → Bool) (r : β → Prop)
    [DecidablePred r] (hr : ∀ a b, R a b → (r b ↔ p a = true)) :
    Fintype.card {j : Fin m.length // r m[j]} = (l.filter p).length := by
  have h1 : Fintype.card {j : Fin m.length // r m[j]} = (m.filter (fun b => decide (r b))).length := by
    have := card_ofFn (fun j : Fin m.length => decide (r m[j])) true
    rw [Fintype.card_congr (Equiv.subtypeEquivRight fun j : Fin m.length => (decide_eq_true_iff (p := r m[j])).symm), this]
    have e : List.ofFn (fun j : Fin m.length => decide (r m[j])) = m.map (fun b => decide (r b)) := by
      refine List.ext_getElem (by simp) fun k hk hk' => by simp
    rw [e, List.count_eq_length_filter, List.filter_map, List.length_map]
    congr 1
    exact List.filter_congr fun x _ => by simp
  rw [h1]
  induction h with
  | nil => rfl
  | @cons a b l m hab _ ih =>
    have ih := ih (by
      have := card_ofFn (fun j : Fin m.length => decide (r m[j])) true
      rw [Fintype.card_congr (Equiv.subtypeEquivRight fun j : Fin m.length => (decide_eq_true_iff (p := r m[j])).symm), this]
      have e : List.ofFn (fun j : Fin m.length => decide (r m[j])) = m.map (fun b => decide (r b)) := by
        refine List.ext_getElem (by simp) fun k hk hk' => by simp
      rw [e, List.count_eq_length_filter, List.filter_map, List.length_map]
      congr 1
      exact List.filter_congr fun x _ => by simp)
    have := hr a b hab
    by_cases hp : p a = true
    · rw [List.filter_cons_of_pos (by simpa using this.2 hp), List.filter_cons_of_pos hp, List.length_cons, List.length_cons, ih]
    · rw [List.filter_cons_of_neg (by simpa using fun h => hp (this.1 h)), List.filter_cons_of_neg hp, ih]

/-- The steps of a completed day. -/
theorem og_steps {S : Setup G} {c cu : Codec G}
    {H : Nat → G} {hashOf : Nat → List Bool} (hh : ∀ e, (hashOf e).length = 256) {B : Nat}
    (hB : B ≤ S.q) {X Y : List Nat} {s s' : OgSt G} {d : OgDay G}
    (hI : OgInv S cu H hashOf B X Y s) (hρ : d.coins.WF S B d.ys)
    (hX : ∀ x ∈ X ++ d.xs, x < B) (hY : ∀ y ∈ Y ++ d.ys, y < B) (hdY : (Y ++ d.ys).Nodup)
    (hsz : (Y ++ d.ys).length < 2 ^ 30)
    (h : dayOg S.og c cu H hashOf s d.xs d.ys d.coins = .ok s') :
    Nonempty (OgSteps S c cu H hashOf s d (fun x => x ∈ Y ++ d.ys ∧ x ∉ s'.p1.lost)) := by
  simp only [dayOg, ogSendI, ogSendII, ogSendIII, Outcome.bind_eq_ok,
    Outcome.pure_eq, Outcome.ok.injEq] at h
  obtain ⟨⟨p1, m1⟩, ⟨u, hu, cs, hcs, e1⟩, ⟨p0, m2⟩, ⟨tree, htree, out, hout, al, hal, cands, hcands, e2⟩,
    m3, ⟨al', hal', hm3⟩, ⟨p0', m4⟩, hIV, m5, _, p0'', _, rfl⟩ := h
  obtain ⟨rfl, rfl⟩ := Prod.mk.inj e1
  obtain ⟨rfl, rfl⟩ := Prod.mk.inj e2
  simp only [List.length_append] at hsz
  have hh' : ∀ e, 256 ≤ (hashOf e).length := fun e => by rw [hh e]
  obtain ⟨a1, a2, a3⟩ := mirror_step (PostOK.id _) hh' hρ.pads hI.wf hI.mir
    hρ.hsh (by rw [hI.size]; omega) (fun i j y _ w x hw hx => by
      obtain ⟨p, hp, rfl⟩ := serNoPayload_inv c hw
      rw [serializeCt_deser c hp hx]
      simp only [decrypt, encrypt, encryptPoint, Setup.og, OgKeys.pk1]; module) hu htree
  have a4 := sendUpdate_all hh' hI.wf hρ.hsh (by rw [hI.size]; omega) hu
  have a5 : (u.tree.contents ++ (s.p1.lost ++ u.lost)).Perm (Y ++ d.ys) := by
    have : (u.tree.contents ++ (s.p1.lost ++ u.lost)).Perm ((u.tree.contents ++ u.lost) ++ s.p1.lost) := by
      rw [List.append_assoc]; exact List.Perm.append_left _ List.perm_append_comm
    refine this.trans ((a4.append_right _).trans ?_)
    have : ((s.p1.tree.contents ++ d.ys) ++ s.p1.lost).Perm ((s.p1.tree.contents ++ s.p1.lost) ++ d.ys) := by
      rw [List.append_assoc, List.append_assoc]; exact List.Perm.append_left _ List.perm_append_comm
    exact this.trans (hI.all.append_right _)
  have hcB : ∀ y ∈ u.tree.contents, y < B := fun y hy => hY y (a5.subset (by simp [hy]))
  have hnd := a5.nodup_iff.2 hdY
  obtain rfl := serializeCt_deser c hal hal'
  have hp : ∀ i : Fin d.xs.length, ∃ path, getPath tree (hashOf d.xs[i]) = .ok path := by
    intro i
    have h1 := (View.forIdx_get _ _ _ hcands)
    have := h1.2 i i.isLt (lt_of_lt_of_eq i.isLt h1.1.symm)
    simp only [ogCand, Outcome.bind_eq_ok] at this
    obtain ⟨path, hpath, _⟩ := this
    exact ⟨path, hpath⟩
  choose paths hpaths using hp
  refine ⟨⟨⟨u.tree, s.p1.lost ++ u.lost⟩, ⟨u.msg, cs⟩, tree, out, al, cands, paths, ?_, htree, hout, hal, hal', hcands, m3, hm3, _, hIV, hpaths, fun i => ?_⟩⟩
  · simp only [ogSendI, hu, hcs, Outcome.bind_ok, Outcome.pure_eq]
  · have hxB : d.xs[i] < B := hX _ (by rw [List.mem_append]; exact Or.inr (List.getElem_mem _))
    obtain ⟨l, k1, k2, k3⟩ := path_mirror (key := id) hh a1 a3 hB hcB hxB (hpaths i)
    have k1' : List.Forall₂ (fun (y : Nat) ct => y < S.q ∧ decrypt S.sk1 ct = (y : Int) • S.g) l (paths i) :=
      forall₂_mono k1 (fun y hy ct h => ⟨k2 y hy, h⟩)
    rw [card_forall₂ k1' (fun y => decide (y = d.xs[i])) (fun ct => decrypt S.sk1 ct = (d.xs[i] : Int) • S.g) (fun y ct ⟨hy, e⟩ => by
      rw [e, decide_eq_true_iff, ← S.smul_eq_iff hy (lt_of_lt_of_le hxB hB), sub_eq_zero])]
    have k4 := k3.length_eq
    simp only [id] at k4
    rw [k4]
    have hnc : u.tree.contents.Nodup := (List.nodup_append.1 hnd).1
    have e : (u.tree.contents.filter (fun a => decide (a = d.xs[i]))).length = u.tree.contents.count d.xs[i] := by
      rw [List.count_eq_length_filter]
      exact congrArg _ (List.filter_congr fun x _ => by rw [beq_eq_decide])
    rw [e, hnc.count]
    have hm : d.xs[i] ∈ u.tree.contents ↔ (d.xs[i] ∈ Y ++ d.ys ∧ d.xs[i] ∉ s.p1.lost ++ u.lost) := by
      have h1 := a5.mem_iff (a := d.xs[i])
      have h2 := (List.nodup_append.1 hnd).2.2
      constructor
      · intro hc
        exact ⟨h1.1 (List.mem_append.2 (Or.inl hc)), fun hl => h2 _ hc _ hl rfl⟩
      · rintro ⟨b1, b2⟩
        have := h1.2 b1
        rw [List.mem_append] at this
        tauto
    simp only [hm, decide_eq_true_eq]

theorem serNoPayload_ok_iff (c : Codec G) (x : Ct G) : (∃ w, serNoPayload c x = .ok w) ↔ x.u ≠ 0 ∧ x.e ≠ 0 := by
  rw [← serializeCt_ok_iff c]
  constructor
  · rintro ⟨w, hw⟩
    obtain ⟨p, hp, _⟩ := serNoPayload_inv c hw
    exact ⟨p, hp⟩
  · rintro ⟨p, hp⟩
    exact ⟨.noPayload p, by simp only [serNoPayload, hp, Outcome.bind_ok, Outcome.pure_eq]⟩

/-- A list of ciphertexts without points at infinity is sent and read back. -/
theorem send_read (c : Codec G) (l : List (Ct G)) (h : ∀ x ∈ l, x.u ≠ 0 ∧ x.e ≠ 0) :
    ∃ ws, forIdx (fun _ x => serNoPayload c x) 0 l = .ok ws ∧ forIdx (fun _ w => deserNoPayload c w) 0 ws = .ok l := by
  obtain ⟨ws, hws⟩ := forIdx_total (f := fun _ x => serNoPayload c x) l 0
    (fun k hk => (serNoPayload_ok_iff c _).2 (h _ (List.getElem_mem hk)))
  obtain ⟨h1, h2⟩ := View.forIdx_get _ _ _ hws
  obtain ⟨l', hl'⟩ := forIdx_total (f := fun _ w => deserNoPayload c w) ws 0 (fun k hk => by
    obtain ⟨p, hp, hw⟩ := serNoPayload_inv c (h2 k (h1 ▸ hk) hk)
    obtain ⟨p', hp', hd⟩ := (C29_wire c _).1 ((serializeCt_ok_iff c _).1 ⟨p, hp⟩)
    rw [hp] at hp'
    obtain rfl := Outcome.ok.inj hp'
    exact ⟨_, by rw [hw]; exact hd⟩)
  exact ⟨ws, hws, by rw [hl', roundtrip_list c l hws hl']⟩

section
variable {S : Setup G} {c cu : Codec G} {H : Nat → G} {hashOf : Nat → List Bool} {s : OgSt G} {d : OgDay G} {inter : Nat → Bool}

/-- The candidates of message II. -/
def OgSteps.ct (st : OgSteps S c cu H hashOf s d inter) (ρ : OgCoins G) (i : Fin d.xs.length) (j : Fin (st.paths i).length) : Ct G :=
  mul (encryptPoint S.og.pk1 ρ.a1 ρ.hr) (exp (mul (encrypt S.og.pk1 (ρ.x i) d.xs[i]) (invert (st.paths i)[j])) (ρ.beta i j))

theorem OgSteps.read (st : OgSteps S c cu H hashOf s d inter) (i : Fin d.xs.length) :
    ∃ ws, st.cands[(i : Nat)]? = some ws ∧ forIdx (fun _ w => deserNoPayload c w) 0 ws = .ok (List.ofFn (st.ct d.coins i)) ∧
      ∀ j, (st.ct d.coins i j).u ≠ 0 ∧ (st.ct d.coins i j).e ≠ 0 := by
  obtain ⟨h1, h2⟩ := View.forIdx_get _ _ _ st.hcands
  have hi : (i : Nat) < st.cands.length := lt_of_lt_of_eq i.isLt h1.symm
  have h3 := h2 i i.isLt hi
  simp only [ogCand, Outcome.bind_eq_ok, Nat.zero_add] at h3
  obtain ⟨path, hp, h3⟩ := h3
  obtain rfl := Outcome.ok.inj ((st.hpath i).symm.trans hp)
  obtain ⟨h4, h5⟩ := View.forIdx_get _ _ _ h3
  have h6 : ∀ j, (st.ct d.coins i j).u ≠ 0 ∧ (st.ct d.coins i j).e ≠ 0 := fun j => by
    have := h5 j j.isLt (lt_of_lt_of_eq j.isLt h4.symm)
    rw [Nat.zero_add] at this
    exact (serNoPayload_ok_iff c _).1 ⟨_, this⟩
  refine ⟨_, List.getElem?_eq_getElem hi, ?_, h6⟩
  obtain ⟨ws, hws, hrd⟩ := send_read c (List.ofFn (st.ct d.coins i)) (fun x hx => by
    obtain ⟨j, rfl⟩ := (List.mem_ofFn' _ _).1 hx
    exact h6 j)
  have : ws = st.cands[(i : Nat)] := by
    obtain ⟨k1, k2⟩ := View.forIdx_get _ _ _ hws
    refine List.ext_getElem (by rw [k1, h4, List.length_ofFn]) fun k hk hk' => ?_
    have hk2 : k < (List.ofFn (st.ct d.coins i)).length := k1 ▸ hk
    have e1 := k2 k hk2 hk
    have e2 := h5 k (by simpa using hk2) hk'
    rw [List.getElem_ofFn] at e1
    rw [Nat.zero_add] at e2
    exact Outcome.ok.inj (e1.symm.trans e2)
  rw [← this]; exact hrd

/-- The difference party zero's candidate `j` of set `i` hides: `beta (x - y)`. -/
def OgSteps.diff (st : OgSteps S c cu H hashOf s d inter) (i : Fin d.xs.length) (j : Fin (st.paths i).length) : G :=
  (d.xs[i] : Int) • S.g - decrypt S.sk1 (st.paths i)[j]

theorem OgSteps.dec_ct (st : OgSteps S c cu H hashOf s d inter) (ρ : OgCoins G) (i : Fin d.xs.length) (j : Fin (st.paths i).length) :
    decrypt S.sk1 (st.ct ρ i j) = ρ.hr + ρ.beta i j • st.diff i j := by
  simp only [OgSteps.ct, OgSteps.diff, decrypt, mul, exp, invert, encrypt, encryptPoint, OgKeys.pk1, Setup.og]
  module

/-- Party one's answer to a candidate before masking. -/
def OgSteps.answer (st : OgSteps S c cu H hashOf s d inter) (i : Fin d.xs.length) (j : Fin (st.paths i).length) : Ct G :=
  mul (encryptPoint S.og.pk0 (d.coins.re i j) (decrypt S.sk1 (st.ct d.coins i j))) (invert (encryptPoint S.og.pk0 d.coins.a0 d.coins.hr))

theorem OgSteps.dec_answer (st : OgSteps S c cu H hashOf s d inter) (i : Fin d.xs.length) (j : Fin (st.paths i).length) (k : Int) :
    decrypt S.sk0 (exp (st.answer i j) k) = k • d.coins.beta i j • st.diff i j := by
  rw [OgSteps.answer, st.dec_ct]
  simp only [decrypt, mul, exp, invert, encryptPoint, OgKeys.pk0, Setup.og]
  module

theorem OgSteps.set_eq (st : OgSteps S c cu H hashOf s d inter) (ρ : OgCoins G) (i : Fin d.xs.length) {ws : List EncElem}
    (h : forIdx (fun _ w => deserNoPayload c w) 0 ws = .ok (List.ofFn (st.ct d.coins i))) (hre : ρ.re = d.coins.re) :
    ogSet c S.og.pk0 S.og.b (invert (encryptPoint S.og.pk0 d.coins.a0 d.coins.hr)) ρ i ws =
      forIdx (fun _ x => serNoPayload c x) 0 (ρ.shuffle i (List.ofFn fun j => exp (st.answer i j) (ρ.gamma i j))) := by
  simp only [ogSet, h, Outcome.bind_ok, hre]
  congr 2
  refine List.ext_getElem (by simp) fun k hk hk' => ?_
  rw [List.getElem_mapIdx, List.getElem_ofFn, List.getElem_ofFn]
  rfl

theorem exp_ok_iff {S : Setup G} {x : Ct G} {k : Int} (hk : NonZero S k) : ((exp x k).u ≠ 0 ∧ (exp x k).e ≠ 0) ↔ (x.u ≠ 0 ∧ x.e ≠ 0) := by
  simp only [exp, Ne, S.smul_zero_iff hk]

theorem OgSteps.answer_ok (st : OgSteps S c cu H hashOf s d inter) (hsh : ∀ i l, (d.coins.shuffle i l).Perm l)
    (hg : ∀ i j, NonZero S (d.coins.gamma i j)) (i : Fin d.xs.length) (j : Fin (st.paths i).length) :
    (st.answer i j).u ≠ 0 ∧ (st.answer i j).e ≠ 0 := by
  obtain ⟨ws, hws, hrd, _⟩ := st.read i
  obtain ⟨h1, h2⟩ := Proto.forIdx_get _ _ _ st.hm3
  obtain ⟨ws', hws', h3⟩ := h2 i ws hws
  rw [Nat.zero_add, st.set_eq d.coins i hrd rfl] at h3
  obtain ⟨h4, h5⟩ := View.forIdx_get _ _ _ h3
  have hm : exp (st.answer i j) (d.coins.gamma i j) ∈ d.coins.shuffle i (List.ofFn fun j => exp (st.answer i j) (d.coins.gamma i j)) :=
    (hsh _ _).mem_iff.2 ((List.mem_ofFn' _ _).2 ⟨j, rfl⟩)
  obtain ⟨k, hk, he⟩ := List.mem_iff_getElem.1 hm
  have := h5 k hk (h4 ▸ hk)
  rw [he] at this
  exact (exp_ok_iff (hg i j)).1 ((serNoPayload_ok_iff c _).1 ⟨_, this⟩)

theorem getElem?_some_lt {α : Type} {l : List α} {i : Nat} {a : α} (h : l[i]? = some a) : ∃ hi : i < l.length, l[i] = a :=
  List.getElem?_eq_some_iff.1 h

/-- Party zero's plaintexts of message III on a redrawn day. -/
theorem plainIII_redraw (st : OgSteps S c cu H hashOf s d inter) (hsh : ∀ i l, (d.coins.shuffle i l).Perm l)
    (hg : ∀ i j, NonZero S (d.coins.gamma i j))
    (x : ∀ i : Fin d.xs.length, (Fin (st.paths i).length → Fin (S.q - 1)) × Equiv.Perm (Fin (st.paths i).length)) :
    plainIII S.og c cu H hashOf s (redrawIII d x) =
      .ok (List.ofFn fun i => List.ofFn fun k => maskOf ((x i).1 ((x i).2 k)) • d.coins.beta i ((x i).2 k) • st.diff i ((x i).2 k)) := by
  have hI : ogSendI c H hashOf S.og.pk1 S.og.b s.p1 (redrawIII d x).ys (redrawIII d x).coins = .ok (st.p1, st.m1) := st.hI
  have hII : ogSendII c cu hashOf S.og.pk0 S.og.pk1 S.og.a s.p0 st.m1 (redrawIII d x).xs (redrawIII d x).coins =
      .ok (⟨st.tree, s.p0.mapping, st.out, s.p0.masks⟩, ⟨st.al, st.cands⟩) := by
    have h1 : serializeCt c (encryptPoint S.og.pk0 (redrawIII d x).coins.a0 (redrawIII d x).coins.hr) = .ok st.al := st.hal
    have h2 : forIdx (ogCand c hashOf S.og.pk1 st.tree (encryptPoint S.og.pk1 (redrawIII d x).coins.a1 (redrawIII d x).coins.hr)
      (redrawIII d x).coins) 0 (redrawIII d x).xs = .ok st.cands := st.hcands
    simp only [ogSendII, st.hupd, st.hout, h1, h2, Outcome.bind_ok, Outcome.pure_eq]
  simp only [plainIII, hI, hII, Outcome.bind_ok]
  have hlen : st.cands.length = d.xs.length := (View.forIdx_get _ _ _ st.hcands).1
  have hset : ∀ i : Fin d.xs.length, ∃ ws, ogSet c S.og.pk0 S.og.b (invert (encryptPoint S.og.pk0 d.coins.a0 d.coins.hr)) (redrawIII d x).coins i
      (st.cands[(i : Nat)]'(hlen.symm ▸ i.isLt)) = .ok ws ∧
      forIdx (fun _ w => deserNoPayload c w) 0 ws =
        .ok (List.ofFn fun k => exp (st.answer i ((x i).2 k)) (maskOf ((x i).1 ((x i).2 k)))) := by
    intro i
    obtain ⟨ws, hws, hrd, _⟩ := st.read i
    obtain ⟨hi, rfl⟩ := getElem?_some_lt hws
    rw [st.set_eq (redrawIII d x).coins i hrd rfl]
    have e : (redrawIII d x).coins.shuffle i (List.ofFn fun j => exp (st.answer i j) ((redrawIII d x).coins.gamma i j)) =
        List.ofFn fun k => exp (st.answer i ((x i).2 k)) (maskOf ((x i).1 ((x i).2 k))) := by
      have e1 : (redrawIII d x).coins.shuffle i = permuteBy (x i).2 := by
        simp only [redrawIII, dif_pos i.isLt]
      rw [e1, permuteBy, dif_pos (List.length_ofFn)]
      congr 1
      funext k
      rw [List.getElem_ofFn]
      simp only [redrawIII, grid, dif_pos i.isLt, dif_pos ((x i).2 k).isLt, Fin.eta]
    rw [e]
    refine send_read c _ fun y hy => ?_
    obtain ⟨k, rfl⟩ := (List.mem_ofFn' _ _).1 hy
    exact (exp_ok_iff (mask_pos _)).2 (st.answer_ok hsh hg i _)
  choose ws hws hrd using hset
  have hIII : ogSendIII c S.og.pk0 S.og.b ⟨st.al, st.cands⟩ (redrawIII d x).coins = .ok (List.ofFn ws) := by
    simp only [ogSendIII, st.hal', Outcome.bind_ok]
    exact forIdx_ok_iff hlen hws
  simp only [hIII, Outcome.bind_ok, openSets]
  refine forIdx_ok_iff (List.length_ofFn) fun i => ?_
  have e : (List.ofFn ws)[(i : Nat)]'(by simp) = ws i := by simp
  rw [e, hrd, Outcome.bind_ok, Outcome.pure_eq]
  congr 1
  rw [List.map_ofFn]
  congr 1
  funext k
  exact st.dec_answer i _ _

/-- What party one decrypts from message II on a redrawn day. -/
theorem plainII_redraw (st : OgSteps S c cu H hashOf s d inter) (x : ∀ i : Fin d.xs.length, Fin (st.paths i).length → Fin (S.q - 1))
    {r : List (List G)} (h : plainII S.og c cu H hashOf s (redrawII d x) = .ok r) :
    r = List.ofFn fun i => List.ofFn fun j => d.coins.hr + maskOf (x i j) • st.diff i j := by
  have hI : ogSendI c H hashOf S.og.pk1 S.og.b s.p1 (redrawII d x).ys (redrawII d x).coins = .ok (st.p1, st.m1) := st.hI
  have h1 : serializeCt c (encryptPoint S.og.pk0 (redrawII d x).coins.a0 (redrawII d x).coins.hr) = .ok st.al := st.hal
  simp only [plainII, hI, Outcome.bind_ok, ogSendII, st.hupd, st.hout, h1, Outcome.bind_eq_ok, Outcome.pure_eq, Outcome.ok.injEq] at h
  obtain ⟨p, ⟨cands, hc, rfl⟩, h⟩ := h
  obtain ⟨a1, a2⟩ := View.forIdx_get _ _ _ hc
  obtain ⟨b1, b2⟩ := View.forIdx_get _ _ _ h
  have a1' : cands.length = d.xs.length := a1
  refine List.ext_getElem (by rw [b1, List.length_ofFn]; exact a1) fun i hi hi' => ?_
  have hix : i < d.xs.length := by simpa using hi'
  have hic : i < cands.length := a1'.symm ▸ hix
  have e1 : ogCand c hashOf S.og.pk1 st.tree (encryptPoint S.og.pk1 d.coins.a1 d.coins.hr) (redrawII d x).coins (0 + i) d.xs[i] =
    .ok cands[i] := a2 i hix hic
  have e2 := b2 i hic hi
  rw [Nat.zero_add] at e1
  have hp : getPath st.tree (hashOf d.xs[i]) = .ok (st.paths ⟨i, hix⟩) := st.hpath ⟨i, hix⟩
  simp only [ogCand, hp, Outcome.bind_ok] at e1
  simp only [Outcome.bind_eq_ok, Outcome.pure_eq, Outcome.ok.injEq] at e2
  obtain ⟨cts, e3, e4⟩ := e2
  rw [← e4, List.getElem_ofFn]
  obtain ⟨f1, f2⟩ := View.forIdx_get _ _ _ e1
  obtain ⟨g1, g2⟩ := View.forIdx_get _ _ _ e3
  refine List.ext_getElem (by rw [List.length_map, g1, f1, List.length_ofFn]) fun j hj hj' => ?_
  have hjp : j < (st.paths ⟨i, hix⟩).length := by simpa using hj'
  have hjc : j < cands[i].length := f1.symm ▸ hjp
  have hjt : j < cts.length := g1.symm ▸ hjc
  have u1 := f2 j hjp hjc
  have u2 := g2 j hjc hjt
  obtain ⟨p, hp, hw⟩ := serNoPayload_inv c u1
  rw [hw] at u2
  have := serializeCt_deser c hp u2
  rw [List.getElem_map, this, List.getElem_ofFn]
  have hb : (redrawII d x).coins.beta i (0 + j) = maskOf (x ⟨i, hix⟩ ⟨j, hjp⟩) := by
    simp only [redrawII, grid, Nat.zero_add, dif_pos hix, dif_pos hjp]
  rw [hb]
  simp only [OgSteps.diff, decrypt, mul, exp, invert, encrypt, encryptPoint, OgKeys.pk1, Setup.og]
  simp only [Fin.getElem_fin]
  module

theorem OgSteps.diff_zero (st : OgSteps S c cu H hashOf s d inter) (i : Fin d.xs.length) (j : Fin (st.paths i).length) :
    st.diff i j = 0 ↔ decrypt S.sk1 (st.paths i)[j] = (d.xs[i] : Int) • S.g := by
  rw [OgSteps.diff, sub_eq_zero]; exact eq_comm

theorem OgSteps.card_diff (st : OgSteps S c cu H hashOf s d inter) (i : Fin d.xs.length) :
    Fintype.card {j : Fin (st.paths i).length // st.diff i j = 0} = if inter d.xs[i] then 1 else 0 := by
  rw [Fintype.card_congr (Equiv.subtypeEquivRight fun j => st.diff_zero i j)]
  exact st.hcount i

/-- Whether party zero finds a match in a set of message III. -/
theorem OgSteps.found (st : OgSteps S c cu H hashOf s d inter) (hsh : ∀ i l, (d.coins.shuffle i l).Perm l)
    (hg : ∀ i j, NonZero S (d.coins.gamma i j)) (hb : ∀ i j, NonZero S (d.coins.beta i j)) (i : Fin d.xs.length) :
    ∃ ws cts, st.m3[(i : Nat)]? = some ws ∧ forIdx (fun _ w => deserNoPayload c w) 0 ws = .ok cts ∧
      (cts.any (fun ct => decrypt S.sk0 ct = 0) = true ↔ inter d.xs[i] = true) := by
  obtain ⟨ws, hws, hrd, _⟩ := st.read i
  obtain ⟨h1, h2⟩ := Proto.forIdx_get _ _ _ st.hm3
  obtain ⟨ws', hws', h3⟩ := h2 i ws hws
  rw [Nat.zero_add, st.set_eq d.coins i hrd rfl] at h3
  obtain ⟨ws2, hs2, hr2⟩ := send_read c (d.coins.shuffle i (List.ofFn fun j => exp (st.answer i j) (d.coins.gamma i j))) (fun y hy => by
    obtain ⟨k, rfl⟩ := (List.mem_ofFn' _ _).1 ((hsh _ _).mem_iff.1 hy)
    exact (exp_ok_iff (hg i k)).2 (st.answer_ok hsh hg i k))
  obtain rfl := Outcome.ok.inj (hs2.symm.trans h3)
  refine ⟨ws2, _, hws', hr2, ?_⟩
  rw [List.any_eq_true]
  have e1 : (∃ ct, ct ∈ d.coins.shuffle i (List.ofFn fun j => exp (st.answer i j) (d.coins.gamma i j)) ∧
      decide (decrypt S.sk0 ct = 0) = true) ↔ ∃ j, st.diff i j = 0 := by
    constructor
    · rintro ⟨ct, hct, hz⟩
      obtain ⟨j, rfl⟩ := (List.mem_ofFn' _ _).1 ((hsh _ _).mem_iff.1 hct)
      rw [decide_eq_true_iff, st.dec_answer, S.smul_zero_iff (hg _ _), S.smul_zero_iff (hb _ _)] at hz
      exact ⟨j, hz⟩
    · rintro ⟨j, hj⟩
      refine ⟨_, (hsh _ _).mem_iff.2 ((List.mem_ofFn' _ _).2 ⟨j, rfl⟩), ?_⟩
      rw [decide_eq_true_iff, st.dec_answer, hj]; simp
  rw [e1]
  have := st.card_diff i
  constructor
  · rintro ⟨j, hj⟩
    by_contra hc
    rw [if_neg hc, Fintype.card_eq_zero_iff] at this
    exact this.elim ⟨j, hj⟩
  · intro hc
    rw [if_pos hc] at this
    obtain ⟨⟨j, hj⟩⟩ := Fintype.card_pos_iff.1 (by rw [this]; exact Nat.one_pos)
    exact ⟨j, hj⟩

/-- The points of message IV on a redrawn day. -/
theorem pointsIV_redraw (st : OgSteps S c cu H hashOf s d inter) (hsh : ∀ i l, (d.coins.shuffle i l).Perm l)
    (hg : ∀ i j, NonZero S (d.coins.gamma i j)) (hb : ∀ i j, NonZero S (d.coins.beta i j)) (hm : ∀ i, NonZero S (d.coins.mask i))
    (R : Fin S.q → G) (hR : ∀ r, R r ≠ 0) (x : Fin d.xs.length → Fin (S.q - 1) × Fin S.q) :
    pointsIV S.og c cu H hashOf s (redrawIV R d x) =
      .ok (List.ofFn fun i => if inter d.xs[i] then R (x i).2 else maskOf (x i).1 • S.sk0 • H d.xs[i]) ∧
    ∀ i : Fin d.xs.length, inter d.xs[i] = false → S.sk0 • H d.xs[i] ≠ 0 := by
  have hI : ogSendI c H hashOf S.og.pk1 S.og.b s.p1 (redrawIV R d x).ys (redrawIV R d x).coins = .ok (st.p1, st.m1) := st.hI
  have hII : ogSendII c cu hashOf S.og.pk0 S.og.pk1 S.og.a s.p0 st.m1 (redrawIV R d x).xs (redrawIV R d x).coins =
      .ok (⟨st.tree, s.p0.mapping, st.out, s.p0.masks⟩, ⟨st.al, st.cands⟩) := by
    have h1 : serializeCt c (encryptPoint S.og.pk0 (redrawIV R d x).coins.a0 (redrawIV R d x).coins.hr) = .ok st.al := st.hal
    have h2 : forIdx (ogCand c hashOf S.og.pk1 st.tree (encryptPoint S.og.pk1 (redrawIV R d x).coins.a1 (redrawIV R d x).coins.hr)
      (redrawIV R d x).coins) 0 (redrawIV R d x).xs = .ok st.cands := st.hcands
    simp only [ogSendII, st.hupd, st.hout, h1, h2, Outcome.bind_ok, Outcome.pure_eq]
  have hIII : ogSendIII c S.og.pk0 S.og.b ⟨st.al, st.cands⟩ (redrawIV R d x).coins = .ok st.m3 := by
    have h3 : forIdx (ogSet c S.og.pk0 S.og.b (invert (encryptPoint S.og.pk0 d.coins.a0 d.coins.hr)) (redrawIV R d x).coins) 0 st.cands =
      .ok st.m3 := st.hm3
    simp only [ogSendIII, st.hal', Outcome.bind_ok, h3]
  have hl3 : st.m3.length = d.xs.length :=
    ((View.forIdx_get _ _ _ st.hm3).1).trans (View.forIdx_get _ _ _ st.hcands).1
  have hne : ∀ i : Fin d.xs.length, inter d.xs[i] = false → S.sk0 • H d.xs[i] ≠ 0 := by
    intro i hi
    obtain ⟨ws, cts, h1, h2, h3⟩ := st.found hsh hg hb i
    have h4 := st.hIV
    simp only [ogSendIV, Outcome.bind_eq_ok] at h4
    obtain ⟨rs, hrs, _⟩ := h4
    obtain ⟨_, h5⟩ := Proto.forIdx_get _ _ _ hrs
    obtain ⟨r, _, h6⟩ := h5 i ws h1
    have hv : vget d.xs (0 + (i : Nat)) = .ok d.xs[i] := by
      rw [Nat.zero_add, vget_eq_ok]; exact List.getElem?_eq_getElem i.isLt
    have hc : ¬ cts.any (fun ct => decrypt S.og.a ct = 0) = true := fun hc => by rw [h3.1 hc] at hi; exact absurd hi (by simp)
    simp only [ogOpen, h2, Outcome.bind_ok, hv] at h6
    rw [if_neg hc] at h6
    simp only [Outcome.bind_eq_ok] at h6
    obtain ⟨w, hw, _⟩ := h6
    exact fun hz => (pointToBytes_ok hw).1 ((S.smul_zero_iff (hm _) _).2 hz)
  refine ⟨?_, hne⟩
  have hopen : ∀ i : Fin d.xs.length, ∃ r, ogOpen c H S.og.a (redrawIV R d x).xs (redrawIV R d x).coins i (st.m3[(i : Nat)]'(hl3.symm ▸ i.isLt)) = .ok r ∧
      createECPoint c r.2.2 = .ok (if inter d.xs[i] then R (x i).2 else maskOf (x i).1 • S.sk0 • H d.xs[i]) := by
    intro i
    obtain ⟨ws, cts, h1, h2, h3⟩ := st.found hsh hg hb i
    obtain ⟨hi, rfl⟩ := getElem?_some_lt h1
    have hv : vget (redrawIV R d x).xs (i : Nat) = .ok d.xs[i] := by
      rw [vget_eq_ok]; exact List.getElem?_eq_getElem i.isLt
    have hdec : ∀ p : G, p ≠ 0 → ∃ w, pointToBytes c p = .ok w ∧ createECPoint c w = .ok p := by
      intro p hp
      refine ⟨c.enc p, by rw [pointToBytes, if_neg hp], ?_⟩
      simp only [createECPoint, c.dec_enc p hp, hp, if_false]
    simp only [ogOpen, h2, Outcome.bind_ok, hv]
    by_cases hin : inter d.xs[i] = true
    · rw [if_pos (show cts.any (fun ct => decrypt S.og.a ct = 0) = true from h3.2 hin), if_pos hin]
      obtain ⟨w, hw, hd⟩ := hdec _ (hR (x i).2)
      have e : (redrawIV R d x).coins.dummy i = R (x i).2 := by simp only [redrawIV, dif_pos i.isLt]
      rw [e, hw]
      exact ⟨(some d.xs[i], 0, w), rfl, hd⟩
    · rw [if_neg (show ¬ cts.any (fun ct => decrypt S.og.a ct = 0) = true from fun hc => hin (h3.1 hc)), if_neg hin]
      have e : (redrawIV R d x).coins.mask i = maskOf (x i).1 := by simp only [redrawIV, dif_pos i.isLt]
      obtain ⟨w, hw, hd⟩ := hdec (maskOf (x i).1 • S.sk0 • H d.xs[i]) (fun hz =>
        hne i (by simpa using hin) ((S.smul_zero_iff (mask_pos _) _).1 hz))
      rw [e]
      have hw' : pointToBytes c (maskOf (x i).1 • S.og.a • H d.xs[i]) = .ok w := hw
      rw [hw']
      exact ⟨(none, maskOf (x i).1, w), rfl, hd⟩
  choose r hr hrd using hopen
  have hIV : ogSendIV c H S.og.a ⟨st.tree, s.p0.mapping, st.out, s.p0.masks⟩ st.m3 (redrawIV R d x).xs (redrawIV R d x).coins =
      .ok (⟨st.tree, s.p0.mapping, st.out ++ (List.ofFn r).filterMap (·.1), (List.ofFn r).map (·.2.1)⟩, (List.ofFn r).map (·.2.2)) := by
    have := forIdx_ok_iff hl3 hr
    simp only [ogSendIV, this, Outcome.bind_ok, Outcome.pure_eq]
  simp only [pointsIV, hI, hII, hIII, hIV, Outcome.bind_ok]
  refine forIdx_ok_iff (by rw [List.length_map, List.length_ofFn]) fun i => ?_
  rw [List.getElem_map, List.getElem_ofFn]
  exact hrd i

end

end Upsi.View
