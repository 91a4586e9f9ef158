import Verif.Proto.AddCore
import Mathlib.Data.Finset.Card
/-
Property theorems C42-C44, C53 (addition-only protocols).
-/
namespace Upsi.Proto
open Upsi Upsi.ElGamal Upsi.Tree Upsi.Num

variable {α β γ κ P G δ σ : Type}

/-! ### histories -/

/-- One day of a history: what each party adds and the coins drawn by both. -/
structure DayIn (G P κ : Type) where
  xs : List P
  ys : List Nat
  coins : Coins G P κ

/-- Everything party zero has added in a history. -/
def allX (ds : List (DayIn G P κ)) : List P := ds.flatMap (·.xs)
/-- Everything party one has added in a history. -/
def allY (ds : List (DayIn G P κ)) : List Nat := ds.flatMap (·.ys)

variable [AddCommGroup G] [DecidableEq G]

/-- A non-zero mask: `CreateRandomMask` draws from `[1, order)` (elgamal.cc:137-139,
ec_group.cc:136-138). -/
def NonZero (S : Setup G) (k : Int) : Prop := ¬ (S.q : Int) ∣ k

/-- A history of days is admissible: elements are below `B` and paddings in `[B, q)` (C40 gives
`B = 10^15`), each party adds fewer than `2^30` elements in all, shuffles permute, and masks are
acceptable. -/
structure Admissible (S : Setup G) (key : P → Nat) (B : Nat) (Good : Tape → Prop)
    (ds : List (DayIn G P κ)) : Prop where
  bound : B ≤ S.q
  coins : ∀ d ∈ ds, d.coins.WF S key B Good d.xs d.ys
  x : ∀ p ∈ allX ds, key p < B
  y : ∀ y ∈ allY ds, y < B
  sizeX : (allX ds).length < 2 ^ 30
  sizeY : (allY ds).length < 2 ^ 30

/-- Lifting a one-day fact to histories. -/
theorem runDays_spec {step : σ → DayIn G P κ → Outcome σ}
    {S : Setup G} {F : Func G P γ κ} {Pay : P → κ → Prop} {Good : Tape → Prop}
    {hashOf : Nat → List Bool} {B : Nat} {st0 : σ → St0 G P} {st1 : σ → St1 γ}
    {Out : List P → List Nat → σ → Prop}
    (hstep : ∀ X Y s s' d, Inv S F Pay hashOf B X Y (st0 s) (st1 s) →
      Admissible S F.key B Good [d] → (∀ p ∈ X ++ d.xs, F.key p < B) → (∀ y ∈ Y ++ d.ys, y < B) →
      (X ++ d.xs).length < 2 ^ 30 → (Y ++ d.ys).length < 2 ^ 30 → step s d = .ok s' →
      Inv S F Pay hashOf B (X ++ d.xs) (Y ++ d.ys) (st0 s') (st1 s') ∧
      (st0 s).lost <+: (st0 s').lost ∧ (st1 s).lost <+: (st1 s').lost ∧
      ((st0 s').lost = [] → (st1 s').lost = [] → Out X Y s → Out (X ++ d.xs) (Y ++ d.ys) s'))
    (ds : List (DayIn G P κ)) : ∀ (X : List P) (Y : List Nat) (s s' : σ),
    Inv S F Pay hashOf B X Y (st0 s) (st1 s) → B ≤ S.q →
    (∀ d ∈ ds, d.coins.WF S F.key B Good d.xs d.ys) →
    (∀ p ∈ X ++ allX ds, F.key p < B) → (∀ y ∈ Y ++ allY ds, y < B) →
    (X ++ allX ds).length < 2 ^ 30 → (Y ++ allY ds).length < 2 ^ 30 →
    runDays step s ds = .ok s' →
    Inv S F Pay hashOf B (X ++ allX ds) (Y ++ allY ds) (st0 s') (st1 s') ∧
    (st0 s).lost <+: (st0 s').lost ∧ (st1 s).lost <+: (st1 s').lost ∧
    ((st0 s').lost = [] → (st1 s').lost = [] → Out X Y s → Out (X ++ allX ds) (Y ++ allY ds) s') := by
  induction ds with
  | nil =>
    intro X Y s s' hI _ _ _ _ _ _ h
    simp only [runDays, Outcome.ok.injEq] at h
    subst h
    simpa [allX, allY] using hI
  | cons d ds ih =>
    intro X Y s s' hI hB hw hX hY tX tY h
    simp only [runDays, Outcome.bind_eq_ok] at h
    obtain ⟨s1, h1, h2⟩ := h
    have eX : X ++ allX (d :: ds) = (X ++ d.xs) ++ allX ds := by simp [allX]
    have eY : Y ++ allY (d :: ds) = (Y ++ d.ys) ++ allY ds := by simp [allY]
    rw [eX] at hX tX ⊢
    rw [eY] at hY tY ⊢
    have hX1 : ∀ p ∈ X ++ d.xs, F.key p < B := fun p hp => hX p (by simp at hp ⊢; tauto)
    have hY1 : ∀ y ∈ Y ++ d.ys, y < B := fun y hy => hY y (by simp at hy ⊢; tauto)
    have tX1 : (X ++ d.xs).length < 2 ^ 30 := by rw [List.length_append (as := X ++ d.xs)] at tX; omega
    have tY1 : (Y ++ d.ys).length < 2 ^ 30 := by rw [List.length_append (as := Y ++ d.ys)] at tY; omega
    have hadm : Admissible S F.key B Good [d] := by
      refine ⟨hB, fun e he => by simp at he; subst he; exact hw e (by simp), ?_, ?_, ?_, ?_⟩
      · intro p hp; simp [allX] at hp; exact hX1 p (by simp [hp])
      · intro p hp; simp [allY] at hp; exact hY1 p (by simp [hp])
      · simp [allX] at tX1 ⊢; omega
      · simp [allY] at tY1 ⊢; omega
    obtain ⟨k1, k2, k3, k4⟩ := hstep X Y s s1 d hI hadm hX1 hY1 tX1 tY1 h1
    obtain ⟨j1, j2, j3, j4⟩ := ih _ _ _ _ k1 hB (fun e he => hw e (by simp [he])) hX hY tX tY h2
    refine ⟨j1, k2.trans j2, k3.trans j3, fun l0 l1 ho => j4 l0 l1 (k4 ?_ ?_ ho)⟩
    · rw [l0] at j2; exact List.prefix_nil.1 j2
    · rw [l1] at j3; exact List.prefix_nil.1 j3

/-! ### the functionalities meet the requirements -/

omit [DecidableEq G] in
theorem Setup.dec_encrypt (S : Setup G) (r m : Int) : S.dec (encrypt S.pk r m) = m • S.g := by
  simp only [Setup.dec, decrypt, encrypt, encryptPoint, Setup.pk]; module

omit [DecidableEq G] in
theorem Setup.dec_partial (S : Setup G) (x : Ct G) : decrypt S.sk0 (partialDecrypt S.sk1 x) = S.dec x := by
  simp only [Setup.dec, decrypt, partialDecrypt]; module

omit [DecidableEq G] in
theorem Setup.dec_exp (S : Setup G) (x : Ct G) (k : Int) : S.dec (exp x k) = k • S.dec x := by
  simp only [Setup.dec, decrypt, exp]; module

omit [DecidableEq G] in
theorem Setup.dec_mul (S : Setup G) (x y : Ct G) : S.dec (mul x y) = S.dec x + S.dec y := by
  simp only [Setup.dec, decrypt, mul]; module

omit [DecidableEq G] in
theorem Setup.dec_rerand (S : Setup G) (x : Ct G) (r : Int) : S.dec (reRandomize S.pk r x) = S.dec x := by
  simp only [Setup.dec, decrypt, reRandomize, Setup.pk]; module

theorem serNoPayload_inv (c : Codec G) {x : Ct G} {w : EncElem} (h : serNoPayload c x = .ok w) :
    ∃ p, serializeCt c x = .ok p ∧ w = .noPayload p := by
  simp only [serNoPayload, Outcome.bind_eq_ok, Outcome.pure_eq, Outcome.ok.injEq] at h
  obtain ⟨p, hp, rfl⟩ := h
  exact ⟨p, hp, rfl⟩

theorem deserTree_noPayload (c : Codec G) {x y : Ct G} {w : EncElem} (h : serNoPayload c x = .ok w)
    (h' : deserTreeCt c w = .ok y) : y = x := by
  obtain ⟨p, hp, rfl⟩ := serNoPayload_inv c h
  exact serializeCt_deser c hp h'

theorem serElGamal_deser (c : Codec G) {x k : Ct G} {w : EncElem} {y : Ct G × Ct G}
    (h : serElGamal c x k = .ok w) (h' : deserElGamal c w = .ok y) : y = (x, k) := by
  simp only [serElGamal, Outcome.bind_eq_ok, Outcome.pure_eq, Outcome.ok.injEq] at h
  obtain ⟨a, ha, b, hb, rfl⟩ := h
  simp only [deserElGamal, Outcome.bind_eq_ok, Outcome.pure_eq, Outcome.ok.injEq] at h'
  obtain ⟨a', ha', b', hb', rfl⟩ := h'
  rw [serializeCt_deser c ha ha', serializeCt_deser c hb hb']

theorem funcCA_ok (S : Setup G) (c : Codec G) :
    FuncOK S (funcCA c) (fun _ _ => True) (fun _ _ => True) (fun t => NonZero S (t 0)) where
  tree := by
    intro t p w x hw hx
    refine ⟨?_, trivial⟩
    have := deserTree_noPayload c hw hx
    subst this
    exact S.dec_encrypt _ _
  payload := by intros; trivial
  ser := by
    intro x k w y hw hy
    simp only [funcCA, Outcome.bind_eq_ok, Outcome.pure_eq, Outcome.ok.injEq] at hw hy
    obtain ⟨z, hz, rfl⟩ := hy
    obtain ⟨p, hp, rfl⟩ := serNoPayload_inv c hw
    rw [serializeCt_deser c hp hz]
  send := by
    intro m t x w x' hm hw hx'
    refine ⟨?_, by intros; trivial⟩
    simp only [funcCA, Outcome.bind_eq_ok, Outcome.pure_eq, Outcome.ok.injEq] at hw hx'
    obtain ⟨z, hz, rfl⟩ := hx'
    obtain ⟨p, hp, rfl⟩ := serNoPayload_inv c hw
    rw [serializeCt_deser c hp hz, S.dec_partial, S.dec_exp]
    exact S.smul_zero_iff hm _

theorem funcPSI_ok (S : Setup G) (c cu : Codec G) :
    FuncOK S (funcPSI c cu) (fun p k => S.dec k = (p : Int) • S.g)
      (fun p k => decrypt S.sk0 k = (p : Int) • S.g) (fun t => NonZero S (t 0)) where
  tree := by
    intro t p w x hw hx
    have := deserTree_noPayload c hw hx
    subst this
    exact ⟨S.dec_encrypt _ _, S.dec_encrypt _ _⟩
  payload := by
    intro t p k h
    simp only [funcPSI, Outcome.bind_eq_ok, Outcome.pure_eq, Outcome.ok.injEq] at h
    obtain ⟨_, _, rfl⟩ := h
    exact S.dec_encrypt _ _
  ser := by
    intro x k w y hw hy
    exact serElGamal_deser c hw hy
  send := by
    intro m t x w x' hm hw hx'
    have := serElGamal_deser c hw hx'
    subst this
    simp only [funcPSI]
    rw [S.dec_partial, S.dec_partial, S.dec_mul, S.dec_exp (exp x.1 (m 0)), S.dec_exp]
    refine ⟨S.smul_zero_iff hm _, ?_⟩
    intro h0 p hp
    rw [h0, hp]; simp

theorem funcSum_ok (S : Setup G) (c : Codec G) :
    FuncOK S (funcSum c) (fun p k => S.dec k = p.2 • S.g)
      (fun p k => S.dec k = p.2 • S.g) (fun t => NonZero S (t 0)) where
  tree := by
    intro t p w x hw hx
    have := serElGamal_deser c hw hx
    subst this
    exact ⟨S.dec_encrypt _ _, S.dec_encrypt _ _⟩
  payload := by
    intro t p k h
    simp only [funcSum, Outcome.ok.injEq] at h
    subst h
    exact S.dec_encrypt _ _
  ser := by
    intro x k w y hw hy
    exact serElGamal_deser c hw hy
  send := by
    intro m t x w x' hm hw hx'
    have := serElGamal_deser c (x := partialDecrypt S.sk1 (exp x.1 (m 0)))
      (k := reRandomize S.pk (t 0) x.2) hw hx'
    subst this
    simp only
    rw [S.dec_partial, S.dec_exp, S.dec_rerand]
    exact ⟨S.smul_zero_iff hm _, fun _ p hp => hp⟩

/-! ### C42 -/

theorem countLoop_eq (sk0 : Int) (l : List (Ct G × κ)) : ∀ n,
    countLoop sk0 l n = n + (l.filter (fun x => decrypt sk0 x.1 = 0)).length := by
  induction l with
  | nil => intro n; rfl
  | cons x l ih =>
    intro n
    unfold countLoop
    by_cases h : decrypt sk0 x.1 = 0
    · rw [if_pos h, ih]; simp [h]; omega
    · rw [if_neg h, ih]; simp [h]

omit [AddCommGroup G] [DecidableEq G] in
theorem matched_length (key : P → Nat) (X : List P) (Y : List Nat) :
    (matched key X Y).length = (X.map (fun p => Y.count (key p))).sum := by
  simp [matched, List.length_flatMap]

theorem matched_step (key : P → Nat) (X xs : List P) (Y ys : List Nat) :
    (matched key (X ++ xs) (Y ++ ys)).Perm
      (matched key X Y ++ (matched key xs Y ++ matched key (X ++ xs) ys)) := by
  refine (matched_append_right key _ Y ys).trans ?_
  rw [matched_append_left key X xs Y, List.append_assoc]

/-- Without repetitions the number of matching pairs is the size of the intersection. -/
theorem matched_card (X Y : List Nat) (hX : X.Nodup) (hY : Y.Nodup) :
    (matched id X Y).length = (X.toFinset ∩ Y.toFinset).card := by
  rw [matched_length]
  have h1 : (X.map (fun p => Y.count (id p))).sum = (X.filter (fun x => x ∈ Y)).length := by
    clear hX
    induction X with
    | nil => rfl
    | cons x X ih =>
      simp only [List.map_cons, List.sum_cons, List.filter_cons, id] at ih ⊢
      rw [ih]
      by_cases h : x ∈ Y
      · rw [List.count_eq_one_of_mem hY h]; simp [h]; omega
      · rw [List.count_eq_zero_of_not_mem h]; simp [h]
  rw [h1, ← List.toFinset_card_of_nodup (hX.filter _)]
  congr 1
  ext a; simp

/-- The initial state of both parties of the cardinality protocol. -/
def StCA.init (stash node : Nat) : StCA G := ⟨St0.init stash node, St1.init stash node, 0⟩

/-- The cardinality protocol over a history. -/
def runCA (S : Setup G) (c : Codec G) (hashOf : Nat → List Bool) (stash node : Nat)
    (ds : List (DayIn G Nat Unit)) : Outcome (StCA G) :=
  runDays (fun s d => dayCA c hashOf S.pk S.sk0 S.sk1 s d.xs d.ys d.coins) (StCA.init stash node) ds

/-- **C42** If the messages of all days of a history are processed without error and no stash
overflowed, the cardinality party zero reports is the number of matching pairs between everything
party zero added and everything party one added. -/
theorem C42_cardinality_pairs (S : Setup G) (c : Codec G) (hashOf : Nat → List Bool)
    (hh : ∀ e, (hashOf e).length = 256) (B stash node : Nat) (ds : List (DayIn G Nat Unit))
    (hadm : Admissible S id B (fun t => NonZero S (t 0)) ds) (s : StCA G)
    (h : runCA S c hashOf stash node ds = .ok s) (l0 : s.p0.lost = []) (l1 : s.p1.lost = []) :
    s.cardinality = ((allX ds).map (fun x => (allY ds).count x)).sum := by
  have := (runDays_spec (S := S) (F := funcCA c) (Pay := fun _ _ => True)
    (Good := fun t => NonZero S (t 0)) (hashOf := hashOf) (B := B) (st0 := StCA.p0) (st1 := StCA.p1)
    (Out := fun X Y s => s.cardinality = (matched id X Y).length) ?_ ds [] [] _ s
    (Inv.init _ _ _ _ _ _ _) hadm.bound hadm.coins hadm.x (by simpa using hadm.y)
    (by simpa using hadm.sizeX) (by simpa using hadm.sizeY) h).2.2.2 l0 l1 rfl
  · rw [this, matched_length]; simp
  · intro X Y s s' d hI hd hX hY tX tY hs
    simp only [dayCA, Outcome.bind_eq_ok, Outcome.pure_eq, Outcome.ok.injEq] at hs
    obtain ⟨⟨p0, p1, cands⟩, he, rfl⟩ := hs
    obtain ⟨k1, k2, k3, k4⟩ := exchange_spec (funcCA_ok S c) c hh hd.bound hI
      (hd.coins d (by simp)) hX hY tX tY he
    refine ⟨k1, k2, k3, fun l0 l1 ho => ?_⟩
    obtain ⟨ms, hp, hf⟩ := k4 l0 l1
    simp only
    rw [countLoop_eq, ho, ← hf.length_eq, hp.length_eq, (matched_step id X d.xs Y d.ys).length_eq]
    simp [funcCA]

/-- **C42** For sets (no element added twice by the same party) the cardinality reported after any
number of days is the size of the intersection of the cumulative sets, whatever the split of the
additions over days, the coins, the paddings and the shuffles. -/
theorem C42_cardinality (S : Setup G) (c : Codec G) (hashOf : Nat → List Bool)
    (hh : ∀ e, (hashOf e).length = 256) (B stash node : Nat) (ds : List (DayIn G Nat Unit))
    (hadm : Admissible S id B (fun t => NonZero S (t 0)) ds) (s : StCA G)
    (h : runCA S c hashOf stash node ds = .ok s) (l0 : s.p0.lost = []) (l1 : s.p1.lost = [])
    (hX : (allX ds).Nodup) (hY : (allY ds).Nodup) :
    s.cardinality = ((allX ds).toFinset ∩ (allY ds).toFinset).card := by
  rw [C42_cardinality_pairs S c hashOf hh B stash node ds hadm s h l0 l1, ← matched_card _ _ hX hY,
    matched_length]
  rfl

/-! ### C43 -/

/-- The initial state of both parties of the PSI protocol. -/
def StPSI.init (stash node : Nat) : StPSI G := ⟨St0.init stash node, St1.init stash node, [], []⟩

/-- The PSI protocol over a history. -/
def runPSI (S : Setup G) (c cu : Codec G) (hashOf : Nat → List Bool) (stash node : Nat)
    (ds : List (DayIn G Nat (Ct G))) : Outcome (StPSI G) :=
  runDays (fun s d => dayPSI c cu hashOf S.pk S.sk0 S.sk1 s d.xs d.ys d.coins)
    (StPSI.init stash node) ds

/-- The mapping holds exactly the elements of `X` under their point encodings. -/
def MapOK (S : Setup G) (cu : Codec G) (X : List Nat) (m : Mapping) : Prop :=
  (∀ x ∈ X, (x : Int) • S.g ≠ 0 ∧ (cu.enc ((x : Int) • S.g), x) ∈ m) ∧
  ∀ e ∈ m, e.2 ∈ X ∧ e.1 = cu.enc ((e.2 : Int) • S.g)

theorem recordAll_ok (S : Setup G) (cu : Codec G) (xs : List Nat) : ∀ (X : List Nat) (m m' : Mapping),
    MapOK S cu X m → recordAll cu S.pk xs m = .ok m' → MapOK S cu (X ++ xs) m' := by
  induction xs with
  | nil => intro X m m' h h'; simp [recordAll] at h'; subst h'; simpa using h
  | cons x xs ih =>
    intro X m m' h h'
    simp only [recordAll, Outcome.bind_eq_ok] at h'
    obtain ⟨k, hk, h'⟩ := h'
    have := ih (X ++ [x]) _ _ ?_ h'
    · simpa using this
    · replace hk : pointToBytes cu ((x : Int) • S.g) = .ok k := hk
      simp only [pointToBytes] at hk
      by_cases hne : (x : Int) • S.g = 0
      · rw [if_pos hne] at hk; simp at hk
      · rw [if_neg hne] at hk
        simp only [Outcome.ok.injEq] at hk
        subst hk
        refine ⟨?_, ?_⟩
        · intro y hy
          rcases List.mem_append.1 hy with hy | hy
          · exact ⟨(h.1 y hy).1, List.mem_cons_of_mem _ (h.1 y hy).2⟩
          · simp at hy; subst hy; exact ⟨hne, by simp⟩
        · intro e he
          rcases List.mem_cons.1 he with rfl | he
          · simp
          · exact ⟨by simp [(h.2 e he).1], (h.2 e he).2⟩

theorem enc_inj (cu : Codec G) {a b : G} (ha : a ≠ 0) (hb : b ≠ 0) (h : cu.enc a = cu.enc b) : a = b := by
  have h1 := cu.dec_enc a ha
  rw [h, cu.dec_enc b hb] at h1
  simpa using h1.symm

theorem lookup_ok (S : Setup G) (cu : Codec G) (X : List Nat) (hX : ∀ x ∈ X, x < S.q) (m : Mapping)
    (hm : MapOK S cu X m) (x : Nat) (hx : x ∈ X) :
    m.lookup (cu.enc ((x : Int) • S.g)) = some x := by
  obtain ⟨h0, hmem⟩ := hm.1 x hx
  cases hl : m.lookup (cu.enc ((x : Int) • S.g)) with
  | none =>
    rw [List.lookup_eq_none_iff] at hl
    have := hl _ hmem
    simp at this
  | some y =>
    rw [List.lookup_eq_some_iff] at hl
    obtain ⟨l1, l2, rfl, _⟩ := hl
    obtain ⟨hy, he⟩ := hm.2 _ (List.mem_append_right l1 (List.mem_cons_self ..))
    simp only at hy he
    have hy0 := (hm.1 y hy).1
    have := enc_inj cu h0 hy0 he
    have := (S.smul_eq_iff (hX x hx) (hX y hy)).1 (by rw [this]; simp)
    rw [this]

theorem psiLoop_ok (S : Setup G) (cu : Codec G) (X : List Nat) (hX : ∀ x ∈ X, x < S.q) (m : Mapping)
    (hm : MapOK S cu X m) (l : List (Ct G × Ct G)) : ∀ (ms : List Nat) (out out' : List (Option Nat)),
    List.Forall₂ (fun p x => decrypt S.sk0 x.2 = ((p : Nat) : Int) • S.g) ms
      (l.filter (fun x => decrypt S.sk0 x.1 = 0)) →
    (∀ p ∈ ms, p ∈ X) → psiLoop cu S.sk0 m l out = .ok out' → out' = out ++ ms.map some := by
  induction l with
  | nil =>
    intro ms out out' h _ h'
    simp only [psiLoop, Outcome.ok.injEq] at h'
    simp only [List.filter_nil, List.forall₂_nil_right_iff] at h
    subst h h'; simp
  | cons x l ih =>
    intro ms out out' h hms h'
    unfold psiLoop at h'
    by_cases hx : decrypt S.sk0 x.1 = 0
    · rw [if_pos hx] at h'
      simp only [Outcome.bind_eq_ok] at h'
      obtain ⟨k, hk, h'⟩ := h'
      simp only [hx, decide_true, List.filter_cons_of_pos] at h
      cases h with
      | cons h1 h2 =>
        rename_i p ps
        have hp := hms p (by simp)
        simp only [pointToBytes, h1] at hk
        rw [if_neg (hm.1 p hp).1] at hk
        simp only [Outcome.ok.injEq] at hk
        subst hk
        rw [lookup_ok S cu X hX m hm p hp] at h'
        rw [ih ps _ _ h2 (fun q hq => hms q (by simp [hq])) h']
        simp
    · rw [if_neg hx] at h'
      simp only [hx, decide_false, Bool.false_eq_true, not_false_eq_true, List.filter_cons_of_neg] at h
      exact ih ms out out' h hms h'

omit [AddCommGroup G] [DecidableEq G] in
theorem mem_matched {key : P → Nat} {X : List P} {Y : List Nat} {p : P} :
    p ∈ matched key X Y ↔ p ∈ X ∧ key p ∈ Y := by
  simp only [matched, List.mem_flatMap, List.mem_replicate]
  constructor
  · rintro ⟨q, hq, hc, rfl⟩
    exact ⟨hq, List.one_le_count_iff.1 (Nat.one_le_iff_ne_zero.2 hc)⟩
  · rintro ⟨h1, h2⟩
    exact ⟨p, h1, Nat.one_le_iff_ne_zero.1 (List.one_le_count_iff.2 h2), rfl⟩

/-- Without repetitions in `Y`, the matched entries are those whose element is in `Y`. -/
theorem matched_eq_filter (key : P → Nat) (X : List P) (Y : List Nat) (hY : Y.Nodup) :
    matched key X Y = X.filter (fun p => key p ∈ Y) := by
  induction X with
  | nil => rfl
  | cons p X ih =>
    simp only [matched, List.flatMap_cons, List.filter_cons] at ih ⊢
    rw [ih]
    by_cases h : key p ∈ Y
    · rw [List.count_eq_one_of_mem hY h]; simp [h]
    · rw [List.count_eq_zero_of_not_mem h]; simp [h]

/-- **C43** Under the conditions of C42 the outputs of party zero over all days are, up to order,
exactly the elements of the intersection (each once), and never an unknown element. -/
theorem C43_psi (S : Setup G) (c cu : Codec G) (hashOf : Nat → List Bool)
    (hh : ∀ e, (hashOf e).length = 256) (B stash node : Nat) (ds : List (DayIn G Nat (Ct G)))
    (hadm : Admissible S id B (fun t => NonZero S (t 0)) ds) (s : StPSI G)
    (h : runPSI S c cu hashOf stash node ds = .ok s) (l0 : s.p0.lost = []) (l1 : s.p1.lost = [])
    (hY : (allY ds).Nodup) :
    s.intersection.Perm (((allX ds).filter (fun x => x ∈ allY ds)).map some) := by
  have := (runDays_spec (S := S) (F := funcPSI c cu) (Pay := fun p k => S.dec k = (p : Int) • S.g)
    (Good := fun t => NonZero S (t 0)) (hashOf := hashOf) (B := B) (st0 := StPSI.p0) (st1 := StPSI.p1)
    (Out := fun X Y s => MapOK S cu X s.mapping ∧ s.intersection.Perm ((matched id X Y).map some))
    ?_ ds [] [] _ s
    (Inv.init _ _ _ _ _ _ _) hadm.bound hadm.coins hadm.x (by simpa using hadm.y)
    (by simpa using hadm.sizeX) (by simpa using hadm.sizeY) h).2.2.2 l0 l1
    ⟨⟨by simp, by simp [StPSI.init]⟩, by simp [StPSI.init, matched]⟩
  · have := this.2
    simp only [List.nil_append] at this
    rw [matched_eq_filter id _ _ hY] at this
    exact this
  · intro X Y s s' d hI hd hX hY tX tY hs
    simp only [dayPSI, Outcome.bind_eq_ok, Outcome.pure_eq, Outcome.ok.injEq] at hs
    obtain ⟨m, hm, ⟨p0, p1, cands⟩, he, out, hout, rfl⟩ := hs
    obtain ⟨k1, k2, k3, k4⟩ := exchange_spec (funcPSI_ok S c cu) c hh hd.bound hI
      (hd.coins d (by simp)) hX hY tX tY he
    refine ⟨k1, k2, k3, fun l0 l1 ho => ?_⟩
    obtain ⟨ms, hp, hf⟩ := k4 l0 l1
    have hm' := recordAll_ok S cu d.xs X _ _ ho.1 hm
    refine ⟨hm', ?_⟩
    have hms : ∀ p ∈ ms, p ∈ X ++ d.xs := by
      intro p hpm
      rcases List.mem_append.1 (hp.subset hpm) with h | h
      · exact List.mem_append_right _ (mem_matched.1 h).1
      · exact (mem_matched.1 h).1
    have := psiLoop_ok S cu (X ++ d.xs) (fun x hx => by
      have := hX x hx; have := hd.bound; simp only [funcPSI, id] at *; omega) m hm' cands ms _ _ hf hms hout
    simp only
    rw [this]
    refine (ho.2.append (hp.map some)).trans ?_
    rw [← List.map_append]
    exact ((matched_step id X d.xs Y d.ys).map some).symm

/-! ### C44 -/

/-- The initial state of both parties of the sum protocol. -/
def StSum.init (stash node : Nat) : StSum G := ⟨St0.init stash node, St1.init stash node, 0, 0⟩

/-- The sum protocol over a history. -/
def runSum (S : Setup G) (c : Codec G) (limit : Nat) (hashOf : Nat → List Bool) (stash node : Nat)
    (ds : List (DayIn G (Nat × Int) (Ct G))) : Outcome (StSum G) :=
  runDays (fun s d => daySum c limit hashOf S.pk S.sk0 S.sk1 s d.xs d.ys d.coins)
    (StSum.init stash node) ds

/-- Sum of the values of the given entries. -/
def valueSum (l : List (Nat × Int)) : Int := (l.map Prod.snd).sum

theorem sumLoop_ok (S : Setup G) (l : List (Ct G × Ct G)) : ∀ (ms : List (Nat × Int)) (n : Nat) (acc : Ct G),
    List.Forall₂ (fun p x => S.dec x.2 = ((p : Nat × Int).2) • S.g) ms
      (l.filter (fun x => decrypt S.sk0 x.1 = 0)) →
    (sumLoop S.sk0 l n acc).1 = n + ms.length ∧
    S.dec (sumLoop S.sk0 l n acc).2 = S.dec acc + valueSum ms • S.g := by
  induction l with
  | nil =>
    intro ms n acc h
    simp only [List.filter_nil, List.forall₂_nil_right_iff] at h
    subst h
    simp [sumLoop, valueSum]
  | cons x l ih =>
    intro ms n acc h
    unfold sumLoop
    by_cases hx : decrypt S.sk0 x.1 = 0
    · rw [if_pos hx]
      simp only [hx, decide_true, List.filter_cons_of_pos] at h
      cases h with
      | cons h1 h2 =>
        rename_i p ps
        obtain ⟨k1, k2⟩ := ih ps (n + 1) (mul acc x.2) h2
        refine ⟨by rw [k1]; simp; omega, ?_⟩
        rw [k2, S.dec_mul, h1]
        simp only [valueSum, List.map_cons, List.sum_cons]
        module
    · rw [if_neg hx]
      simp only [hx, decide_false, Bool.false_eq_true, not_false_eq_true, List.filter_cons_of_neg] at h
      exact ih ms n acc h

theorem findExp_ok (p : G) (ts : List G) : ∀ (i k : Nat), findExp p i ts = .ok k →
    i ≤ k ∧ ts[k - i]? = some p := by
  induction ts with
  | nil => intro i k h; simp [findExp] at h
  | cons t ts ih =>
    intro i k h
    unfold findExp at h
    split at h
    · rename_i heq
      simp only [Outcome.ok.injEq] at h
      subst h; simp [heq]
    · obtain ⟨h1, h2⟩ := ih _ _ h
      refine ⟨by omega, ?_⟩
      rw [show k - i = (k - (i + 1)) + 1 by omega]
      simpa using h2

theorem decryptExp_ok (x : Int) (g : G) (limit k : Nat) (ct : Ct G)
    (h : decryptExp x (initDecryptExp g limit) ct = .ok k) :
    k < limit ∧ decrypt x ct = (k : Int) • g := by
  simp only [decryptExp] at h
  split at h
  · simp at h
  · obtain ⟨_, h2⟩ := findExp_ok _ _ _ _ h
    simp only [initDecryptExp, Nat.sub_zero] at h2
    rw [List.getElem?_map] at h2
    by_cases hk : k < limit
    · rw [List.getElem?_range hk] at h2
      simp only [Option.map_some, Option.some.injEq] at h2
      exact ⟨hk, h2.symm⟩
    · rw [List.getElem?_eq_none (by simpa using hk)] at h2
      simp at h2

theorem daySum_step {S : Setup G} {c : Codec G} {hashOf : Nat → List Bool}
    (hh : ∀ e, (hashOf e).length = 256) {B limit : Nat} (hlim : limit ≤ 2 ^ 64)
    {X : List (Nat × Int)} {Y : List Nat} {s s' : StSum G} {d : DayIn G (Nat × Int) (Ct G)}
    (hI : Inv S (funcSum c) (fun p k => S.dec k = p.2 • S.g) hashOf B X Y s.p0 s.p1)
    (hd : Admissible S Prod.fst B (fun t => NonZero S (t 0)) [d])
    (hX : ∀ p ∈ X ++ d.xs, (funcSum c).key p < B) (hY : ∀ y ∈ Y ++ d.ys, y < B)
    (tX : (X ++ d.xs).length < 2 ^ 30) (tY : (Y ++ d.ys).length < 2 ^ 30)
    (hs : daySum c limit hashOf S.pk S.sk0 S.sk1 s d.xs d.ys d.coins = .ok s') :
    Inv S (funcSum c) (fun p k => S.dec k = p.2 • S.g) hashOf B (X ++ d.xs) (Y ++ d.ys) s'.p0 s'.p1 ∧
    s.p0.lost <+: s'.p0.lost ∧ s.p1.lost <+: s'.p1.lost ∧
    (s'.p0.lost = [] → s'.p1.lost = [] → ∃ ms k,
      ms.Perm (matched Prod.fst d.xs Y ++ matched Prod.fst (X ++ d.xs) d.ys) ∧
      s'.cardinality = s.cardinality + ms.length ∧ k < limit ∧
      (k : Int) • S.g = valueSum ms • S.g ∧ s'.sum = s.sum + UInt64.ofNat k) := by
  simp only [daySum, Outcome.bind_eq_ok, Outcome.pure_eq, Outcome.ok.injEq] at hs
  obtain ⟨⟨p0, p1, cands⟩, he, m3, hm3, sum1, hsum1, m4, hm4, sum2, hsum2, big, hbig, v, hv, rfl⟩ := hs
  obtain ⟨k1, k2, k3, k4⟩ := exchange_spec (funcSum_ok S c) c hh hd.bound hI
    (hd.coins d (by simp)) hX hY tX tY he
  refine ⟨k1, k2, k3, fun l0 l1 => ?_⟩
  obtain ⟨ms, hp, hf⟩ := k4 l0 l1
  obtain ⟨j1, j2⟩ := sumLoop_ok S cands ms s.cardinality (encrypt S.pk (d.coins.last 0 0) 0) hf
  have e1 := serializeCt_deser c hm3 hsum1
  have e2 := serializeCt_deser c hm4 hsum2
  obtain ⟨hk, hdec⟩ := decryptExp_ok _ _ _ _ _ hbig
  rw [e2, S.dec_partial, e1, j2, S.dec_encrypt] at hdec
  simp only [toIntValue] at hv
  rw [if_pos (by simp; omega)] at hv
  simp only [Outcome.ok.injEq] at hv
  refine ⟨ms, big, hp, j1, hk, ?_, ?_⟩
  · simp only [Setup.pk] at hdec
    rw [← hdec]; simp
  · simp only
    rw [← hv]; simp


omit [AddCommGroup G] [DecidableEq G] in
theorem valueSum_append (a b : List (Nat × Int)) : valueSum (a ++ b) = valueSum a + valueSum b := by
  simp [valueSum]

omit [AddCommGroup G] [DecidableEq G] in
theorem valueSum_perm {a b : List (Nat × Int)} (h : a.Perm b) : valueSum a = valueSum b :=
  (h.map Prod.snd).sum_eq

omit [AddCommGroup G] [DecidableEq G] in
theorem valueSum_nonneg {a : List (Nat × Int)} (h : ∀ p ∈ a, 0 ≤ p.2) : 0 ≤ valueSum a := by
  apply List.sum_nonneg
  intro x hx
  obtain ⟨p, hp, rfl⟩ := List.mem_map.1 hx
  exact h p hp

omit [DecidableEq G] in
theorem Setup.smul_inj_int (S : Setup G) {k : Nat} {v : Int} (hk : k < S.q) (h0 : 0 ≤ v) (hv : v < S.q)
    (h : (k : Int) • S.g = v • S.g) : (k : Int) = v := by
  obtain ⟨n, rfl⟩ := Int.eq_ofNat_of_zero_le h0
  have := (S.smul_eq_iff hk (b := n) (by simpa using hv)).1 (by rw [h]; simp)
  rw [this]

/-- Facts about a completed run of the sum protocol. -/
theorem runSum_spec (S : Setup G) (c : Codec G) (limit : Nat) (hashOf : Nat → List Bool)
    (hh : ∀ e, (hashOf e).length = 256) (B stash node : Nat) (ds : List (DayIn G (Nat × Int) (Ct G)))
    (hadm : Admissible S Prod.fst B (fun t => NonZero S (t 0)) ds) (hlim : limit ≤ 2 ^ 64)
    (hlimq : limit ≤ S.q)
    (hpos : ∀ p ∈ allX ds, 0 ≤ p.2) (hsmall : valueSum (matched Prod.fst (allX ds) (allY ds)) < S.q)
    (s : StSum G) (h : runSum S c limit hashOf stash node ds = .ok s) :
    Inv S (funcSum c) (fun p k => S.dec k = p.2 • S.g) hashOf B (allX ds) (allY ds) s.p0 s.p1 ∧
    (s.p0.lost = [] → s.p1.lost = [] →
    s.cardinality = (matched Prod.fst (allX ds) (allY ds)).length ∧
    (s.sum.toNat : Int) = valueSum (matched Prod.fst (allX ds) (allY ds)) % 2 ^ 64) := by
  have hrun := (runDays_spec (S := S) (F := funcSum c) (Pay := fun p k => S.dec k = p.2 • S.g)
    (Good := fun t => NonZero S (t 0)) (hashOf := hashOf) (B := B) (st0 := StSum.p0) (st1 := StSum.p1)
    (Out := fun X Y s => (∀ p ∈ X, 0 ≤ p.2) → valueSum (matched Prod.fst X Y) < S.q →
      s.cardinality = (matched Prod.fst X Y).length ∧
      (s.sum.toNat : Int) = valueSum (matched Prod.fst X Y) % 2 ^ 64)
    ?_ ds [] [] _ s
    (Inv.init _ _ _ _ _ _ _) hadm.bound hadm.coins hadm.x (by simpa using hadm.y)
    (by simpa using hadm.sizeX) (by simpa using hadm.sizeY) h)
  · obtain ⟨r1, _, _, r4⟩ := hrun
    simp only [List.nil_append] at r1 r4
    refine ⟨r1, fun l0 l1 => r4 l0 l1 ?_ hpos hsmall⟩
    intro _ _
    exact ⟨rfl, rfl⟩
  · intro X Y s s' d hI hd hX hY tX tY hs
    obtain ⟨k1, k2, k3, k4⟩ := daySum_step hh hlim hI hd hX hY tX tY hs
    refine ⟨k1, k2, k3, fun l0 l1 ho hp0 hsm => ?_⟩
    obtain ⟨ms, k, hp, hc, hk, hg, hsum⟩ := k4 l0 l1
    have hperm := matched_step Prod.fst X d.xs Y d.ys
    have hall := valueSum_perm hperm
    rw [valueSum_append, ← valueSum_perm hp] at hall
    have hXpos : ∀ p ∈ X, 0 ≤ p.2 := fun p hp => hp0 p (by simp [hp])
    have n1 : 0 ≤ valueSum (matched Prod.fst X Y) :=
      valueSum_nonneg (fun p hp => hXpos p (mem_matched.1 hp).1)
    have n2 : 0 ≤ valueSum ms := valueSum_nonneg (fun p hpm => by
      rcases List.mem_append.1 (hp.subset hpm) with h | h
      · exact hp0 p (by simp [(mem_matched.1 h).1])
      · exact hp0 p (mem_matched.1 h).1)
    obtain ⟨o1, o2⟩ := ho hXpos (by omega)
    have hkv := S.smul_inj_int (by omega) n2 (by omega) hg
    refine ⟨?_, ?_⟩
    · rw [hc, o1, hperm.length_eq, hp.length_eq]; simp only [List.length_append]
    · rw [hsum, hall, UInt64.toNat_add]
      push_cast
      rw [o2, UInt64.toNat_ofNat', ← hkv]
      push_cast
      omega

/-- **C44** If all messages of all days are processed without error and no stash overflowed, the
cardinality is the number of matches and the reported sum is the sum, over the intersection, of the
values party zero attached to its elements (modulo 2^64, the width of the accumulator).  Values are
non-negative and their total is below the group order. -/
theorem C44_sum (S : Setup G) (c : Codec G) (limit : Nat) (hashOf : Nat → List Bool)
    (hh : ∀ e, (hashOf e).length = 256) (B stash node : Nat) (ds : List (DayIn G (Nat × Int) (Ct G)))
    (hadm : Admissible S Prod.fst B (fun t => NonZero S (t 0)) ds) (hlim : limit ≤ 2 ^ 64)
    (hlimq : limit ≤ S.q) (hY : (allY ds).Nodup)
    (hpos : ∀ p ∈ allX ds, 0 ≤ p.2)
    (hsmall : (((allX ds).filter (fun p => p.1 ∈ allY ds)).map Prod.snd).sum < S.q)
    (s : StSum G) (h : runSum S c limit hashOf stash node ds = .ok s)
    (l0 : s.p0.lost = []) (l1 : s.p1.lost = []) :
    s.cardinality = ((allX ds).filter (fun p => p.1 ∈ allY ds)).length ∧
    (s.sum.toNat : Int) = (((allX ds).filter (fun p => p.1 ∈ allY ds)).map Prod.snd).sum % 2 ^ 64 := by
  have := (runSum_spec S c limit hashOf hh B stash node ds hadm hlim hlimq hpos (by
    rw [matched_eq_filter _ _ _ hY]; exact hsmall) s h).2 l0 l1
  rw [matched_eq_filter _ _ _ hY] at this
  exact this

omit [AddCommGroup G] [DecidableEq G] in
theorem runDays_append {step : σ → δ → Outcome σ} (ds es : List δ) : ∀ s,
    runDays step s (ds ++ es) = (runDays step s ds >>= fun s' => runDays step s' es) := by
  induction ds with
  | nil => intro s; rfl
  | cons d ds ih =>
    intro s
    simp only [List.cons_append, runDays]
    cases step s d <;> simp [ih]

/-- **C44** A day whose new matches sum to `limit` (`MAX_SUM`) or more cannot complete: the run ends
in an error, never in a wrong number. -/
theorem C44_sum_limit (S : Setup G) (c : Codec G) (limit : Nat) (hashOf : Nat → List Bool)
    (hh : ∀ e, (hashOf e).length = 256) (B stash node : Nat) (ds : List (DayIn G (Nat × Int) (Ct G)))
    (d : DayIn G (Nat × Int) (Ct G))
    (hadm : Admissible S Prod.fst B (fun t => NonZero S (t 0)) (ds ++ [d])) (hlim : limit ≤ 2 ^ 64)
    (hlimq : limit ≤ S.q) (hpos : ∀ p ∈ allX (ds ++ [d]), 0 ≤ p.2)
    (hsmall : valueSum (matched Prod.fst (allX (ds ++ [d])) (allY (ds ++ [d]))) < S.q)
    (hbig : (limit : Int) ≤ valueSum (matched Prod.fst (allX (ds ++ [d])) (allY (ds ++ [d]))) -
      valueSum (matched Prod.fst (allX ds) (allY ds)))
    (s : StSum G) (l0 : s.p0.lost = []) (l1 : s.p1.lost = []) :
    runSum S c limit hashOf stash node (ds ++ [d]) ≠ .ok s := by
  intro h
  have eX : allX (ds ++ [d]) = allX ds ++ d.xs := by simp [allX]
  have eY : allY (ds ++ [d]) = allY ds ++ d.ys := by simp [allY]
  simp only [runSum, runDays_append, Outcome.bind_eq_ok] at h
  obtain ⟨s1, h1, h2⟩ := h
  simp only [runDays, Outcome.bind_eq_ok, Outcome.ok.injEq] at h2
  obtain ⟨s2, h2, rfl⟩ := h2
  rw [eX, eY] at hsmall hbig
  have hperm := matched_step Prod.fst (allX ds) d.xs (allY ds) d.ys
  have hall := valueSum_perm hperm
  rw [valueSum_append] at hall
  have hadm1 : Admissible S Prod.fst B (fun t => NonZero S (t 0)) ds :=
    ⟨hadm.bound, fun e he => hadm.coins e (by simp [he]), fun p hp => hadm.x p (by rw [eX]; simp [hp]),
      fun p hp => hadm.y p (by rw [eY]; simp [hp]),
      by have := hadm.sizeX; rw [eX, List.length_append] at this; omega,
      by have := hadm.sizeY; rw [eY, List.length_append] at this; omega⟩
  have hposX : ∀ p ∈ allX ds, 0 ≤ p.2 := fun p hp => hpos p (by rw [eX]; simp [hp])
  have n2 : 0 ≤ valueSum (matched Prod.fst d.xs (allY ds) ++ matched Prod.fst (allX ds ++ d.xs) d.ys) :=
    valueSum_nonneg (fun p hpm => by
      rcases List.mem_append.1 hpm with h | h
      · exact hpos p (by rw [eX]; simp [(mem_matched.1 h).1])
      · exact hpos p (by rw [eX]; exact (mem_matched.1 h).1))
  have n1 : 0 ≤ valueSum (matched Prod.fst (allX ds) (allY ds)) :=
    valueSum_nonneg (fun p hp => hposX p (mem_matched.1 hp).1)
  obtain ⟨r1, _⟩ := runSum_spec S c limit hashOf hh B stash node ds hadm1 hlim hlimq hposX (by omega) s1 h1
  have hd1 : Admissible S Prod.fst B (fun t => NonZero S (t 0)) [d] :=
    ⟨hadm.bound, fun e he => hadm.coins e (by simp at he; simp [he]),
      fun p hp => hadm.x p (by rw [eX]; simp [allX] at hp; simp [hp]),
      fun p hp => hadm.y p (by rw [eY]; simp [allY] at hp; simp [hp]),
      by have := hadm.sizeX; rw [eX, List.length_append] at this; simp [allX]; omega,
      by have := hadm.sizeY; rw [eY, List.length_append] at this; simp [allY]; omega⟩
  obtain ⟨_, _, _, k4⟩ := daySum_step hh hlim r1 hd1 (by rw [← eX]; exact hadm.x)
    (by rw [← eY]; exact hadm.y) (by rw [← eX]; exact hadm.sizeX) (by rw [← eY]; exact hadm.sizeY) h2
  obtain ⟨ms, k, hp, _, hk, hg, _⟩ := k4 l0 l1
  rw [← valueSum_perm hp] at hall n2
  have hkv := S.smul_inj_int (by omega) n2 (by omega) hg
  omega

/-! ### C53 -/

/-- **C53** The cardinality reported does not depend on coins, masks, paddings, shuffles, nor on how
the additions are split over days. -/
theorem C53_cardinality_independent (S S' : Setup G) (c c' : Codec G) (hashOf hashOf' : Nat → List Bool)
    (hh : ∀ e, (hashOf e).length = 256) (hh' : ∀ e, (hashOf' e).length = 256)
    (B stash node stash' node' : Nat) (ds ds' : List (DayIn G Nat Unit))
    (hadm : Admissible S id B (fun t => NonZero S (t 0)) ds)
    (hadm' : Admissible S' id B (fun t => NonZero S' (t 0)) ds')
    (hX : (allX ds).Perm (allX ds')) (hY : (allY ds).Perm (allY ds')) (s s' : StCA G)
    (h : runCA S c hashOf stash node ds = .ok s) (h' : runCA S' c' hashOf' stash' node' ds' = .ok s')
    (l0 : s.p0.lost = []) (l1 : s.p1.lost = []) (l0' : s'.p0.lost = []) (l1' : s'.p1.lost = []) :
    s.cardinality = s'.cardinality := by
  rw [C42_cardinality_pairs S c hashOf hh B stash node ds hadm s h l0 l1,
    C42_cardinality_pairs S' c' hashOf' hh' B stash' node' ds' hadm' s' h' l0' l1']
  have : (fun x => (allY ds).count x) = (fun x => (allY ds').count x) := by
    funext x; exact hY.count_eq x
  rw [this]
  exact (hX.map _).sum_eq

/-- **C53** The set of elements output by PSI does not depend on them either. -/
theorem C53_psi_independent (S S' : Setup G) (c c' cu cu' : Codec G)
    (hashOf hashOf' : Nat → List Bool)
    (hh : ∀ e, (hashOf e).length = 256) (hh' : ∀ e, (hashOf' e).length = 256)
    (B stash node stash' node' : Nat) (ds ds' : List (DayIn G Nat (Ct G)))
    (hadm : Admissible S id B (fun t => NonZero S (t 0)) ds)
    (hadm' : Admissible S' id B (fun t => NonZero S' (t 0)) ds')
    (hX : (allX ds).Perm (allX ds')) (hY : (allY ds).Perm (allY ds')) (hYn : (allY ds).Nodup)
    (s s' : StPSI G)
    (h : runPSI S c cu hashOf stash node ds = .ok s)
    (h' : runPSI S' c' cu' hashOf' stash' node' ds' = .ok s')
    (l0 : s.p0.lost = []) (l1 : s.p1.lost = []) (l0' : s'.p0.lost = []) (l1' : s'.p1.lost = []) :
    s.intersection.Perm s'.intersection := by
  have h1 := C43_psi S c cu hashOf hh B stash node ds hadm s h l0 l1 hYn
  have h2 := C43_psi S' c' cu' hashOf' hh' B stash' node' ds' hadm' s' h' l0' l1' (hY.nodup_iff.1 hYn)
  refine h1.trans (List.Perm.trans ?_ h2.symm)
  have : (fun x => decide (x ∈ allY ds)) = (fun x => decide (x ∈ allY ds')) := by
    funext x; simp [hY.mem_iff]
  rw [this]
  exact (hX.filter _).map _

end Upsi.Proto
