import Verif.Hide.UpdMain
/-
Property theorems C81: the tree updates of the protocols with deletions hide the entries, under the decisional composite
residuosity assumption.
-/
namespace Upsi.Hide
open Upsi Upsi.Tree Upsi.Num Upsi.Proto Upsi.Paillier Upsi.View Upsi.Tree.Props

/-! ### specification -/

/-- Two trees that differ in the stored entries only. -/
structure AlikeU (hashOf : Nat → List Bool) (t t' : Upsi.Tree.Tree EP) : Prop where
  wf : TWF (fun e : EP => hashOf e.1) t
  wf' : TWF (fun e : EP => hashOf e.1) t'
  stash : t.stashSize = t'.stashSize
  node : t.nodeSize = t'.nodeSize
  depth : t.depth = t'.depth
  size : t.actualSize = t'.actualSize

/-- The sum of the advantages of the distinguishers of `n`-th residues that make the tree updates once, with the challenge in
one of the places. -/
def residueBound (n : Nat) [NeZero n] (hashOf : Nat → List Bool) (D : Outcome (List (Msg EncElem)) → Bool) (t : Upsi.Tree.Tree EP)
    (days : List UpDay) (U : List Place) : ℚ :=
  ∑ k, dcrAdv n (dcrReduction n (experimentU n hashOf D t days U) k)

/-- The messages party zero sends in several rounds to a party one whose replies are given; it stops at the first reply it
rejects.  Any strategy of party one gives some list of replies. -/
def zeroSends (mont : Int → Option Mont) (hashOf : Nat → List Bool) (k : DKeys) : DSt → List (List EP × RoundCoins × DelMsg) → List DelMsg
  | _, [] => []
  | s, (es, ρ, reply) :: rest =>
    match delGenI mont hashOf k s es ρ with
    | .ok (s', m, _) =>
      match delRecvII k s' reply with
      | .ok (s'', _) => m :: zeroSends mont hashOf k s'' rest
      | _ => [m]
    | _ => []

/-- The messages party one sends in several rounds to a party zero whose messages are given. -/
def oneSends (mont : Int → Option Mont) (hashOf : Nat → List Bool) (k : DKeys) : DSt → List (List EP × RoundCoins × DelMsg) → List DelMsg
  | _, [] => []
  | s, (es, ρ, msg) :: rest =>
    match delGenII mont hashOf k s msg es ρ with
    | .ok (s', m, _, _) => m :: oneSends mont hashOf k s' rest
    | _ => []

/-- The part of party zero's rounds that decides its tree updates. -/
def upDays0 (l : List (List EP × RoundCoins × DelMsg)) : List UpDay := l.map (fun x => ⟨x.1, x.2.1.hsh0, x.2.1.pads0⟩)
/-- The same for party one. -/
def upDays1 (l : List (List EP × RoundCoins × DelMsg)) : List UpDay := l.map (fun x => ⟨x.1, x.2.1.hsh1, x.2.1.pads1⟩)

/-- The coins in the places of the tree updates, given the coin tapes of the rounds. -/
def coinsFrom (tapes : List (Nat → Nat → Nat → Int)) (s : Place) : Int × Int :=
  match tapes[s.d]? with
  | some t => (t s.i s.j (2 * s.k), t s.i s.j (2 * s.k + 1))
  | none => (1, 1)

/-! ### proofs -/

theorem idx_get {U : List Place} {s : Place} (h : U.idxOf s < U.length) : U[U.idxOf s] = s := List.getElem_idxOf h

theorem experiment_shift {n : Nat} [NeZero n] {hashOf : Nat → List Bool} {D : Outcome (List (Msg EncElem)) → Bool} {t : Upsi.Tree.Tree EP}
    {days : List UpDay} {U : List Place} (hU : ∀ s ∈ placesOf t (upIds days), s ∈ U) :
    prob (experimentU n hashOf D t days U) =
      prob (fun z : Fin U.length → (ZMod (n ^ 2))ˣ =>
        D (updatesC (unitAt U z) (pubDays t.stashSize t.nodeSize t.depth t.actualSize (upIds days)))) := by
  rw [← dcr_shift (fun z : Fin U.length → (ZMod (n ^ 2))ˣ =>
        D (updatesC (unitAt U z) (pubDays t.stashSize t.nodeSize t.depth t.actualSize (upIds days))))
      (fun k => gen n ^ plainsU n hashOf t days U[k])]
  congr 1
  funext z
  rw [experimentU]
  congr 1
  refine updatesC_congr _ fun s hs => ?_
  have h := List.idxOf_lt_length_of_mem (hU s hs)
  simp only [unitAt, dif_pos h]
  congr 3
  exact (idx_get h).symm

theorem run_eq {p q : Nat} (hp : 0 < p - 1) (hq : 0 < q - 1) [NeZero (p * q)] {mont : Int → Option Mont} {sk : Private}
    (hns : sk.ns = ((p * q : Nat) : Int)) {z : Fin (p - 1) × Fin (q - 1) → (ZMod ((p * q) ^ 2))ˣ}
    (hz : ∀ a (m : Nat), m < p * q → sk.encrypt mont m (maskOf a.1) (maskOf a.2) = .ok (rep (gen (p * q) ^ m * z a)))
    {hashOf : Nat → List Bool} (hh : ∀ e, (hashOf e).length = 256)
    (D : Outcome (List (Msg EncElem)) → Bool) {t : Upsi.Tree.Tree EP} (ht : TWF (fun e : EP => hashOf e.1) t) {days : List UpDay}
    (hf : FitsU (p * q) t days) {U : List Place} (hU : ∀ s ∈ placesOf t (upIds days), s ∈ U) (x : Fin U.length → Fin (p - 1) × Fin (q - 1)) :
    D (treeUpdates mont hashOf sk (coinAt U x) t days) = experimentU (p * q) hashOf D t days U (fun k => z (x k)) := by
  rw [experimentU]
  congr 1
  let coin : Place → Fin (p - 1) × Fin (q - 1) := fun s =>
    if h : U.idxOf s < U.length then x ⟨U.idxOf s, h⟩ else (⟨0, hp⟩, ⟨0, hq⟩)
  have hc : coinAt U x = fun s => (maskOf (coin s).1, maskOf (coin s).2) := by
    funext s
    simp only [coinAt, coin]
    by_cases h : U.idxOf s < U.length
    · rw [dif_pos h, dif_pos h]
    · rw [dif_neg h, dif_neg h]; simp [maskOf]
  rw [hc, treeUpdates_eq hh hns (c := fun a : Fin (p - 1) × Fin (q - 1) => (maskOf a.1, maskOf a.2)) (z := z) hz days t coin ht hf]
  refine updatesC_congr _ fun s hs => ?_
  have h := List.idxOf_lt_length_of_mem (hU s hs)
  simp only [unitAt, coin, dif_pos h]

theorem accepts_eq {p q tries : Nat} (h : SafePrimes p q 1) [NeZero (p * q)] {mont : Int → Option Mont} (hm : MontOK mont) {sk : Private}
    (hsk : Private.new tries p q 1 = .ok sk) {hashOf : Nat → List Bool} (hh : ∀ e, (hashOf e).length = 256)
    (D : Outcome (List (Msg EncElem)) → Bool) {t : Upsi.Tree.Tree EP} (ht : TWF (fun e : EP => hashOf e.1) t) {days : List UpDay}
    (hf : FitsU (p * q) t days) {U : List Place} (hU : ∀ s ∈ placesOf t (upIds days), s ∈ U) :
    acceptsU p q mont hashOf sk D t days U =
      prob (fun x : Fin U.length → (ZMod ((p * q) ^ 2))ˣ => experimentU (p * q) hashOf D t days U (fun k => x k ^ (p * q))) := by
  obtain ⟨z, z1, z2, z3⟩ := private_residues h hm hsk
  have hns : sk.ns = ((p * q : Nat) : Int) := by rw [(private_new h.toPrimes hsk).ns, pow_one]
  refine Eq.trans ?_ (prob_residues z z1 z2 (experimentU (p * q) hashOf D t days U))
  exact congrArg prob (funext fun x => run_eq (by have := h.p5; omega) (by have := h.q5; omega) hns z3 hh D ht hf hU x)

/-! ### theorems -/

/-- **C81** Whatever test is applied to the tree updates of several rounds, it says yes with almost the same probability for
any two histories with the same path identifiers: the difference is at most the advantages of distinguishers of `n`-th
residues, each of which makes the tree updates once, from the modulus only. -/
theorem C81_tree_updates {p q tries : Nat} (h : SafePrimes p q 1) [NeZero (p * q)] {mont : Int → Option Mont} (hm : MontOK mont)
    {sk : Private} (hsk : Private.new tries p q 1 = .ok sk) {hashOf : Nat → List Bool} (hh : ∀ e, (hashOf e).length = 256)
    (D : Outcome (List (Msg EncElem)) → Bool) {t t' : Upsi.Tree.Tree EP} (ht : AlikeU hashOf t t') {days days' : List UpDay}
    (hf : FitsU (p * q) t days) (hf' : FitsU (p * q) t' days') (hids : upIds days = upIds days') :
    |acceptsU p q mont hashOf sk D t days (placesOf t (upIds days)) - acceptsU p q mont hashOf sk D t' days' (placesOf t (upIds days))| ≤
      residueBound (p * q) hashOf D t days (placesOf t (upIds days)) + residueBound (p * q) hashOf D t' days' (placesOf t (upIds days)) := by
  have hpub : pubDays t.stashSize t.nodeSize t.depth t.actualSize (upIds days) =
      pubDays t'.stashSize t'.nodeSize t'.depth t'.actualSize (upIds days') := by
    rw [ht.stash, ht.node, ht.depth, ht.size, hids]
  have hU' : ∀ s ∈ placesOf t' (upIds days'), s ∈ placesOf t (upIds days) := by
    intro s hs
    rw [placesOf, hpub]; exact hs
  have e1 := accepts_eq h hm hsk hh D ht.wf hf (fun s hs => hs)
  have e2 := accepts_eq h hm hsk hh D ht.wf' hf' hU'
  have b1 := dcr_bound (experimentU (p * q) hashOf D t days (placesOf t (upIds days)))
  have b2 := dcr_bound (experimentU (p * q) hashOf D t' days' (placesOf t (upIds days)))
  rw [experiment_shift (fun s hs => hs), ← e1] at b1
  rw [experiment_shift hU', ← e2, ← hpub] at b2
  rw [residueBound, residueBound]
  set X := prob (fun z : Fin (placesOf t (upIds days)).length → (ZMod ((p * q) ^ 2))ˣ =>
        D (updatesC (unitAt (placesOf t (upIds days)) z) (pubDays t.stashSize t.nodeSize t.depth t.actualSize (upIds days))))
  rw [abs_sub_comm] at b2
  refine le_trans ?_ (add_le_add b1 b2)
  exact abs_sub_le _ X _

/-- **C81** Encryptions with the private key hide the messages: a test of `N` encryptions with fresh coins says yes with almost
the same probability for any two lists of messages. -/
theorem C81_private_encrypt {p q tries : Nat} (h : SafePrimes p q 1) [NeZero (p * q)] {mont : Int → Option Mont} (hm : MontOK mont)
    {sk : Private} (hsk : Private.new tries p q 1 = .ok sk) {N : Nat} (D : (Fin N → Outcome Int) → Bool) (m m' : Fin N → Nat)
    (hlt : ∀ k, m k < p * q) (hlt' : ∀ k, m' k < p * q) :
    |prob (fun x : Fin N → Fin (p - 1) × Fin (q - 1) => D (fun k => sk.encrypt mont (m k) (maskOf (x k).1) (maskOf (x k).2))) -
      prob (fun x : Fin N → Fin (p - 1) × Fin (q - 1) => D (fun k => sk.encrypt mont (m' k) (maskOf (x k).1) (maskOf (x k).2)))| ≤
      ∑ k, dcrAdv (p * q) (dcrReduction (p * q) (fun z => D (fun k => .ok (rep (gen (p * q) ^ m k * z k)))) k) +
      ∑ k, dcrAdv (p * q) (dcrReduction (p * q) (fun z => D (fun k => .ok (rep (gen (p * q) ^ m' k * z k)))) k) := by
  obtain ⟨z, z1, z2, z3⟩ := private_residues h hm hsk
  have key : ∀ m : Fin N → Nat, (∀ k, m k < p * q) →
      |prob (fun x : Fin N → Fin (p - 1) × Fin (q - 1) => D (fun k => sk.encrypt mont (m k) (maskOf (x k).1) (maskOf (x k).2))) -
        prob (fun u : Fin N → (ZMod ((p * q) ^ 2))ˣ => D (fun k => .ok (rep (u k))))| ≤
        ∑ k, dcrAdv (p * q) (dcrReduction (p * q) (fun z => D (fun k => .ok (rep (gen (p * q) ^ m k * z k)))) k) := by
    intro m hlt
    have b := dcr_bound (n := p * q) (fun u : Fin N → (ZMod ((p * q) ^ 2))ˣ => D (fun k => .ok (rep (gen (p * q) ^ m k * u k))))
    have e1 := prob_residues (N := N) z z1 z2 (fun u : Fin N → (ZMod ((p * q) ^ 2))ˣ => D (fun k => .ok (rep (gen (p * q) ^ m k * u k))))
    have e2 := dcr_shift (fun u : Fin N → (ZMod ((p * q) ^ 2))ˣ => D (fun k => .ok (rep (u k)))) (fun k => gen (p * q) ^ m k)
    rw [← e1, e2] at b
    have e3 : (fun x : Fin N → Fin (p - 1) × Fin (q - 1) => D (fun k => sk.encrypt mont (m k) (maskOf (x k).1) (maskOf (x k).2))) =
        fun x => D (fun k => .ok (rep (gen (p * q) ^ m k * z (x k)))) := by
      funext x
      congr 1
      funext k
      exact z3 (x k) (m k) (hlt k)
    rw [e3]; exact b
  have b2 := key m' hlt'
  rw [abs_sub_comm] at b2
  exact le_trans (abs_sub_le _ _ _) (add_le_add (key m hlt) b2)

/-- **C81** The places: each is listed once, and coins of other places are not used. -/
theorem C81_places {n : Nat} {mont : Int → Option Mont} {hashOf : Nat → List Bool} (hh : ∀ e, (hashOf e).length = 256) (sk : Private)
    {t : Upsi.Tree.Tree EP} (ht : TWF (fun e : EP => hashOf e.1) t) {days : List UpDay} (hf : FitsU n t days) :
    (placesOf t (upIds days)).Nodup ∧ ∀ coin coin' : Place → Int × Int, (∀ s ∈ placesOf t (upIds days), coin s = coin' s) →
      treeUpdates mont hashOf sk coin t days = treeUpdates mont hashOf sk coin' t days :=
  ⟨usedPlaces_nodup _ _, fun coin coin' hc => treeUpdates_congr hh days t coin coin' ht hf hc⟩

theorem tape_eq (t : Nat → Nat → Nat → Int) (ts : List (Nat → Nat → Nat → Int)) (mont : Int → Option Mont) (sk : Private) (i j : Nat) :
    Proto.encPair mont sk (tapeAt (coinsFrom (t :: ts)) i j) = Proto.encPair mont sk (t i j) := by
  funext e; rfl

theorem coins_next (t : Nat → Nat → Nat → Int) (ts : List (Nat → Nat → Nat → Int)) :
    (fun s => coinsFrom (t :: ts) s.next) = coinsFrom ts := by
  funext s
  simp only [coinsFrom, Place.next, List.getElem?_cons_succ]

/-- **C81** Against any replies, what party zero sends contains the tree updates of `C81_tree_updates`, as far as it gets: the
replies have no influence on them. -/
theorem C81_party_zero {mont : Int → Option Mont} {hashOf : Nat → List Bool} (k : DKeys) (l : List (List EP × RoundCoins × DelMsg)) :
    ∀ (s : DSt) {ms : List (Msg EncElem)},
    treeUpdates mont hashOf k.sk (coinsFrom (l.map (fun x => x.2.1.enc0))) s.my (upDays0 l) = .ok ms →
    (zeroSends mont hashOf k s l).map DelMsg.updates <+: ms := by
  induction l with
  | nil => intro s ms _; exact List.nil_prefix
  | cons x l ih =>
    obtain ⟨es, ρ, reply⟩ := x
    intro s ms hms
    simp only [upDays0, List.map_cons] at hms
    rw [treeUpdates, coins_next] at hms
    simp only [tape_eq, Outcome.bind_eq_ok, Outcome.pure_eq, Outcome.ok.injEq] at hms
    obtain ⟨u, hu, ms', hms', rfl⟩ := hms
    rw [zeroSends]
    cases hg : delGenI mont hashOf k s es ρ with
    | ok y =>
      obtain ⟨s', m, g⟩ := y
      simp only [delGenI, hu, Outcome.bind_ok, Outcome.bind_eq_ok, Outcome.pure_eq, Outcome.ok.injEq, Prod.mk.injEq] at hg
      obtain ⟨⟨gs, ws⟩, -, rfl, rfl, -⟩ := hg
      simp only
      cases hr : delRecvII k ⟨u.tree, s.other, s.lost ++ u.lost⟩ reply with
      | ok y =>
        obtain ⟨s'', r⟩ := y
        simp only [delRecvII, Outcome.bind_eq_ok, Outcome.pure_eq, Outcome.ok.injEq, Prod.mk.injEq] at hr
        obtain ⟨o, -, ys, -, rfl, -⟩ := hr
        simp only [List.map_cons, List.cons_prefix_cons, true_and]
        exact ih _ hms'
      | err e => simp
      | abort => simp
      | ub => simp
    | err e => simp
    | abort => simp
    | ub => simp

/-- **C81** The same for party one. -/
theorem C81_party_one {mont : Int → Option Mont} {hashOf : Nat → List Bool} (k : DKeys) (l : List (List EP × RoundCoins × DelMsg)) :
    ∀ (s : DSt) {ms : List (Msg EncElem)},
    treeUpdates mont hashOf k.sk (coinsFrom (l.map (fun x => x.2.1.enc1))) s.my (upDays1 l) = .ok ms →
    (oneSends mont hashOf k s l).map DelMsg.updates <+: ms := by
  induction l with
  | nil => intro s ms _; exact List.nil_prefix
  | cons x l ih =>
    obtain ⟨es, ρ, msg⟩ := x
    intro s ms hms
    simp only [upDays1, List.map_cons] at hms
    rw [treeUpdates, coins_next] at hms
    simp only [tape_eq, Outcome.bind_eq_ok, Outcome.pure_eq, Outcome.ok.injEq] at hms
    obtain ⟨u, hu, ms', hms', rfl⟩ := hms
    rw [oneSends]
    cases hg : delGenII mont hashOf k s msg es ρ with
    | ok y =>
      obtain ⟨s', m, r, g⟩ := y
      simp only [delGenII, hu, Outcome.bind_ok, Outcome.bind_eq_ok, Outcome.pure_eq, Outcome.ok.injEq, Prod.mk.injEq] at hg
      obtain ⟨o, -, ys, -, ⟨gs, ws⟩, -, rfl, rfl, -⟩ := hg
      simp only [List.map_cons, List.cons_prefix_cons, true_and]
      exact ih _ hms'
    | err e => simp
    | abort => simp
    | ub => simp

end Upsi.Hide
