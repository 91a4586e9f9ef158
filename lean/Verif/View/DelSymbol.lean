import Verif.View.DelModel
import Verif.Paillier.Symbol
import Verif.View.Props
/-
C71, the protocols with deletions: what the Jacobi symbols of the ciphertexts tell the owner of a tree.
-/
namespace Upsi.View
open Upsi Upsi.Tree Upsi.Num Upsi.Paillier Upsi.Proto

/-- A public key whose fixed base has symbol one: what `Public.new` makes of a modulus whose prime factors are three
modulo four (`symbolKey_new`). -/
structure SymbolKey (p q : Nat) (mont : Int → Option Mont) (pk : Public) : Prop where
  primes : Primes p q 1
  hmont : MontOK mont
  ok : PublicOK (p * q) 1 pk
  enc : ∀ m r c, pk.encrypt mont m r = .ok c → symbol (p * q) c = 1

theorem symbolKey_new {p q : Nat} (h : Primes p q 1) (hp : p % 4 = 3) (hq : q % 4 = 3) {mont : Int → Option Mont}
    (hm : MontOK mont) {x : Int} {pk : Public} (hpub : Public.new x ((p * q : Nat) : Int) 1 = .ok pk)
    (hx : Int.gcd x ((p * q : Nat) : Int) = 1) : SymbolKey p q mont pk :=
  ⟨h, hm, (public_gn_symbol h hp hq hpub hx).1, fun _ _ _ hc => C71_public_symbol h hp hq hpub hx hm hc⟩

variable {p q : Nat} {mont : Int → Option Mont} {pk : Public}

/-- **C71** The candidates an element produces carry the symbols of the ciphertexts on its path, whatever is drawn;
so do the ciphertexts of the payloads. -/
theorem C71_candidates (K : SymbolKey p q mont pk) {hashOf : Nat → List Bool} {other : Upsi.Tree.Tree (Int × Int)} {e : EP}
    {ρ : PathCoins} {its : List Item} (h : combineInit mont hashOf pk other e ρ = .ok its) :
    ∃ path, getPath other (hashOf e.1) = .ok path ∧
      its.map (fun it => symbol (p * q) it.msg) = path.map (fun c => symbol (p * q) c.1) ∧
      (e.2 = 1 → its.map (fun it => symbol (p * q) it.z) = path.map (fun c => symbol (p * q) c.2)) := by
  simp only [combineInit, Outcome.bind_eq_ok] at h
  obtain ⟨path, hpath, h⟩ := h
  refine ⟨path, hpath, ?_, ?_⟩
  · have h' := forIdx_forall₂ _ _ _ h
    clear h hpath
    induction h' with
    | nil => rfl
    | @cons c it _ _ hd _ ih =>
      rw [List.map_cons, List.map_cons, ih]
      obtain ⟨k, hd⟩ := hd
      simp only [Outcome.bind_eq_ok, Outcome.pure_eq] at hd
      obtain ⟨a, ha, tmp, ht, hd⟩ := hd
      have hmsg : ∀ {z : Outcome Int} {b : Item}, (z >>= fun z => Outcome.ok (⟨ρ.alpha k, z, tmp⟩ : Item)) = .ok b → b.msg = tmp := by
        intro z b hb
        obtain ⟨_, _, hb⟩ := Outcome.bind_eq_ok.1 hb
        rw [← Outcome.ok.inj hb]
      have he : it.msg = tmp := by
        split at hd <;> exact hmsg hd
      rw [he, C71_add_symbol K.ok ht, K.enc _ _ _ ha, one_mul]
  · intro he
    have h' := forIdx_forall₂ _ _ _ h
    clear h hpath
    induction h' with
    | nil => rfl
    | cons hd _ ih =>
      rw [List.map_cons, List.map_cons, ih]
      obtain ⟨k, hd⟩ := hd
      simp only [Outcome.bind_eq_ok, Outcome.pure_eq, he, ne_eq, not_true_eq_false, if_false, Outcome.bind_ok, Outcome.ok.injEq] at hd
      obtain ⟨a, ha, tmp, ht, rfl⟩ := hd
      rfl

/-- The symbol of a candidate as it is sent. -/
def wireSymbol (n : Nat) (w : EncElem) : Int :=
  match w with
  | .onlyPaillier b => symbol n (ofBytes b)
  | _ => 0

theorem wireSymbol_ser {n : Nat} {x : Int} {w : EncElem} (h : serOnly x = .ok w) : wireSymbol n w = symbol n x := by
  simp only [serOnly, Outcome.bind_eq_ok, Outcome.pure_eq, Outcome.ok.injEq] at h
  obtain ⟨b, hb, rfl⟩ := h
  simp only [wireSymbol, toBytes_inv hb]

/-- The symbols along the path of an element in the copy of a tree. -/
def pathSymbols (n : Nat) (hashOf : Nat → List Bool) (copy : Upsi.Tree.Tree (Int × Int)) (e : EP) : Outcome (List Int) := do
  let path ← getPath copy (hashOf e.1)
  pure (path.map (fun c => symbol n c.1))

theorem candidatesOf_symbols (K : SymbolKey p q mont pk) {hashOf : Nat → List Bool} {other : Upsi.Tree.Tree (Int × Int)}
    {es : List EP} {path : Nat → PathCoins} {gs : List (List Item)} {ws : List (List EncElem)}
    (h : candidatesOf mont hashOf pk other es path = .ok (gs, ws)) :
    List.Forall₂ (fun e w => pathSymbols (p * q) hashOf other e = .ok (w.map (wireSymbol (p * q)))) es ws := by
  simp only [candidatesOf, Outcome.bind_eq_ok, Outcome.pure_eq, Outcome.ok.injEq, Prod.mk.injEq] at h
  obtain ⟨gs', h1, ws', h2, rfl, rfl⟩ := h
  refine forall₂_comp (forIdx_forall₂ _ _ _ h1) (forIdx_forall₂ _ _ _ h2) ?_
  rintro e g w ⟨i, hi⟩ ⟨j, hj⟩
  obtain ⟨path, hp, hs, hz⟩ := C71_candidates K hi
  clear hz
  rw [pathSymbols, hp, Outcome.bind_ok, Outcome.pure_eq, ← hs]
  congr 1
  have h' := forIdx_forall₂ _ _ _ hj
  clear hj hs hi
  induction h' with
  | nil => rfl
  | cons hd _ ih =>
    obtain ⟨_, hd⟩ := hd
    rw [List.map_cons, List.map_cons, ih, wireSymbol_ser hd]

/-- **C71** In message I the symbols of the candidates of every element are those of the peer's own ciphertexts on the
path of that element, for every state of the trees and all coins. -/
theorem C71_message_one {k : DKeys} (K : SymbolKey p q mont k.pk) {hashOf : Nat → List Bool} {s s' : DSt} {es : List EP}
    {ρ : RoundCoins} {m : DelMsg} {gs : List (List Item)} (h : delGenI mont hashOf k s es ρ = .ok (s', m, gs)) :
    List.Forall₂ (fun e w => pathSymbols (p * q) hashOf s.other e = .ok (w.map (wireSymbol (p * q)))) es m.candidates := by
  simp only [delGenI, Outcome.bind_eq_ok, Outcome.pure_eq, Outcome.ok.injEq, Prod.mk.injEq] at h
  obtain ⟨u, hu, ⟨gs', ws⟩, hc, rfl, rfl, rfl⟩ := h
  exact candidatesOf_symbols K hc

/-- **C71** In message II likewise, along the paths of the copy that already holds party zero's update of the day. -/
theorem C71_message_two {k : DKeys} (K : SymbolKey p q mont k.pk) {hashOf : Nat → List Bool} {s s' : DSt} {m1 m : DelMsg} {es : List EP}
    {ρ : RoundCoins} {ys : List (List Int)} {gs : List (List Item)}
    (h : delGenII mont hashOf k s m1 es ρ = .ok (s', m, ys, gs)) :
    recvUpdate deserPair s.other m1.updates = .ok s'.other ∧
    List.Forall₂ (fun e w => pathSymbols (p * q) hashOf s'.other e = .ok (w.map (wireSymbol (p * q)))) es m.candidates := by
  simp only [delGenII, Outcome.bind_eq_ok, Outcome.pure_eq, Outcome.ok.injEq, Prod.mk.injEq] at h
  obtain ⟨other, ho, ys', hy, u, hu, ⟨gs', ws⟩, hc, rfl, rfl, rfl, rfl⟩ := h
  exact ⟨ho, candidatesOf_symbols K hc⟩

/-- **C71** Two elements whose paths show different symbols never produce the same candidates, whatever both draw: the
owner of the tree tells them apart with certainty. -/
theorem C71_paths_told_apart {k : DKeys} (K : SymbolKey p q mont k.pk) {hashOf : Nat → List Bool} {s a b : DSt} {e e' : EP}
    {ρ ρ' : RoundCoins} {m m' : DelMsg} {gs gs' : List (List Item)}
    (hne : pathSymbols (p * q) hashOf s.other e ≠ pathSymbols (p * q) hashOf s.other e')
    (h : delGenI mont hashOf k s [e] ρ = .ok (a, m, gs)) (h' : delGenI mont hashOf k s [e'] ρ' = .ok (b, m', gs')) :
    m.candidates ≠ m'.candidates := by
  intro heq
  have h1 := C71_message_one K h
  have h2 := C71_message_one K h'
  rw [heq] at h1
  obtain ⟨w, _, h1, _, hw⟩ := List.forall₂_cons_left_iff.1 h1
  obtain ⟨w', _, h2, _, hw'⟩ := List.forall₂_cons_left_iff.1 h2
  rw [hw] at hw'
  obtain ⟨rfl, _⟩ := List.cons.inj hw'
  exact hne (h1.trans h2.symm)

/-- **C71** The same for message II. -/
theorem C71_paths_told_apart_two {k : DKeys} (K : SymbolKey p q mont k.pk) {hashOf : Nat → List Bool} {s a b : DSt} {e e' : EP}
    {ρ ρ' : RoundCoins} {m1 m m' : DelMsg} {ys ys' : List (List Int)} {gs gs' : List (List Item)} {copy : Upsi.Tree.Tree (Int × Int)}
    (hcopy : recvUpdate deserPair s.other m1.updates = .ok copy)
    (hne : pathSymbols (p * q) hashOf copy e ≠ pathSymbols (p * q) hashOf copy e')
    (h : delGenII mont hashOf k s m1 [e] ρ = .ok (a, m, ys, gs)) (h' : delGenII mont hashOf k s m1 [e'] ρ' = .ok (b, m', ys', gs')) :
    m.candidates ≠ m'.candidates := by
  intro heq
  obtain ⟨c1, h1⟩ := C71_message_two K h
  obtain ⟨c2, h2⟩ := C71_message_two K h'
  rw [← Outcome.ok.inj (hcopy.symm.trans c1)] at h1
  rw [← Outcome.ok.inj (hcopy.symm.trans c2)] at h2
  rw [heq] at h1
  obtain ⟨w, _, h1, _, hw⟩ := List.forall₂_cons_left_iff.1 h1
  obtain ⟨w', _, h2, _, hw'⟩ := List.forall₂_cons_left_iff.1 h2
  rw [hw] at hw'
  obtain ⟨rfl, _⟩ := List.cons.inj hw'
  exact hne (h1.trans h2.symm)

/-- **C71** The block the receiver of the transfer gets has the symbol of the payload's ciphertext if the circuit found
equality and symbol one if not. -/
theorem C71_match (K : SymbolKey p q mont pk) {sk : Private} {ro : List UInt8 → Nat} {aliceSends : Bool} {blocks : Nat}
    (hb : cntBlock ((p * q : Nat) : Int) = .ok blocks) {ρ : GcCoins} {i : Nat} {x z y : Int} {v : GcView}
    (h : gcItemV ro mont pk sk aliceSends blocks ρ i x z y = .ok v) :
    symbol (p * q) v.block = if bigNum2bool ro x 72 = bigNum2bool ro y 72 then symbol (p * q) z else 1 := by
  simp only [gcItemV, Outcome.bind_eq_ok, Outcome.pure_eq, Outcome.ok.injEq] at h
  obtain ⟨bx, hx, bY, hy, enc, he, ifEq, hi, b0, hb0, b1, hb1, d, hd, rfl⟩ := h
  have hn := Primes.n_pos K.primes
  have hpow : (0 : Int) < ((p * q : Nat) : Int) ^ 2 := by positivity
  obtain ⟨e0, _, e1⟩ := Paillier'.encrypt_inv K.primes K.hmont K.ok he
  have hE : 0 ≤ enc ∧ enc < ((p * q : Nat) : Int) ^ 2 := ⟨e1.1, e1.2.1⟩
  have hI : 0 ≤ ifEq ∧ ifEq < ((p * q : Nat) : Int) ^ 2 := by
    have := hi
    rw [Public.add, modMul, K.ok.modulus] at this
    split at this
    · simp at this
    · rw [← Outcome.ok.inj this]
      exact ⟨Int.emod_nonneg _ hpow.ne', Int.emod_lt_of_pos _ hpow⟩
  have sE : symbol (p * q) enc = 1 := K.enc _ _ _ he
  have sI : symbol (p * q) ifEq = symbol (p * q) z := by rw [C71_add_symbol K.ok hi, sE, mul_one]
  have hbl : ∀ (c : Int) (bl : List UInt8), 0 ≤ c ∧ c < ((p * q : Nat) : Int) ^ 2 → bigNum2block c blocks = .ok bl →
      ((block2BigNum bl blocks : Nat) : Int) = c := by
    intro c bl hc hbl
    obtain ⟨bl', e1, _, e2⟩ := C33_block_roundtrip c blocks hc.1 (lt_of_lt_of_le hc.2 (cntBlock_spec hb))
    rw [hbl, Outcome.ok.injEq] at e1
    subst e1
    exact e2
  rw [hx, hy]
  simp only [Outcome.ok.injEq]
  by_cases hxy : bx = bY
  · simp only [hxy, if_true, decide_true] at hb0 hb1 ⊢
    cases hA : ρ.bit i <;> cases hS : aliceSends <;> rw [hA, hS] at hb0 hb1 <;> simp at hb0 hb1 ⊢
    all_goals first
      | (rw [hbl _ _ hI hb0]; exact sI)
      | (rw [hbl _ _ hI hb1]; exact sI)
  · simp only [hxy, if_false, decide_false] at hb0 hb1 ⊢
    cases hA : ρ.bit i <;> cases hS : aliceSends <;> rw [hA, hS] at hb0 hb1 <;> simp at hb0 hb1 ⊢
    all_goals first
      | (rw [hbl _ _ hE hb0]; exact sE)
      | (rw [hbl _ _ hE hb1]; exact sE)

theorem gcLoopV_symbols (K : SymbolKey p q mont pk) {sk : Private} {ro : List UInt8 → Nat} {aliceSends : Bool} {blocks : Nat}
    (hb : cntBlock ((p * q : Nat) : Int) = .ok blocks) {ρ : GcCoins} (its : List Item) : ∀ (i : Nat) (ys : List Int) (vs : List GcView),
    gcLoopV ro mont pk sk aliceSends blocks ρ i its ys = .ok vs →
    List.Forall₂ (fun (a : Item × Int) v => symbol (p * q) v.block =
      if bigNum2bool ro a.1.x 72 = bigNum2bool ro a.2 72 then symbol (p * q) a.1.z else 1) (its.zip ys) vs := by
  induction its with
  | nil =>
    intro i ys vs h
    cases ys with
    | nil => simp only [gcLoopV, Outcome.ok.injEq] at h; subst h; exact .nil
    | cons y ys => simp [gcLoopV] at h
  | cons it its ih =>
    intro i ys vs h
    cases ys with
    | nil => simp [gcLoopV] at h
    | cons y ys =>
      simp only [gcLoopV, Outcome.bind_eq_ok, Outcome.pure_eq, Outcome.ok.injEq] at h
      obtain ⟨v, hv, vs', hvs, rfl⟩ := h
      exact .cons (C71_match K hb hv) (ih _ _ _ hvs)

theorem gcPhaseV_symbols (K : SymbolKey p q mont pk) {sk : Private} {ro : List UInt8 → Nat} {aliceSends : Bool} {ρ : GcCoins}
    {its : List Item} {ys : List Int} {vs : List GcView} (h : gcPhaseV ro mont pk sk aliceSends ρ its ys = .ok vs) :
    List.Forall₂ (fun (a : Item × Int) v => symbol (p * q) v.block =
      if bigNum2bool ro a.1.x 72 = bigNum2bool ro a.2 72 then symbol (p * q) a.1.z else 1) (its.zip ys) vs := by
  simp only [gcPhaseV, Outcome.bind_eq_ok, K.ok.hn] at h
  obtain ⟨bs, h1, br, _, h3⟩ := h
  split at h3
  · simp at h3
  · exact gcLoopV_symbols K h1 its 0 ys vs h3

/-- **C71** A whole day, seen by party zero, the owner of the tree party one compares with: the symbols of the candidates
of every element `y` of party one are those along the path of `y` in the copy of party zero's own tree, and the block of every
comparison has the symbol of the payload's ciphertext when the circuit found equality and symbol one otherwise. -/
theorem C71_day_zero {k0 k1 : DKeys} (K : SymbolKey p q mont k1.pk) {ro : List UInt8 → Nat} {hashOf : Nat → List Bool} {s : StDel}
    {xs ys : List EP} {ρ : DelCoins} {V : DelView} (h : viewDel ro mont hashOf k0 k1 s xs ys ρ = .ok V) :
    recvUpdate deserPair s.p1.other V.msg1.updates = .ok V.st1.other ∧
    List.Forall₂ (fun e w => pathSymbols (p * q) hashOf V.st1.other e = .ok (w.map (wireSymbol (p * q)))) ys V.msg2.candidates ∧
    List.Forall₂ (fun (a : Item × Int) v => symbol (p * q) v.block =
      if bigNum2bool ro a.1.x 72 = bigNum2bool ro a.2 72 then symbol (p * q) a.1.z else 1)
      (V.out.items1.flatten.zip V.out.resp0.flatten) V.f2 := by
  simp only [viewDel, Outcome.bind_eq_ok, Outcome.pure_eq, Outcome.ok.injEq] at h
  obtain ⟨⟨a, m1, g0⟩, h1, ⟨b, m2, r1, g1⟩, h2, ⟨c, r0⟩, h3, f1, h4, f2, h5, rfl⟩ := h
  have := C71_message_two K h2
  exact ⟨this.1, this.2, gcPhaseV_symbols K h5⟩

/-- **C71** A whole day, seen by party one. -/
theorem C71_day_one {k0 k1 : DKeys} (K : SymbolKey p q mont k0.pk) {ro : List UInt8 → Nat} {hashOf : Nat → List Bool} {s : StDel}
    {xs ys : List EP} {ρ : DelCoins} {V : DelView} (h : viewDel ro mont hashOf k0 k1 s xs ys ρ = .ok V) :
    List.Forall₂ (fun e w => pathSymbols (p * q) hashOf s.p0.other e = .ok (w.map (wireSymbol (p * q)))) xs V.msg1.candidates ∧
    List.Forall₂ (fun (a : Item × Int) v => symbol (p * q) v.block =
      if bigNum2bool ro a.1.x 72 = bigNum2bool ro a.2 72 then symbol (p * q) a.1.z else 1)
      (V.out.items0.flatten.zip V.out.resp1.flatten) V.f1 := by
  simp only [viewDel, Outcome.bind_eq_ok, Outcome.pure_eq, Outcome.ok.injEq] at h
  obtain ⟨⟨a, m1, g0⟩, h1, ⟨b, m2, r1, g1⟩, h2, ⟨c, r0⟩, h3, f1, h4, f2, h5, rfl⟩ := h
  exact ⟨C71_message_one K h1, gcPhaseV_symbols K h4⟩

end Upsi.View
