import Verif.Setup.TreeLemmas
/- The states after importing initial trees satisfy the protocol invariants (helper lemmas for C60-C62). -/
namespace Upsi.Setup
open Upsi Upsi.ElGamal Upsi.Tree Upsi.Tree.Props Upsi.Num Upsi.Proto

variable {α β γ κ P G : Type} [AddCommGroup G] [DecidableEq G]

/-- Well-formed coins of a `GenerateTrees`: path identifiers of 256 bits (one per element), padding
elements in `[B, q)`. -/
structure TreeCoins.WF (key : α → Nat) (B q : Nat) (data : List α) (ρ : TreeCoins α) : Prop where
  hsh : Batch.WF (data, ρ.hsh)
  pads : ∀ i j, B ≤ key (ρ.pads i j) ∧ key (ρ.pads i j) < q

theorem serializeCt_total (c : Codec G) {x : Ct G} {p : CtProto} (h : serializeCt c x = .ok p) :
    deserializeCt c p = .ok x := by
  rcases (C29_wire c x) with ⟨h1, h2⟩
  by_cases hx : x.u ≠ 0 ∧ x.e ≠ 0
  · obtain ⟨p', hp, hd⟩ := h1 hx
    rw [h] at hp
    simp only [Outcome.ok.injEq] at hp
    subst hp
    exact hd
  · obtain ⟨m, hm⟩ := h2 (by tauto)
    rw [hm] at h
    simp at h

theorem serNoPayload_tree (c : Codec G) {x : Ct G} {w : EncElem} (h : serNoPayload c x = .ok w) :
    deserTreeCt c w = .ok x := by
  obtain ⟨p, hp, rfl⟩ := serNoPayload_inv c h
  exact serializeCt_total c hp

theorem serElGamal_both (c : Codec G) {x k : Ct G} {w : EncElem} (h : serElGamal c x k = .ok w) :
    deserTreeCt c w = .ok x ∧ deserElGamal c w = .ok (x, k) := by
  simp only [serElGamal, Outcome.bind_eq_ok, Outcome.pure_eq, Outcome.ok.injEq] at h
  obtain ⟨a, ha, b, hb, rfl⟩ := h
  exact ⟨serializeCt_total c ha, by simp [deserElGamal, serializeCt_total c ha, serializeCt_total c hb]⟩

theorem serPaillier_both (c : Codec G) {x : Ct G} {k : Int} {w : EncElem} (h : serPaillier c x k = .ok w) :
    deserTreeCt c w = .ok x ∧ deserPaillier c w = .ok (x, k) := by
  simp only [serPaillier, Outcome.bind_eq_ok, Outcome.pure_eq, Outcome.ok.injEq] at h
  obtain ⟨a, ha, b, hb, rfl⟩ := h
  exact ⟨serializeCt_total c ha, by simp [deserPaillier, serializeCt_total c ha, toBytes_inv hb]⟩

theorem encNat_dec {x : Nat} {p : PElem} (h : encNat x = .ok p) : decNat p = x := by
  simp only [encNat, encElement, Outcome.bind_eq_ok, Outcome.pure_eq, Outcome.ok.injEq] at h
  obtain ⟨b, hb, rfl⟩ := h
  have := toBytes_inv hb
  simp only [decNat]
  omega

theorem encNatPair_dec {x : Nat × Int} {p : PElem} (h : encNatPair x = .ok p) :
    decNatPair p = x ∧ decNat p = x.1 := by
  simp only [encNatPair, Tree.encPair, Outcome.bind_eq_ok, Outcome.pure_eq, Outcome.ok.injEq] at h
  obtain ⟨b, hb, b', hb', rfl⟩ := h
  have h1 := toBytes_inv hb
  have h2 := toBytes_inv hb'
  have h3 : ofBytes b = x.1 := by exact_mod_cast h1
  refine ⟨?_, h3⟩
  simp only [decNatPair, h3]
  exact Prod.ext rfl h2

/-- One direction of an import: the owner's tree `mine` and the peer's copy `copy` after the initial
elements `X0` have been stored (`key` gives the element of an entry). -/
structure Imported (key : P → Nat) (hashOf : Nat → List Bool) (Enc : P → γ → Prop) (B q : Nat) (X0 : List P)
    (mine : Upsi.Tree.Tree P) (copy : Upsi.Tree.Tree γ) (lost : List P) : Prop where
  wf : TWF (fun p => hashOf (key p)) mine
  size : mine.actualSize = X0.length
  all : (mine.contents ++ lost).Perm X0
  mir : Mirror Enc (fun p => B ≤ key p ∧ key p < q) mine copy

/-- `GenerateTrees` without deletions followed by import. -/
theorem gen_imported {key : P → Nat} {hashOf : Nat → List Bool} (hh : ∀ e, (hashOf e).length = 256) {f : α → P}
    {enc : Tape → α → Outcome EncElem} {deser : EncElem → Outcome β} {ser : β → Outcome EncElem}
    {encP : α → Outcome PElem} {dec : PElem → P} {deser' : EncElem → Outcome γ} {Enc : α → β → Prop}
    {Enc' : P → γ → Prop} {R : β → γ → Prop} {B q : Nat}
    (hE : ∀ t a w c, enc t a = .ok w → deser w = .ok c → Enc a c)
    (hR : ∀ c w, ser c = .ok w → ∃ d, deser' w = .ok d ∧ R c d)
    (hE' : ∀ a c d, Enc a c → R c d → Enc' (f a) d)
    (hdec : ∀ a p, encP a = .ok p → dec p = f a)
    {stash node : Nat} {data : List α} {ρ : TreeCoins α} (hρ : ρ.WF (fun a => key (f a)) B q data)
    (hsz : data.length < 2 ^ 30) {fs : TreeFiles} {lost : List α}
    (h : generateTrees (fun a => hashOf (key (f a))) id enc deser ser encP stash node data ρ = .ok (fs, lost)) :
    ∃ r, deserializeEnc deser' fs.enc = .ok r ∧
      Imported key hashOf Enc' B q (data.map f) (deserialize dec fs.plain) r (lost.map f) := by
  obtain ⟨x, h1, h2, h3, h4, h5, r, h6, h7⟩ := generateTrees_import (hashOf := fun p => hashOf (key p))
    (fun e => hh _) (PostOK.id _) hE hR hE' (isPad := fun a => B ≤ key (f a) ∧ key (f a) < q)
    (isPad' := fun p => B ≤ key p ∧ key p < q) (fun _ h => h) hdec hρ.hsh hρ.pads hsz h
  refine ⟨r, h6, ?_⟩
  rw [h3]
  refine ⟨h4, by simpa [mapTree] using h5, ?_, h7⟩
  have := sendUpdate_all (fun a => by rw [hh]) (empty_wf _ _ _) hρ.hsh (by simpa [Tree.empty] using hsz) h1
  rw [mapTree_contents, ← h2, ← List.map_append]
  exact (this.trans (by simp [Tree.contents, Tree.empty])).map f

/-- Party one's trees, encrypted under the key with secret `sk`. -/
theorem gen1_imported {c : Codec G} {hashOf : Nat → List Bool} (hh : ∀ e, (hashOf e).length = 256) {pk : PK G}
    {sk : Int} (hpk : pk.y = sk • pk.g) {B q stash node : Nat} {Y0 : List Nat} {ρ : TreeCoins Nat}
    (hρ : ρ.WF id B q Y0) (hsz : Y0.length < 2 ^ 30) {fs : TreeFiles} {lost : List Nat}
    (h : genAdd1 c hashOf pk stash node Y0 ρ = .ok (fs, lost)) :
    ∃ r, deserializeEnc (deserTreeCt c) fs.enc = .ok r ∧
      Imported (P := Nat) id hashOf (fun (y : Nat) x => decrypt sk x = (y : Int) • pk.g) B q Y0
        (deserialize decNat fs.plain) r lost := by
  have := gen_imported (key := id) (f := fun y : Nat => y) hh (R := fun x y => y = x)
    (Enc := fun (y : Nat) (x : Ct G) => decrypt sk x = (y : Int) • pk.g)
    (Enc' := fun (y : Nat) (x : Ct G) => decrypt sk x = (y : Int) • pk.g) (dec := decNat)
    (deser' := deserTreeCt c) (B := B) (q := q) ?_ (fun x w hw => ⟨x, serNoPayload_tree c hw, rfl⟩)
    (fun a x y hx e => e ▸ hx) (fun a p hp => encNat_dec hp) hρ hsz h
  · simpa using this
  · intro t y w x hw hx
    have := deserTree_noPayload c hw hx
    subst this
    simp only [decrypt, encrypt, encryptPoint, hpk]; module

/-- Party zero's trees of a setup without secret sharing, read with or without payloads. -/
theorem gen0_imported (S : Setup G) {c : Codec G} {hashOf : Nat → List Bool} (hh : ∀ e, (hashOf e).length = 256)
    {B stash node : Nat} {X0 : List (Nat × Int)} {ρ : TreeCoins (Nat × Int)}
    (hρ : ρ.WF Prod.fst B S.q X0) (hsz : X0.length < 2 ^ 30) {fs : TreeFiles} {lost : List (Nat × Int)}
    (h : genAdd0 c hashOf S.pk stash node X0 ρ = .ok (fs, lost)) :
    (∃ r, deserializeEnc (deserTreeCt c) fs.enc = .ok r ∧
      Imported (P := Nat) id hashOf (fun (x : Nat) y => S.dec y = (x : Int) • S.g) B S.q (X0.map Prod.fst)
        (deserialize decNat fs.plain) r (lost.map Prod.fst)) ∧
    (∃ r, deserializeEnc (deserElGamal c) fs.enc = .ok r ∧
      Imported (P := Nat × Int) Prod.fst hashOf (fun p (y : Ct G × Ct G) => S.dec y.1 = (p.1 : Int) • S.g ∧
        S.dec y.2 = p.2 • S.g) B S.q X0 (deserialize decNatPair fs.plain) r lost) := by
  constructor
  · exact gen_imported (key := id) (f := Prod.fst) hh (R := fun (x : Ct G × Ct G) y => y = x.1)
      (Enc := fun p (y : Ct G × Ct G) => S.dec y.1 = (p.1 : Int) • S.g ∧ S.dec y.2 = p.2 • S.g)
      (Enc' := fun (x : Nat) (y : Ct G) => S.dec y = (x : Int) • S.g) (dec := decNat)
      (deser' := deserTreeCt c) (B := B) (q := S.q) (fun t p w x hw hx => (funcSum_ok S c).tree t p w x hw hx)
      (fun x w hw => ⟨x.1, (serElGamal_both c hw).1, rfl⟩)
      (fun a x y hx e => e ▸ hx.1) (fun a p hp => (encNatPair_dec hp).2) hρ hsz h
  · have := gen_imported (key := Prod.fst) (f := fun p : Nat × Int => p) hh (R := fun (x y : Ct G × Ct G) => y = x)
      (Enc := fun p (y : Ct G × Ct G) => S.dec y.1 = (p.1 : Int) • S.g ∧ S.dec y.2 = p.2 • S.g)
      (Enc' := fun p (y : Ct G × Ct G) => S.dec y.1 = (p.1 : Int) • S.g ∧ S.dec y.2 = p.2 • S.g)
      (dec := decNatPair)
      (deser' := deserElGamal c) (B := B) (q := S.q) (fun t p w x hw hx => (funcSum_ok S c).tree t p w x hw hx)
      (fun x w hw => ⟨x, (serElGamal_both c hw).2, rfl⟩)
      (fun a x y hx e => e ▸ hx) (fun a p hp => (encNatPair_dec hp).1) hρ hsz h
    simpa using this

/-- Party zero's trees of a setup for secret sharing, read with or without payloads. -/
theorem gen0SS_imported (S : Setup G) {c : Codec G} {p q : Nat} {mont : Int → Option Mont} {a b : TPaillier}
    (K : SSKeys p q mont a b) {hashOf : Nat → List Bool} (hh : ∀ e, (hashOf e).length = 256)
    {B stash node : Nat} {X0 : List (Nat × Int)} {ρ : TreeCoins (Nat × Int)}
    (hρ : ρ.WF Prod.fst B S.q X0) (hsz : X0.length < 2 ^ 30) {fs : TreeFiles} {lost : List (Nat × Int)}
    (h : genAdd0SS c mont a hashOf S.pk stash node X0 ρ = .ok (fs, lost)) :
    (∃ r, deserializeEnc (deserTreeCt c) fs.enc = .ok r ∧
      Imported (P := Nat) id hashOf (fun (x : Nat) y => S.dec y = (x : Int) • S.g) B S.q (X0.map Prod.fst)
        (deserialize decNat fs.plain) r (lost.map Prod.fst)) ∧
    (∃ r, deserializeEnc (deserPaillier c) fs.enc = .ok r ∧
      Imported (P := Nat × Int) Prod.fst hashOf (fun e (y : Ct G × Int) => S.dec y.1 = (e.1 : Int) • S.g ∧
        PaySS (p * q) e y.2) B S.q X0 (deserialize decNatPair fs.plain) r lost) := by
  have hE : ∀ t e w x, (funcSS c mont a a).encTree S.pk t e = .ok w → (funcSS c mont a a).deserTree w = .ok x →
      S.dec x.1 = (e.1 : Int) • S.g ∧ PaySS (p * q) e x.2 :=
    fun t e w x hw hx => (funcSS_ok S c K).tree t e w x hw hx
  constructor
  · exact gen_imported (key := id) (f := Prod.fst) hh (R := fun (x : Ct G × Int) y => y = x.1)
      (Enc := fun e (y : Ct G × Int) => S.dec y.1 = (e.1 : Int) • S.g ∧ PaySS (p * q) e y.2)
      (Enc' := fun (x : Nat) (y : Ct G) => S.dec y = (x : Int) • S.g) (dec := decNat)
      (deser' := deserTreeCt c) (B := B) (q := S.q) hE
      (fun x w hw => ⟨x.1, (serPaillier_both c hw).1, rfl⟩)
      (fun a x y hx e => e ▸ hx.1) (fun a p hp => (encNatPair_dec hp).2) hρ hsz h
  · have := gen_imported (key := Prod.fst) (f := fun p : Nat × Int => p) hh (R := fun (x y : Ct G × Int) => y = x)
      (Enc := fun e (y : Ct G × Int) => S.dec y.1 = (e.1 : Int) • S.g ∧ PaySS (p * q) e y.2)
      (Enc' := fun e (y : Ct G × Int) => S.dec y.1 = (e.1 : Int) • S.g ∧ PaySS (p * q) e y.2)
      (dec := decNatPair)
      (deser' := deserPaillier c) (B := B) (q := S.q) hE
      (fun x w hw => ⟨x, (serPaillier_both c hw).2, rfl⟩)
      (fun a x y hx e => e ▸ hx) (fun a p hp => (encNatPair_dec hp).1) hρ hsz h
    simpa using this

/-- Both imports together give the invariant of the addition-only protocols. -/
theorem importAdd_inv {S : Setup G} {F : Func G P γ κ} {Pay : P → κ → Prop} {hashOf : Nat → List Bool}
    {B : Nat} {X0 : List P} {Y0 : List Nat} {c : Codec G} {dec : PElem → P} {deser : EncElem → Outcome γ}
    {f0 f1 : TreeFiles} {lost0 : List P} {lost1 : List Nat} {r0 : Upsi.Tree.Tree γ} {r1 : Upsi.Tree.Tree (Ct G)}
    (e0 : deserializeEnc deser f0.enc = .ok r0) (e1 : deserializeEnc (deserTreeCt c) f1.enc = .ok r1)
    (h0 : Imported F.key hashOf (fun p x => S.dec (F.first x) = (F.key p : Int) • S.g ∧ Pay p (F.second x)) B S.q X0
      (deserialize dec f0.plain) r0 lost0)
    (h1 : Imported id hashOf (fun (y : Nat) x => S.dec x = (y : Int) • S.g) B S.q Y0
      (deserialize decNat f1.plain) r1 lost1) :
    ∃ s0 s1, importAdd c dec deser f0 f1 lost0 lost1 = .ok (s0, s1) ∧ s0.lost = lost0 ∧ s1.lost = lost1 ∧
      Inv S F Pay hashOf B X0 Y0 s0 s1 := by
  refine ⟨_, _, by simp [importAdd, importTrees, e0, e1, orAbort]; exact ⟨rfl, rfl⟩, rfl, rfl, ?_⟩
  exact ⟨h0.wf, h1.wf, h0.size, h1.size, h0.all, h1.all, h0.mir, h1.mir⟩

end Upsi.Setup
