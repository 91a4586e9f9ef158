import Verif.Proto.SSModel
import Verif.Proto.AddProps
import Verif.Paillier.Threshold
import Verif.Num.BytesProps
/- Property theorem C45 (addition-only secret shares). -/
namespace Upsi.Proto
open Upsi Upsi.ElGamal Upsi.Tree Upsi.Num

variable {G : Type} [AddCommGroup G] [DecidableEq G]

/-- The threshold-Paillier objects of the two parties for the distinct primes `p`, `q`. -/
structure SSKeys (p q : Nat) (mont : Int → Option Mont) (a b : TPaillier) : Prop where
  primes : Paillier.Primes p q 1
  mont : Paillier.MontOK mont
  keys : Paillier.TKeysOK p q a.key b.key
  puba : Paillier.PublicOK (p * q) 1 a.pub
  pubb : Paillier.PublicOK (p * q) 1 b.pub

namespace Paillier'
open Upsi.Paillier

/-- Whatever `Encrypt` returns is a ciphertext of its (in-range) message. -/
theorem encrypt_inv {p q : Nat} (h : Primes p q 1) {mont : Int → Option Mont} (hm : MontOK mont) {k : Public}
    (hk : PublicOK (p * q) 1 k) {m r c : Int} (hc : k.encrypt mont m r = .ok c) :
    0 ≤ m ∧ m < ((p * q : Nat) : Int) ∧ IsEnc (p * q) 1 c m.toNat := by
  have hn : 0 < p * q := Nat.mul_pos h.hp.pos h.hq.pos
  by_cases hr : m < 0 ∨ ((p * q : Nat) : Int) ^ 1 ≤ m
  · obtain ⟨msg, hmsg⟩ := C21_encrypt_rejects (mont := mont) hk m r hr
    rw [hmsg] at hc; simp at hc
  · rw [pow_one] at hr
    push Not at hr
    have hm' : ((m.toNat : Nat) : Int) = m := Int.toNat_of_nonneg hr.1
    have hlt : m.toNat < (p * q) ^ 1 := by rw [pow_one]; omega
    by_cases hr0 : 0 ≤ r ∧ r ≤ ((p * q : Nat) : Int)
    · obtain ⟨c', h1, h2⟩ := C21_encrypt hn h.small_mul hm hk m.toNat hlt r hr0.1 hr0.2
      rw [hm', hc, Outcome.ok.injEq] at h1
      subst h1
      exact ⟨hr.1, hr.2, h2⟩
    · exfalso
      rw [Public.encrypt, if_neg (by omega), hk.powers, hk.hs, getPowers_get _ _ _ (Nat.le_succ 1)] at hc
      simp only [Outcome.bind_ok, pow_one] at hc
      rw [if_neg (by omega), Public.encryptWithGen, hk.hn] at hc
      by_cases hbig : r > ((p * q : Nat) : Int)
      · rw [if_pos hbig] at hc; simp at hc
      · rw [if_neg hbig] at hc
        simp only [Outcome.bind_eq_ok] at hc
        obtain ⟨_, _, _, hf, _⟩ := hc
        unfold fixedBaseExp at hf
        rw [if_pos (by omega)] at hf
        simp at hf

/-- Whatever `ReRand` returns is a ciphertext of the same message. -/
theorem reRand_inv {p q : Nat} (h : Primes p q 1) {mont : Int → Option Mont} (hm : MontOK mont) {k : Public}
    (hk : PublicOK (p * q) 1 k) {c r c' : Int} {m : Nat} (hc : IsEnc (p * q) 1 c m)
    (h' : k.reRand mont c r = .ok c') : IsEnc (p * q) 1 c' m := by
  by_cases hr : 0 ≤ r
  · obtain ⟨d, h1, h2⟩ := C21_rerand (Nat.mul_pos h.hp.pos h.hq.pos) hm hk hc r hr
    rw [h', Outcome.ok.injEq] at h1
    subst h1; exact h2
  · exfalso
    simp only [Public.reRand, Outcome.bind_eq_ok] at h'
    obtain ⟨_, hf, _⟩ := h'
    unfold fixedBaseExp at hf
    rw [if_pos (by omega)] at hf
    simp at hf

end Paillier'

theorem toBytes_inv {x : Int} {b : List UInt8} (h : toBytes x = .ok b) : (ofBytes b : Int) = x := by
  by_cases hx : 0 ≤ x
  · obtain ⟨b', h1, h2, _⟩ := C30_bytes_roundtrip x hx
    rw [h, Outcome.ok.injEq] at h1
    subst h1; exact h2
  · rw [(C30_negative_aborts x).2 (by omega)] at h; simp at h

theorem serPaillier_deser (c : Codec G) {x : Ct G} {k : Int} {w : EncElem} {y : Ct G × Int}
    (h : serPaillier c x k = .ok w) (h' : deserPaillier c w = .ok y) : y = (x, k) := by
  simp only [serPaillier, Outcome.bind_eq_ok, Outcome.pure_eq, Outcome.ok.injEq] at h
  obtain ⟨a, ha, b, hb, rfl⟩ := h
  simp only [deserPaillier, Outcome.bind_eq_ok, Outcome.pure_eq, Outcome.ok.injEq] at h'
  obtain ⟨a', ha', rfl⟩ := h'
  rw [serializeCt_deser c ha ha', toBytes_inv hb]

/-- `k` is a Paillier ciphertext of the value of the entry, which is in range. -/
def PaySS (n : Nat) (p : Nat × Int) (k : Int) : Prop :=
  0 ≤ p.2 ∧ p.2 < (n : Int) ∧ Paillier.IsEnc n 1 k p.2.toNat

theorem funcSS_ok (S : Setup G) (c : Codec G) {p q : Nat} {mont : Int → Option Mont} {a b : TPaillier}
    (K : SSKeys p q mont a b) :
    FuncOK S (funcSS c mont a b) (PaySS (p * q)) (PaySS (p * q)) (fun t => NonZero S (t 0)) where
  tree := by
    intro t e w x hw hx
    simp only [funcSS, Outcome.bind_eq_ok] at hw
    obtain ⟨y, hy, hw⟩ := hw
    have := serPaillier_deser c hw hx
    subst this
    exact ⟨S.dec_encrypt _ _, Paillier'.encrypt_inv K.primes K.mont K.puba hy⟩
  payload := by
    intro t e k h
    exact Paillier'.encrypt_inv K.primes K.mont K.puba h
  ser := by
    intro x k w y hw hy
    exact serPaillier_deser c hw hy
  send := by
    intro m t x w x' hm hw hx'
    simp only [funcSS, Outcome.bind_eq_ok, Outcome.pure_eq, Outcome.ok.injEq] at hw
    obtain ⟨e, he, r, hr, y, hy, rfl⟩ := hw
    simp only [funcSS, deserPaillier, Outcome.bind_eq_ok, Outcome.pure_eq, Outcome.ok.injEq] at hx'
    obtain ⟨e', he', rfl⟩ := hx'
    rw [serializeCt_deser c he he', toBytes_inv hy]
    simp only
    rw [S.dec_partial, S.dec_exp]
    refine ⟨S.smul_zero_iff hm _, fun _ e hp => ⟨hp.1, hp.2.1, ?_⟩⟩
    exact Paillier'.reRand_inv K.primes K.mont K.pubb hp.2.2 hr

/-- What a pair of shares reconstructs to. -/
def Reconstructs (n : Nat) (p : Nat × Int) (s0 s1 : Int) : Prop :=
  (s0 + s1) % (n : Int) = p.2 ∧ 0 < s0 ∧ s0 ≤ n ∧ 0 ≤ s1 ∧ s1 < n

/-- The share loop and the peer's decryption loop append one pair of shares per match. -/
theorem ssLoop_spec {p q : Nat} {mont : Int → Option Mont} {a b : TPaillier} (K : SSKeys p q mont a b)
    (sk0 : Int) (tape : Nat → Tape) (xs : List (Ct G × Int)) :
    ∀ (i : Nat) (ms : List (Nat × Int)) (sh : List Int) (pays : List (List UInt8)) (sh' : List Int)
      (pays' : List (List UInt8)),
    List.Forall₂ (fun e x => PaySS (p * q) e x.2) ms (xs.filter (fun x => decrypt sk0 x.1 = 0)) →
    ssLoop mont a sk0 tape i xs sh pays = .ok (sh', pays') →
    ∃ new newp, sh' = sh ++ new ∧ pays' = pays ++ newp ∧
      ∀ r r', ssRecv b newp r = .ok r' → ∃ new1, r' = r ++ new1 ∧
        new.length = ms.length ∧ new1.length = ms.length ∧
        List.Forall₂ (fun e (s : Int × Int) => Reconstructs (p * q) e s.1 s.2) ms (new.zip new1) := by
  have hnpos : 0 < p * q := Nat.mul_pos K.primes.hp.pos K.primes.hq.pos
  induction xs with
  | nil =>
    intro i ms sh pays sh' pays' hms h
    simp only [ssLoop, Outcome.ok.injEq, Prod.mk.injEq] at h
    obtain ⟨rfl, rfl⟩ := h
    simp only [List.filter_nil] at hms
    cases hms
    refine ⟨[], [], by simp, by simp, fun r r' hr => ⟨[], ?_, rfl, rfl, .nil⟩⟩
    simp [ssRecv] at hr
    simp [hr]
  | cons x xs ih =>
    intro i ms sh pays sh' pays' hms h
    unfold ssLoop at h
    by_cases hx : decrypt sk0 x.1 = 0
    · rw [if_pos hx] at h
      simp only [Outcome.bind_eq_ok] at h
      obtain ⟨e, he, e', he', part, hpart, w, hw, wp, hwp, h⟩ := h
      rw [List.filter_cons, if_pos (by simpa using hx)] at hms
      cases hms with
      | @cons m _ ms _ hm hms =>
        obtain ⟨new, newp, h1, h2, h3⟩ := ih _ _ _ _ _ _ hms h
        refine ⟨(a.key.n - tape i 0) :: new, w :: wp :: newp, by simp [h1], by simp [h2], ?_⟩
        intro r r' hr
        simp only [ssRecv, Outcome.bind_eq_ok] at hr
        obtain ⟨v, hv, hr⟩ := hr
        obtain ⟨new1, k1, k2, k3, k4⟩ := h3 _ _ hr
        refine ⟨v :: new1, by simp [k1], by simp [k2], by simp [k3], ?_⟩
        rw [List.zip_cons_cons]
        refine .cons ?_ k4
        obtain ⟨r0, r1, hE⟩ := Paillier'.encrypt_inv K.primes K.mont K.puba he
        obtain ⟨m0, m1, hM⟩ := hm
        obtain ⟨e'', he'', hS⟩ := Paillier.C23_add K.primes K.keys hM hE
        rw [he', Outcome.ok.injEq] at he''
        subst he''
        obtain ⟨-, part', hp1, hp2⟩ := Paillier.C23_decrypt K.primes K.keys hS
        rw [hpart, Outcome.ok.injEq] at hp1
        subst hp1
        rw [toBytes_inv hw, toBytes_inv hwp, hp2, Outcome.ok.injEq] at hv
        have hmod := Nat.mod_lt (m.2.toNat + (tape i 0).toNat) hnpos
        simp only [Reconstructs, ← hv, K.keys.n1]
        refine ⟨?_, by omega, by omega, by omega, by omega⟩
        have hmm : ((m.2.toNat + (tape i 0).toNat : Nat) : Int) = m.2 + tape i 0 := by
          push_cast; rw [Int.toNat_of_nonneg m0, Int.toNat_of_nonneg r0]
        rw [Int.natCast_emod, hmm, Int.add_emod_emod]
        rw [show ((p * q : Nat) : Int) - tape i 0 + (m.2 + tape i 0) = m.2 + ((p * q : Nat) : Int) by ring]
        rw [Int.add_emod_right, Int.emod_eq_of_lt m0 m1]
    · rw [if_neg hx] at h
      rw [List.filter_cons, if_neg (by simpa using hx)] at hms
      exact ih _ _ _ _ _ _ hms h

/-- The initial state of both parties. -/
def StSS.init (stash node : Nat) : StSS G := ⟨St0.init stash node, St1.init stash node, [], []⟩

/-- The secret-sharing protocol over a history (party zero's rows are element and value; the value is
ignored). -/
def runSS (S : Setup G) (c : Codec G) (mont : Int → Option Mont) (a b : TPaillier)
    (hashOf : Nat → List Bool) (stash node : Nat) (ds : List (DayIn G (Nat × Int) Int)) : Outcome (StSS G) :=
  runDays (fun s d => daySS c mont a b hashOf S.pk S.sk0 S.sk1 s d.xs d.ys d.coins) (StSS.init stash node) ds

/-- Rows as loaded. -/
def DayIn.loaded (d : DayIn G (Nat × Int) κ) : DayIn G (Nat × Int) κ := { d with xs := d.xs.map getPayloadSS }

omit [AddCommGroup G] [DecidableEq G] in
theorem runDays_map {σ δ ε : Type} {step : σ → δ → Outcome σ} (f : ε → δ) (ds : List ε) : ∀ s,
    runDays step s (ds.map f) = runDays (fun s d => step s (f d)) s ds := by
  induction ds with
  | nil => intro s; rfl
  | cons d ds ih => intro s; simp only [List.map_cons, runDays, ih]

/-- **C45** If the messages of all days are processed without error and no stash overflowed, the two
parties hold equally many shares, and, position by position, the shares add up modulo the Paillier modulus
`n = p*q` to the elements of the intersection of the cumulative sets, each exactly once (in some order). -/
theorem C45_secret_shares (S : Setup G) (c : Codec G) {p q : Nat} {mont : Int → Option Mont} {a b : TPaillier}
    (K : SSKeys p q mont a b) (hashOf : Nat → List Bool)
    (hh : ∀ e, (hashOf e).length = 256) (B stash node : Nat) (ds : List (DayIn G (Nat × Int) Int))
    (hadm : Admissible S Prod.fst B (fun t => NonZero S (t 0)) ds) (hY : (allY ds).Nodup)
    (s : StSS G) (h : runSS S c mont a b hashOf stash node ds = .ok s)
    (l0 : s.p0.lost = []) (l1 : s.p1.lost = []) :
    s.shares0.length = s.shares1.length ∧
    (List.zipWith (fun x y => (x + y) % ((p * q : Nat) : Int)) s.shares0 s.shares1).Perm
      ((((allX ds).map Prod.fst).filter (fun e => e ∈ allY ds)).map (fun e : Nat => (e : Int))) ∧
    (∀ x ∈ s.shares0, 0 < x ∧ x ≤ ((p * q : Nat) : Int)) ∧
    (∀ x ∈ s.shares1, 0 ≤ x ∧ x < ((p * q : Nat) : Int)) := by
  have hX : allX (ds.map DayIn.loaded) = (allX ds).map getPayloadSS := by
    simp only [allX, List.flatMap_map, List.map_flatMap]; rfl
  have hYe : allY (ds.map DayIn.loaded) = allY ds := by
    simp only [allY, List.flatMap_map]; rfl
  have h' : runDays (fun s d => daySSBody c mont a b hashOf S.pk S.sk0 S.sk1 s d.xs d.ys d.coins)
      (StSS.init stash node) (ds.map DayIn.loaded) = .ok s := by
    rw [runDays_map]; exact h
  have hout := (runDays_spec (S := S) (F := funcSS c mont a b) (Pay := PaySS (p * q))
    (Good := fun t => NonZero S (t 0)) (hashOf := hashOf) (B := B) (st0 := StSS.p0) (st1 := StSS.p1)
    (Out := fun X Y s => s.shares0.length = s.shares1.length ∧ ∃ ms, ms.Perm (matched Prod.fst X Y) ∧
      List.Forall₂ (fun e (t : Int × Int) => Reconstructs (p * q) e t.1 t.2) ms (s.shares0.zip s.shares1))
    ?_ (ds.map DayIn.loaded) [] [] _ s
    (Inv.init _ _ _ _ _ _ _) hadm.bound ?_ ?_ ?_ ?_ ?_ h').2.2.2 l0 l1
    ⟨rfl, [], by simp [matched], .nil⟩
  · obtain ⟨hlen, ms, hp, hf⟩ := hout
    simp only [List.nil_append, hX, hYe] at hp
    refine ⟨hlen, ?_, ?_, ?_⟩
    · have e1 : List.zipWith (fun x y => (x + y) % ((p * q : Nat) : Int)) s.shares0 s.shares1 =
          ms.map Prod.snd := by
        rw [← List.map_uncurry_zip_eq_zipWith]
        clear hp
        generalize s.shares0.zip s.shares1 = z at hf
        induction hf with
        | nil => rfl
        | cons h1 _ ih =>
          rw [List.map_cons, List.map_cons, ih]
          exact congrArg (· :: _) h1.1
      rw [e1]
      refine (hp.map _).trans ?_
      rw [matched_eq_filter _ _ _ hY]
      clear hp e1 hf hX h' hadm h
      generalize allX ds = X
      induction X with
      | nil => exact .refl _
      | cons x X ih =>
        simp only [List.map_cons, List.filter_cons]
        by_cases hx : x.1 ∈ allY ds
        · simp only [getPayloadSS, hx, decide_true, if_true, List.map_cons]
          exact ih.cons _
        · simp only [getPayloadSS, hx, decide_false, Bool.false_eq_true, if_false]
          exact ih
    · intro x hx
      obtain ⟨i, hi, rfl⟩ := List.mem_iff_getElem.1 hx
      have hi' : i < (s.shares0.zip s.shares1).length := by rw [List.length_zip]; omega
      have := (hf.get (i := i) (by rw [hf.length_eq]; exact hi') hi')
      simp only [List.get_eq_getElem, List.getElem_zip] at this
      exact ⟨this.2.1, this.2.2.1⟩
    · intro x hx
      obtain ⟨i, hi, rfl⟩ := List.mem_iff_getElem.1 hx
      have hi' : i < (s.shares0.zip s.shares1).length := by rw [List.length_zip]; omega
      have := (hf.get (i := i) (by rw [hf.length_eq]; exact hi') hi')
      simp only [List.get_eq_getElem, List.getElem_zip] at this
      exact ⟨this.2.2.2.1, this.2.2.2.2⟩
  · intro X Y s s' d hI hd hX hY tX tY hs
    simp only [daySSBody, Outcome.bind_eq_ok, Outcome.pure_eq, Outcome.ok.injEq] at hs
    obtain ⟨⟨p0, p1, cands⟩, he, ⟨sh0, pays⟩, hl, sh1, hr, rfl⟩ := hs
    obtain ⟨k1, k2, k3, k4⟩ := exchange_spec (funcSS_ok S c K) c hh hd.bound hI
      (hd.coins d (by simp)) hX hY tX tY he
    refine ⟨k1, k2, k3, fun l0 l1 ho => ?_⟩
    obtain ⟨ms, hp, hf⟩ := k4 l0 l1
    obtain ⟨hlen, ms0, hp0, hf0⟩ := ho
    obtain ⟨new, newp, j1, j2, j3⟩ := ssLoop_spec K _ _ _ _ _ _ _ _ _ hf hl
    simp only [List.nil_append] at j2
    subst j2
    obtain ⟨new1, i1, i2, i3, i4⟩ := j3 _ _ hr
    refine ⟨by simp [j1, i1, hlen, i2, i3], ms0 ++ ms, ?_, ?_⟩
    · exact (hp0.append hp).trans (matched_step Prod.fst X d.xs Y d.ys).symm
    · simp only [j1, i1]
      rw [List.zip_append hlen]
      exact List.rel_append hf0 i4
  · intro d hd
    obtain ⟨e, he, rfl⟩ := List.mem_map.1 hd
    have := hadm.coins e he
    exact ⟨⟨by simpa [DayIn.loaded] using this.hsh0.1, this.hsh0.2⟩, this.hsh1, this.pads0, this.pads1, this.shuffle, this.masks⟩
  · intro x hx
    simp only [List.nil_append, hX, List.mem_map] at hx
    obtain ⟨e, he, rfl⟩ := hx
    exact hadm.x e he
  · intro y hy
    rw [hYe] at hy
    exact hadm.y y (by simpa using hy)
  · rw [hX]; simpa using hadm.sizeX
  · rw [hYe]; simpa using hadm.sizeY

end Upsi.Proto
