import Verif.View.Examples
import Verif.Proto.ProgressExamples
/- C66: the shares the parties obtain are uniformly distributed. -/
namespace Upsi.View
open Upsi Upsi.ElGamal Upsi.Tree Upsi.Num Upsi.Proto

/-! ### counting -/

/-- One value per marked item, computed from the item and the number drawn for its position. -/
def pick {A : Type} {n : Nat} (sel : A → Bool) (f : A → Fin n → Int) : (xs : List A) → (Fin xs.length → Fin n) → List Int
  | [], _ => []
  | x :: xs, r => if sel x then f x (r 0) :: pick sel f xs (fun i => r i.succ) else pick sel f xs (fun i => r i.succ)

/-- If for every item the value runs exactly once through the set `T` while the number drawn runs through its range, all
lists of values in `T` come from equally many draws. -/
theorem pick_card {A : Type} {n : Nat} (sel : A → Bool) (f : A → Fin n → Int) (T : Int → Prop) [DecidablePred T]
    (xs : List A) (hf : ∀ x ∈ xs, (∀ a, T (f x a)) ∧ ∀ t, T t → ∃ a, ∀ b, f x b = t ↔ b = a) :
    ∀ t : List Int, Fintype.card {r : Fin xs.length → Fin n // pick sel f xs r = t} =
      if t.length = (xs.filter sel).length ∧ (∀ y ∈ t, T y) then n ^ (xs.length - (xs.filter sel).length) else 0 := by
  induction xs with
  | nil =>
    intro t
    cases t with
    | nil =>
      rw [if_pos ⟨rfl, by simp⟩]
      rw [Fintype.card_congr (Equiv.subtypeUnivEquiv (p := fun r => pick sel f [] r = []) (fun r => rfl))]
      simp
    | cons y t =>
      rw [if_neg (by simp), Fintype.card_eq_zero_iff]
      exact ⟨fun r => by simpa [pick] using r.2⟩
  | cons x xs ih =>
    intro t
    have hf' : ∀ y ∈ xs, (∀ a, T (f y a)) ∧ ∀ t, T t → ∃ a, ∀ b, f y b = t ↔ b = a := fun y hy => hf y (List.mem_cons_of_mem _ hy)
    have ih := ih hf'
    have hx := hf x (List.mem_cons_self ..)
    have hle : (xs.filter sel).length ≤ xs.length := List.length_filter_le _ _
    have e0 : (Fin (xs.length + 1) → Fin n) ≃ Fin n × (Fin xs.length → Fin n) :=
      ⟨fun r => (r 0, fun i => r i.succ), fun z => Fin.cons z.1 z.2, fun r => Fin.cons_self_tail r, fun z => by simp⟩
    by_cases hs : sel x = true
    · rw [List.filter_cons_of_pos hs]
      cases t with
      | nil =>
        rw [if_neg (by simp), Fintype.card_eq_zero_iff]
        exact ⟨fun r => by have := r.2; simp [pick, hs] at this⟩
      | cons y t =>
        by_cases hy : T y
        · obtain ⟨a, ha⟩ := hx.2 y hy
          have e : {r : Fin (x :: xs).length → Fin n // pick sel f (x :: xs) r = y :: t} ≃
              {r : Fin xs.length → Fin n // pick sel f xs r = t} :=
            ⟨fun r => ⟨fun i => r.1 i.succ, by
                have := r.2; simp only [pick, hs, if_true, List.cons.injEq] at this; exact this.2⟩,
              fun r => ⟨Fin.cons a r.1, by
                simp only [pick, hs, if_true, Fin.cons_zero, Fin.cons_succ, r.2, (ha a).2 rfl]⟩,
              fun r => Subtype.ext (by
                have := r.2
                simp only [pick, hs, if_true, List.cons.injEq] at this
                have h0 := (ha _).1 this.1
                funext i
                refine Fin.cases ?_ (fun i => ?_) i
                · simp [h0]
                · simp),
              fun r => Subtype.ext (by funext i; simp)⟩
          rw [Fintype.card_congr e, ih t]
          simp only [List.length_cons, List.mem_cons, forall_eq_or_imp, hy, true_and, Nat.add_right_cancel_iff]
          rw [Nat.add_sub_add_right]
        · rw [if_neg (fun h => hy (h.2 y (List.mem_cons_self ..))), Fintype.card_eq_zero_iff]
          refine ⟨fun r => ?_⟩
          have := r.2
          simp only [pick, hs, if_true, List.cons.injEq] at this
          exact hy (this.1 ▸ hx.1 _)
    · rw [List.filter_cons_of_neg (by simpa using hs)]
      have e : {r : Fin (x :: xs).length → Fin n // pick sel f (x :: xs) r = t} ≃
          Fin n × {r : Fin xs.length → Fin n // pick sel f xs r = t} :=
        ⟨fun r => (r.1 0, ⟨fun i => r.1 i.succ, by have := r.2; simpa [pick, hs] using this⟩),
          fun z => ⟨Fin.cons z.1 z.2.1, by simpa [pick, hs] using z.2.2⟩,
          fun r => Subtype.ext (Fin.cons_self_tail r.1), fun z => by simp⟩
      rw [Fintype.card_congr e, Fintype.card_prod, Fintype.card_fin, ih t]
      split
      · rw [List.length_cons, Nat.succ_sub hle, pow_succ, mul_comm]
      · rfl

theorem pick_length {A : Type} {n : Nat} (sel : A → Bool) (f : A → Fin n → Int) : ∀ (xs : List A) (r : Fin xs.length → Fin n),
    (pick sel f xs r).length = (xs.filter sel).length
  | [], _ => rfl
  | x :: xs, r => by
    by_cases hs : sel x = true
    · rw [List.filter_cons_of_pos hs]; simp [pick, hs, pick_length sel f xs]
    · rw [List.filter_cons_of_neg (by simpa using hs)]; simp [pick, hs, pick_length sel f xs]

/-- Adding a fixed number modulo `n` is a bijection. -/
theorem add_unique {n : Nat} (hn : 0 < n) (m : Nat) {t : Int} (h0 : 0 ≤ t) (h1 : t < (n : Int)) :
    ∃ a : Fin n, ∀ b : Fin n, (((m + (b : Nat)) % n : Nat) : Int) = t ↔ b = a := by
  refine ⟨⟨((t - m) % n).toNat, by have := Int.emod_lt_of_pos (t - m) (show (0 : Int) < n by omega); omega⟩, fun b => ?_⟩
  have e0 := Int.emod_nonneg (t - m) (show (n : Int) ≠ 0 by omega)
  have hb := b.isLt
  rw [Fin.ext_iff]
  have hbb : ((b : Nat) : Int) % n = ((b : Nat) : Int) := Int.emod_eq_of_lt (by omega) (by omega)
  have ht : t % (n : Int) = t := Int.emod_eq_of_lt h0 h1
  rw [Int.natCast_emod, Int.natCast_add]
  constructor
  · intro h
    have : (t - m) % (n : Int) = ((b : Nat) : Int) := by
      rw [← h, Int.sub_emod, Int.emod_emod_of_dvd _ (dvd_refl _), ← Int.sub_emod, ← hbb]
      congr 1
      rw [hbb]; ring
    simp only
    omega
  · intro h
    have : ((b : Nat) : Int) = (t - m) % (n : Int) := by simp only at h; omega
    rw [this, Int.add_emod_emod]
    rw [show (m : Int) + (t - m) = t by ring, ht]

/-! ### the share loop -/

variable {G : Type} [AddCommGroup G] [DecidableEq G]

/-- The share loop and the peer's loop, exactly: for every match party zero keeps `n - r` and party one gets
`(payload + r) mod n`. -/
theorem ssLoop_exact {p q : Nat} {mont : Int → Option Mont} {a b : TPaillier} (K : SSKeys p q mont a b) (sk0 : Int)
    (msg : Ct G × Int → Nat) (tape : Nat → Tape) (h1 : ∀ i, 0 ≤ tape i 1 ∧ tape i 1 ≤ ((p * q : Nat) : Int)) (xs : List (Ct G × Int)) :
    ∀ (i : Nat) (r : Fin xs.length → Fin (p * q)) (sh : List Int) (pays : List (List UInt8)),
    (∀ x ∈ xs, Paillier.IsEnc (p * q) 1 x.2 (msg x)) → (∀ k : Fin xs.length, tape (i + k) 0 = ((r k : Nat) : Int)) →
    ∃ newp, ssLoop mont a sk0 tape i xs sh pays =
        .ok (sh ++ pick (fun x => decide (decrypt sk0 x.1 = 0)) (fun _ (k : Fin (p * q)) => ((p * q : Nat) : Int) - ((k : Nat) : Int)) xs r, pays ++ newp) ∧
      ∀ l, ssRecv b newp l = .ok (l ++ pick (fun x => decide (decrypt sk0 x.1 = 0))
        (fun x (k : Fin (p * q)) => (((msg x + (k : Nat)) % (p * q) : Nat) : Int)) xs r) := by
  induction xs with
  | nil => intro i r sh pays _ _; exact ⟨[], by simp [ssLoop, pick], fun l => by simp [ssRecv, pick]⟩
  | cons x xs ih =>
    intro i r sh pays hx hr
    have hxs : ∀ y ∈ xs, Paillier.IsEnc (p * q) 1 y.2 (msg y) := fun y hy => hx y (List.mem_cons_of_mem _ hy)
    have hr' : ∀ k : Fin xs.length, tape (i + 1 + k) 0 = ((r k.succ : Nat) : Int) := fun k => by
      rw [← hr k.succ]; congr 1; rw [Fin.val_succ]; omega
    have hr0 : tape i 0 = ((r 0 : Nat) : Int) := by have := hr 0; simpa using this
    unfold ssLoop
    by_cases hm : decrypt sk0 x.1 = 0
    · rw [if_pos hm]
      obtain ⟨e, he, hE⟩ := encryptP_total K (m := tape i 0) (by omega) (by have := (r 0).isLt; omega) (h1 i).1 (h1 i).2
      have hX := hx x (List.mem_cons_self ..)
      obtain ⟨e', he', hS⟩ := Paillier.C23_add K.primes K.keys hX hE
      obtain ⟨-, part, hp1, hp2⟩ := Paillier.C23_decrypt K.primes K.keys hS
      have hpart : 0 ≤ part := by
        by_contra hneg
        rw [Paillier.decryptT, if_neg (by have := hS.1; omega), if_pos (by omega)] at hp2
        simp at hp2
      obtain ⟨w, hw, hw2, _⟩ := C30_bytes_roundtrip e' hS.1
      obtain ⟨wp, hwp, hwp2, _⟩ := C30_bytes_roundtrip part hpart
      obtain ⟨newp, k1, k2⟩ := ih (i + 1) (fun k => r k.succ) (sh ++ [a.key.n - tape i 0]) (pays ++ [w, wp]) hxs hr'
      refine ⟨w :: wp :: newp, ?_, fun l => ?_⟩
      · simp only [he, he', hp1, hw, hwp, Outcome.bind_ok, k1]
        simp only [pick, hm, decide_true, if_true, K.keys.n1, hr0]
        simp
      · simp only [ssRecv]
        rw [hw2, hwp2, hp2, Outcome.bind_ok, k2]
        simp only [pick, hm, decide_true, if_true, hr0]
        simp
    · rw [if_neg hm]
      obtain ⟨newp, k1, k2⟩ := ih (i + 1) (fun k => r k.succ) sh pays hxs hr'
      refine ⟨newp, ?_, fun l => ?_⟩
      · rw [k1]; simp [pick, hm]
      · rw [k2]; simp [pick, hm]

/-- The day with other random shares (party_zero.cc:384), everything else kept. -/
def reshare {N n : Nat} (d : DayIn G (Nat × Int) Int) (r : Fin N → Fin n) : DayIn G (Nat × Int) Int :=
  { d with coins := { d.coins with last := fun i k => if k = 0 then (if h : i < N then ((r ⟨i, h⟩ : Nat) : Int) else 0) else d.coins.last i k } }

/-- Party zero's shares at the end of a day. -/
def shares0After (c : Codec G) (mont : Int → Option Mont) (a b : TPaillier) (hashOf : Nat → List Bool) (S : Setup G) (s : StSS G)
    (d : DayIn G (Nat × Int) Int) : Outcome (List Int) := do
  let s' ← daySS c mont a b hashOf S.pk S.sk0 S.sk1 s d.xs d.ys d.coins
  pure s'.shares0

/-- Party one's shares at the end of a day. -/
def shares1After (c : Codec G) (mont : Int → Option Mont) (a b : TPaillier) (hashOf : Nat → List Bool) (S : Setup G) (s : StSS G)
    (d : DayIn G (Nat × Int) Int) : Outcome (List Int) := do
  let s' ← daySS c mont a b hashOf S.pk S.sk0 S.sk1 s d.xs d.ys d.coins
  pure s'.shares1

/-- The candidates of a completing day after a completing history carry Paillier ciphertexts. -/
theorem ss_exchange {S : Setup G} {c : Codec G} {p q : Nat} {mont : Int → Option Mont} {a b : TPaillier}
    (K : SSKeys p q mont a b) {hashOf : Nat → List Bool} (hh : ∀ e, (hashOf e).length = 256) {B stash node : Nat}
    {ds : List (DayIn G (Nat × Int) Int)} {d : DayIn G (Nat × Int) Int}
    (hadm : Admissible S Prod.fst B (fun t => NonZero S (t 0)) (ds ++ [d]))
    (hcoins : ∀ e ∈ ds ++ [d], SSCoins (p * q) e.coins) (hB : B ≤ p * q) {s : StSS G}
    (hs : runSS S c mont a b hashOf stash node ds = .ok s) {r : St0 G (Nat × Int) × St1 (Ct G × Int) × List (Ct G × Int)}
    (he : exchange (funcSS c mont a b) c hashOf S.pk S.sk1 s.p0 s.p1 (d.xs.map getPayloadSS) d.ys d.coins = .ok r) :
    ∀ x ∈ r.2.2, ∃ m, Paillier.IsEnc (p * q) 1 x.2 m := by
  have hXd : allX (ds ++ [d]) = allX ds ++ d.xs := by simp [allX]
  have hYd : allY (ds ++ [d]) = allY ds ++ d.ys := by simp [allY]
  have sX := hadm.sizeX
  have sY := hadm.sizeY
  rw [hXd, List.length_append] at sX
  rw [hYd, List.length_append] at sY
  have hmx : ∀ x ∈ allX ds ++ d.xs, x.1 < B := fun x hx => hadm.x x (by rw [hXd]; exact hx)
  have hmy : ∀ y ∈ allY ds ++ d.ys, y < B := fun y hy => hadm.y y (by rw [hYd]; exact hy)
  have hadm0 : Admissible S Prod.fst B (fun t => NonZero S (t 0)) ds :=
    ⟨hadm.bound, fun e he => hadm.coins e (by simp [he]), fun x hx => hmx x (by simp [hx]), fun y hy => hmy y (by simp [hy]), by omega, by omega⟩
  rcases (runSS_inv S c K hashOf hh B stash node ds hadm0 (fun e he => hcoins e (by simp [he])) hB).cases with ⟨s', hs', hJ⟩ | ⟨m, hm, _⟩
  swap
  · rw [hs] at hm; simp at hm
  rw [hs] at hs'
  obtain rfl := Outcome.ok.inj hs'
  have hin : ∀ x ∈ (allX ds).map getPayloadSS ++ d.xs.map getPayloadSS, x.1 < B ∧ 0 ≤ x.2 ∧ x.2 < ((p * q : Nat) : Int) := by
    intro x hx
    rw [← List.map_append] at hx
    obtain ⟨e, he, rfl⟩ := List.mem_map.1 hx
    have := hmx e he
    exact ⟨this, by simp only [getPayloadSS]; omega, by simp only [getPayloadSS]; omega⟩
  have hw := hadm.coins d (by simp)
  have hD := hcoins d (by simp)
  have := exchange_only (funcSS_ok S c K) c hh hadm.bound hJ.1 hJ.2 (xs := d.xs.map getPayloadSS) (ys := d.ys) (ρ := d.coins)
    ⟨⟨by simpa using hw.hsh0.1, hw.hsh0.2⟩, hw.hsh1, hw.pads0, hw.pads1, hw.shuffle, hw.masks⟩ (fun x hx => (hin x hx).1) hmy
    (by simpa using sX) (by simpa using sY) (fun _ h => h) (funcSS_total S c K) (fun e he => (hin e he).2) hD.pads hD.enc0 hD.x0 hD.send
  rw [he] at this
  exact this.1

/-- **C66** (shares) Take any admissible history of the sharing protocol that completes, and a further day that
completes and on which there are `M` matches among the `N` candidates.  If party zero draws its random values uniformly
from `[0, n)`, everything else being fixed, the day always completes, and: every list of `M` values in `[0, n)` is
party one's list of new shares for exactly `n ^ (N - M)` of the `n ^ N` draws (no other list ever is), and every list of
`M` values in `(0, n]` is party zero's list of new shares for equally many.  So each party's shares are uniformly
random whatever the elements are. -/
theorem C66_shares_uniform (S : Setup G) (c : Codec G) {p q : Nat} {mont : Int → Option Mont} {a b : TPaillier}
    (K : SSKeys p q mont a b) (hashOf : Nat → List Bool) (hh : ∀ e, (hashOf e).length = 256) (B stash node : Nat)
    (ds : List (DayIn G (Nat × Int) Int)) (d : DayIn G (Nat × Int) Int)
    (hadm : Admissible S Prod.fst B (fun t => NonZero S (t 0)) (ds ++ [d]))
    (hcoins : ∀ e ∈ ds ++ [d], SSCoins (p * q) e.coins) (hB : B ≤ p * q) (s s' : StSS G)
    (hs : runSS S c mont a b hashOf stash node ds = .ok s)
    (hd : daySS c mont a b hashOf S.pk S.sk0 S.sk1 s d.xs d.ys d.coins = .ok s') :
    ∃ v M, viewSS S c mont a b hashOf s d = .ok v ∧ M = (v.filter (fun x => x = 0)).length ∧
      s'.shares0.length = s.shares0.length + M ∧ s'.shares1.length = s.shares1.length + M ∧
      (∀ t : List Int, Fintype.card {r : Fin v.length → Fin (p * q) //
          shares1After c mont a b hashOf S s (reshare d r) = .ok (s.shares1 ++ t)} =
        if t.length = M ∧ (∀ y ∈ t, 0 ≤ y ∧ y < ((p * q : Nat) : Int)) then (p * q) ^ (v.length - M) else 0) ∧
      (∀ t : List Int, Fintype.card {r : Fin v.length → Fin (p * q) //
          shares0After c mont a b hashOf S s (reshare d r) = .ok (s.shares0 ++ t)} =
        if t.length = M ∧ (∀ y ∈ t, 0 < y ∧ y ≤ ((p * q : Nat) : Int)) then (p * q) ^ (v.length - M) else 0) := by
  simp only [daySS, daySSBody, Outcome.bind_eq_ok, Outcome.pure_eq, Outcome.ok.injEq] at hd
  obtain ⟨⟨p0, p1, cands⟩, he, ⟨sh0, pays⟩, hl, sh1, hr1, rfl⟩ := hd
  have henc := ss_exchange K hh hadm hcoins hB hs he
  have hnpos : 0 < p * q := Nat.mul_pos K.primes.hp.pos K.primes.hq.pos
  choose! msg hmsg using henc
  have hD := hcoins d (by simp)
  have hlen : (cands.map (seeFirst S)).length = cands.length := List.length_map _
  have hM : ((cands.map (seeFirst S)).filter (fun x => x = 0)).length = (cands.filter (fun x => decide (decrypt S.sk0 x.1 = 0))).length := by
    rw [List.filter_map, List.length_map]; rfl
  have hfl : (cands.filter (fun x => decide (decrypt S.sk0 x.1 = 0))).length ≤ cands.length := List.length_filter_le _ _
  -- the day with other values
  have key : ∀ r : Fin cands.length → Fin (p * q),
      daySS c mont a b hashOf S.pk S.sk0 S.sk1 s (reshare d r).xs (reshare d r).ys (reshare d r).coins = .ok ⟨p0, p1,
        s.shares0 ++ pick (fun x => decide (decrypt S.sk0 x.1 = 0)) (fun _ (k : Fin (p * q)) => ((p * q : Nat) : Int) - ((k : Nat) : Int)) cands r,
        s.shares1 ++ pick (fun x => decide (decrypt S.sk0 x.1 = 0))
          (fun x (k : Fin (p * q)) => (((msg x + (k : Nat)) % (p * q) : Nat) : Int)) cands r⟩ := by
    intro r
    obtain ⟨newp, k1, k2⟩ := ssLoop_exact K S.sk0 msg (reshare d r).coins.last (fun i => by simpa [reshare] using hD.last i) cands 0 r
      s.shares0 [] hmsg (fun k => by simp [reshare])
    have he' : exchange (funcSS c mont a b) c hashOf S.pk S.sk1 s.p0 s.p1 ((reshare d r).xs.map getPayloadSS) (reshare d r).ys
      (reshare d r).coins = .ok (p0, p1, cands) := he
    simp only [daySS, daySSBody, he', Outcome.bind_ok, k1, List.nil_append, k2, Outcome.pure_eq]
  have own : ∃ r : Fin cands.length → Fin (p * q), sh0 = s.shares0 ++ pick (fun x => decide (decrypt S.sk0 x.1 = 0))
      (fun _ (k : Fin (p * q)) => ((p * q : Nat) : Int) - ((k : Nat) : Int)) cands r ∧
      sh1 = s.shares1 ++ pick (fun x => decide (decrypt S.sk0 x.1 = 0))
          (fun x (k : Fin (p * q)) => (((msg x + (k : Nat)) % (p * q) : Nat) : Int)) cands r := by
    refine ⟨fun k => ⟨(d.coins.last k 0).toNat, by have := hD.share k; omega⟩, ?_⟩
    obtain ⟨newp, k1, k2⟩ := ssLoop_exact K S.sk0 msg d.coins.last hD.last cands 0
      (fun k => ⟨(d.coins.last k 0).toNat, by have := hD.share k; omega⟩)
      s.shares0 [] hmsg (fun k => by simp only [Nat.zero_add]; exact (Int.toNat_of_nonneg (hD.share k).1).symm)
    have k3 := Outcome.ok.inj (hl.symm.trans k1)
    simp only [List.nil_append, Prod.mk.injEq] at k3
    obtain ⟨rfl, rfl⟩ := k3
    exact ⟨rfl, Outcome.ok.inj (hr1.symm.trans (k2 _))⟩
  obtain ⟨r0, rfl, rfl⟩ := own
  refine ⟨_, _, seen_of_exchange he, rfl, ?_, ?_, fun t => ?_, fun t => ?_⟩
  · dsimp only; rw [hM, List.length_append, pick_length]
  · dsimp only; rw [hM, List.length_append, pick_length]
  · rw [hM]
    dsimp only
    revert t
    rw [hlen]
    intro t
    rw [← pick_card (fun x => decide (decrypt S.sk0 x.1 = 0)) (fun x (k : Fin (p * q)) => (((msg x + (k : Nat)) % (p * q) : Nat) : Int))
      (fun y => 0 ≤ y ∧ y < ((p * q : Nat) : Int)) cands ?_ t]
    · refine Fintype.card_congr (Equiv.subtypeEquivRight fun r => ?_)
      simp only [shares1After, key r, Outcome.bind_ok, Outcome.pure_eq, Outcome.ok.injEq, List.append_cancel_left_eq]
    · intro x _
      refine ⟨fun k => by have := Nat.mod_lt (msg x + (k : Nat)) hnpos; omega, fun t ht => ?_⟩
      exact add_unique hnpos (msg x) ht.1 ht.2
  · rw [hM]
    dsimp only
    revert t
    rw [hlen]
    intro t
    rw [← pick_card (fun x => decide (decrypt S.sk0 x.1 = 0)) (fun _ (k : Fin (p * q)) => ((p * q : Nat) : Int) - ((k : Nat) : Int))
      (fun y => 0 < y ∧ y ≤ ((p * q : Nat) : Int)) cands ?_ t]
    · refine Fintype.card_congr (Equiv.subtypeEquivRight fun r => ?_)
      simp only [shares0After, key r, Outcome.bind_ok, Outcome.pure_eq, Outcome.ok.injEq, List.append_cancel_left_eq]
    · intro x _
      refine ⟨fun k => by have := k.isLt; omega, fun t ht => ⟨⟨(((p * q : Nat) : Int) - t).toNat, by omega⟩, fun k => ?_⟩⟩
      rw [Fin.ext_iff]
      have := k.isLt
      simp only
      omega

end Upsi.View

namespace Upsi.View.Examples
open Upsi Upsi.ElGamal Upsi.Tree Upsi.Num Upsi.Proto Upsi.Proto.Examples

/-- The second day of `toyDaysSS`. -/
def day2SS : DayIn (ZMod 65521) (Nat × Int) Int :=
  ⟨[(8, 30)], [3, 9], toyCoinsSS [Props.toyHash 2] [Props.toyHash 0, Props.toyHash 3]⟩

/- The hypotheses of C66 are met by the second day of the history of C45; on it party one gets one new share, every
value below 77 being equally likely. -/
example : ∃ s v, viewSS toySetup toyCodec65521 (fun _ => none) toyA toyB Props.toyHash s day2SS = .ok v ∧
    ∀ y : Int, 0 ≤ y → y < 77 → Fintype.card {r : Fin v.length → Fin (7 * 11) //
      shares1After toyCodec65521 (fun _ => none) toyA toyB Props.toyHash toySetup s (reshare day2SS r) = .ok (s.shares1 ++ [y])} =
        77 ^ (v.length - 1) := by
  obtain ⟨s2, h2, hp⟩ := toySS_run
  obtain ⟨s1, h1, hd⟩ := two_days h2
  obtain ⟨t, ht, hq⟩ := (holds_ok (by decide +kernel) : ∃ t, runSS toySetup toyCodec65521 (fun _ => none) toyA toyB Props.toyHash 4 1
      [⟨[(3, 10), (5, 20)], [5], toyCoinsSS [Props.toyHash 0, Props.toyHash 1] [Props.toyHash 1]⟩] = .ok t ∧ (t.shares0.length == 1) = true)
  have e1 : s1 = t := Outcome.ok.inj (h1.symm.trans ht)
  subst e1
  obtain ⟨t2, ht2, hq2⟩ := (holds_ok (by decide +kernel) : ∃ t, runSS toySetup toyCodec65521 (fun _ => none) toyA toyB Props.toyHash 4 1
      toyDaysSS = .ok t ∧ (t.shares0.length == 2) = true)
  have e2 : s2 = t2 := Outcome.ok.inj (h2.symm.trans ht2)
  subst e2
  simp only [beq_iff_eq] at hq hq2
  obtain ⟨v, M, k1, k2, k3, k4, k5, _⟩ := C66_shares_uniform toySetup toyCodec65521 toySSKeys Props.toyHash Props.toyHash_len 50 4 1
    [⟨[(3, 10), (5, 20)], [5], toyCoinsSS [Props.toyHash 0, Props.toyHash 1] [Props.toyHash 1]⟩] day2SS toyDaysSS_adm (by
      intro d hd
      simp only [List.cons_append, List.nil_append, List.mem_cons, List.not_mem_nil, or_false] at hd
      rcases hd with rfl | rfl <;> exact toySSCoins _ _) (by decide) s1 s2 h1 hd
  have hM : M = 1 := by omega
  refine ⟨s1, v, k1, fun y hy0 hy1 => ?_⟩
  rw [k5 [y], if_pos ⟨by rw [hM]; rfl, by simpa using ⟨hy0, by omega⟩⟩, hM]

end Upsi.View.Examples
