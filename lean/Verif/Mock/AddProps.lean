import Verif.Mock.Add
import Verif.Proto.SSProps
import Verif.Setup.ImportSum
/-
Property theorems C78 (secret sharing): a run with `--start_size`.
-/
namespace Upsi.Mock
open Upsi Upsi.ElGamal Upsi.Tree Upsi.Num Upsi.Proto Upsi.Setup

variable {α β γ κ P σ G : Type} [AddCommGroup G] [DecidableEq G]

theorem matched_disjoint (key : P → Nat) {X : List P} {Y : List Nat} (h : ∀ p ∈ X, key p ∉ Y) : matched key X Y = [] := by
  induction X with
  | nil => rfl
  | cons p X ih =>
    rw [show p :: X = [p] ++ X from rfl, matched_append_left, ih (fun p hp => h p (by simp [hp]))]
    simp [matched, List.count_eq_zero.2 (h p (by simp))]

omit [AddCommGroup G] [DecidableEq G] in
/-- Lifting a one-day fact to histories, for any invariant. -/
theorem runDaysJ {step : σ → DayIn G P κ → Outcome σ} {J : List P → List Nat → σ → Prop}
    {lost0 : σ → List P} {lost1 : σ → List Nat} {Out : List P → List Nat → σ → Prop} {n m : Nat} (ds0 : List (DayIn G P κ))
    (hstep : ∀ X Y s s' d, d ∈ ds0 → J X Y s → (X ++ d.xs).length ≤ n → (Y ++ d.ys).length ≤ m → (∀ p ∈ X, p ∈ allX ds0) →
      (∀ y ∈ Y, y ∈ allY ds0) → step s d = .ok s' →
      J (X ++ d.xs) (Y ++ d.ys) s' ∧ lost0 s <+: lost0 s' ∧ lost1 s <+: lost1 s' ∧
      (lost0 s' = [] → lost1 s' = [] → Out X Y s → Out (X ++ d.xs) (Y ++ d.ys) s'))
    (ds : List (DayIn G P κ)) : ∀ (X : List P) (Y : List Nat) (s s' : σ), (∀ d ∈ ds, d ∈ ds0) → J X Y s →
    (X ++ allX ds).length ≤ n → (Y ++ allY ds).length ≤ m → (∀ p ∈ X, p ∈ allX ds0) → (∀ y ∈ Y, y ∈ allY ds0) →
    runDays step s ds = .ok s' →
    J (X ++ allX ds) (Y ++ allY ds) s' ∧ lost0 s <+: lost0 s' ∧ lost1 s <+: lost1 s' ∧
    (lost0 s' = [] → lost1 s' = [] → Out X Y s → Out (X ++ allX ds) (Y ++ allY ds) s') := by
  induction ds with
  | nil =>
    intro X Y s s' _ hJ _ _ _ _ h
    simp only [runDays, Outcome.ok.injEq] at h
    subst h
    simpa [allX, allY] using hJ
  | cons d ds ih =>
    intro X Y s s' hm hJ tX tY mX mY h
    simp only [runDays, Outcome.bind_eq_ok] at h
    obtain ⟨s1, h1, h2⟩ := h
    have eX : X ++ allX (d :: ds) = (X ++ d.xs) ++ allX ds := by simp [allX]
    have eY : Y ++ allY (d :: ds) = (Y ++ d.ys) ++ allY ds := by simp [allY]
    rw [eX] at tX ⊢
    rw [eY] at tY ⊢
    have hd := hm d (by simp)
    obtain ⟨k1, k2, k3, k4⟩ := hstep X Y s s1 d hd hJ (by rw [List.length_append (as := X ++ d.xs)] at tX; omega)
      (by rw [List.length_append (as := Y ++ d.ys)] at tY; omega) mX mY h1
    obtain ⟨j1, j2, j3, j4⟩ := ih _ _ _ _ (fun e he => hm e (by simp [he])) k1 tX tY (fun p hp => by
        rcases List.mem_append.1 hp with hp | hp
        · exact mX p hp
        · exact List.mem_flatMap.2 ⟨d, hd, hp⟩) (fun p hp => by
        rcases List.mem_append.1 hp with hp | hp
        · exact mY p hp
        · exact List.mem_flatMap.2 ⟨d, hd, hp⟩) h2
    refine ⟨j1, k2.trans j2, k3.trans j3, fun l0 l1 ho => j4 l0 l1 (k4 ?_ ?_ ho)⟩
    · exact List.prefix_nil.1 (l0 ▸ j2)
    · exact List.prefix_nil.1 (l1 ▸ j3)

/-- The random choices of `CreateMockTrees` are drawn from the ranges the code draws them from: fifteen digits per
element, a 256-bit path identifier per element, and a Paillier coin below the modulus. -/
structure MockCoins.WF (size n : Nat) (i : Nat) (ρ : MockCoins) : Prop where
  rnd : ∀ i, 15 ≤ (ρ.rnd i).length
  count : ρ.hsh.length = size
  hsh : ∀ h ∈ ρ.hsh, h.length = 256
  coin : 0 ≤ ρ.zero i ∧ ρ.zero i ≤ n

/-- The invariant after both parties of the secret-sharing protocol made mock trees of the same size. -/
theorem startSS_inv (S : Setup G) {c : Codec G} {p q : Nat} {mont : Int → Option Mont} {a b : TPaillier}
    (K : SSKeys p q mont a b) {hashOf : Nat → List Bool} (hh : ∀ e, (hashOf e).length = 256) {B : Nat}
    (hBq : B < S.q) (stash node : Nat) {start : Int} (h0 : 0 < start) (hl : start < 2 ^ 30) {ρ0 ρ1 : MockCoins}
    (w0 : ρ0.WF start.toNat (p * q) 1) (w1 : ρ1.WF start.toNat (p * q) 1) :
    ∃ M0 M1 s, mockElements ρ0.rnd 0 start.toNat = .ok M0 ∧ mockElements ρ1.rnd 0 start.toNat = .ok M1 ∧
      (∀ m ∈ M0, m < 10 ^ 15) ∧ (∀ m ∈ M1, m < 10 ^ 15) ∧ M0.length = start.toNat ∧ M1.length = start.toNat ∧
      startSS hashOf S.pk mont b stash node start start ρ0 ρ1 = .ok s ∧ s.shares0 = [] ∧ s.shares1 = [] ∧
      ∀ N0 N1 : Nat → Prop, (∀ m ∈ M0, ¬ N0 m) → (∀ m ∈ M1, ¬ N1 m) → ¬ N0 B → ¬ N1 B →
        InvN N0 N1 S (funcSS c mont a b) (PaySS (p * q)) hashOf B (M0.map (fun e => (e, 1))) M1 s.p0 s.p1 := by
  obtain ⟨M0, e0, l0, b0⟩ := mockElements_ok ρ0.rnd w0.rnd start.toNat 0
  obtain ⟨M1, e1, l1, b1⟩ := mockElements_ok ρ1.rnd w1.rnd start.toNat 0
  have hlt : start.toNat < 2 ^ 30 := by omega
  have hh' : ∀ e, 256 ≤ (hashOf e).length := fun e => by rw [hh e]
  obtain ⟨r0, i0, f0⟩ := filled_insert (hashOf := fun p : Nat × Int => hashOf p.1) (fun e => hh' e.1) stash node
    (es := M0.map (fun e => (e, (1 : Int)))) (hsh := ρ0.hsh) ⟨by simp [l0, w0.count], w0.hsh⟩ (by simp [l0]; omega)
  obtain ⟨r1, i1, f1⟩ := filled_insert (hashOf := hashOf) hh' stash node
    (es := M1) (hsh := ρ1.hsh) ⟨by simp [l1, w1.count], w1.hsh⟩ (by rw [l1]; exact hlt)
  obtain ⟨z, hz, _⟩ := Paillier.C21_encrypt (Nat.mul_pos K.primes.hp.pos K.primes.hq.pos) K.primes.small_mul K.mont
    K.pubb 0 (pow_pos (Nat.mul_pos K.primes.hp.pos K.primes.hq.pos) 1) (ρ1.zero 1) w1.coin.1 w1.coin.2
  rw [Nat.cast_zero] at hz
  refine ⟨M0, M1, ⟨⟨r0.tree, mockCopy (encrypt S.pk (ρ0.zero 0) 0) (Tree.empty stash node) r0.tree, r0.lost⟩,
    ⟨r1.tree, mockCopy (encrypt S.pk (ρ1.zero 0) 0, z) (Tree.empty stash node) r1.tree, r1.lost⟩, [], []⟩, e0, e1,
    b0, b1, l0, l1, ?_, rfl, rfl, ?_⟩
  · rw [startSS, startSS0, startSS1, if_pos h0, if_pos h0, mockSS0, e0, Outcome.bind_ok, i0, Outcome.bind_ok, Outcome.pure_eq, Outcome.bind_ok,
      mockSS1, e1, Outcome.bind_ok, i1, Outcome.bind_ok, hz]
    rfl
  · intro N0 N1 n0 n1 nB0 nB1
    have hlen : (M0.map (fun e => (e, (1 : Int)))).length = M1.length := by simp [l0, l1]
    have hdec : ∀ r : Int, S.dec (encrypt S.pk r 0) = 0 := fun r => by
      simp only [Setup.dec, decrypt, encrypt, encryptPoint, Setup.pk]; module
    refine ⟨f0.wf, f1.wf, by rw [f0.size], f1.size, f0.all, f1.all, ?_, ?_⟩
    · refine mockCopy_mirror f0 f1 hlen _ _ (B, 0) ⟨le_refl _, hBq⟩ (Or.inr ⟨nB0, hdec _⟩) (fun x hx => Or.inr ⟨?_, hdec _⟩)
      have := f0.all.subset (List.mem_append_left _ hx)
      obtain ⟨m, hm, rfl⟩ := List.mem_map.1 this
      exact n0 m hm
    · refine mockCopy_mirror f1 f0 hlen.symm _ _ B ⟨le_refl _, hBq⟩ (Or.inr ⟨nB1, hdec _⟩) (fun x hx => Or.inr ⟨?_, hdec _⟩)
      exact n1 x (f1.all.subset (List.mem_append_left _ hx))

/-- What a day of the secret-sharing protocol adds to the shares. -/
theorem daySSBodyN_step {N0 N1 : Nat → Prop} (S : Setup G) {c : Codec G} {p q : Nat} {mont : Int → Option Mont} {a b : TPaillier}
    (K : SSKeys p q mont a b) {hashOf : Nat → List Bool} (hh : ∀ e, (hashOf e).length = 256) {B : Nat} (hB : B ≤ S.q)
    {X : List (Nat × Int)} {Y : List Nat} {s s' : StSS G} {d : DayIn G (Nat × Int) Int}
    (hI : InvN N0 N1 S (funcSS c mont a b) (PaySS (p * q)) hashOf B X Y s.p0 s.p1)
    (h00 : ∀ k, ¬ N0 k → ¬ N0 0) (h10 : ∀ k, ¬ N1 k → ¬ N1 0) (hNx : ∀ p ∈ d.xs, N1 p.1) (hNy : ∀ y ∈ d.ys, N0 y)
    (hd : d.coins.WF S Prod.fst B (fun t => NonZero S (t 0)) d.xs d.ys)
    (hX : ∀ e ∈ X ++ d.xs, e.1 < B) (hY : ∀ y ∈ Y ++ d.ys, y < B)
    (tX : (X ++ d.xs).length < 2 ^ 30) (tY : (Y ++ d.ys).length < 2 ^ 30)
    (hs : daySSBody c mont a b hashOf S.pk S.sk0 S.sk1 s d.xs d.ys d.coins = .ok s') :
    InvN N0 N1 S (funcSS c mont a b) (PaySS (p * q)) hashOf B (X ++ d.xs) (Y ++ d.ys) s'.p0 s'.p1 ∧
    s.p0.lost <+: s'.p0.lost ∧ s.p1.lost <+: s'.p1.lost ∧
    (s'.p0.lost = [] → s'.p1.lost = [] → ∃ ms new0 new1,
      ms.Perm (matched Prod.fst d.xs Y ++ matched Prod.fst (X ++ d.xs) d.ys) ∧
      s'.shares0 = s.shares0 ++ new0 ∧ s'.shares1 = s.shares1 ++ new1 ∧ new0.length = new1.length ∧
      List.Forall₂ (fun e (t : Int × Int) => Reconstructs (p * q) e t.1 t.2) ms (new0.zip new1)) := by
  simp only [daySSBody, Outcome.bind_eq_ok, Outcome.pure_eq, Outcome.ok.injEq] at hs
  obtain ⟨⟨p0, p1, cands⟩, he, ⟨sh0, pays⟩, hl, sh1, hr, rfl⟩ := hs
  obtain ⟨k1, k2, k3, k4⟩ := exchangeN_spec (funcSS_ok S c K) c hh hB hI h00 h10 hNx hNy hd hX hY tX tY he
  refine ⟨k1, k2, k3, fun l0 l1 => ?_⟩
  obtain ⟨ms, hp, hf⟩ := k4 l0 l1
  obtain ⟨new, newp, j1, j2, j3⟩ := ssLoop_spec K _ _ _ _ _ _ _ _ _ hf hl
  simp only [List.nil_append] at j2
  subst j2
  obtain ⟨new1, i1, i2, i3, i4⟩ := j3 _ _ hr
  exact ⟨ms, new, new1, hp, j1, i1, by rw [i2, i3], i4⟩

/-- Histories after mock trees of `size` elements were made: elements are positive and below `B`. -/
structure MockAdmissible (S : Setup G) (B size : Nat) (ds : List (DayIn G (Nat × Int) Int)) : Prop where
  bound : B < S.q
  coins : ∀ d ∈ ds, d.coins.WF S Prod.fst B (fun t => NonZero S (t 0)) d.xs d.ys
  x : ∀ p ∈ allX ds, 0 < p.1 ∧ p.1 < B
  y : ∀ y ∈ allY ds, 0 < y ∧ y < B
  sizeX : size + (allX ds).length < 2 ^ 30
  sizeY : size + (allY ds).length < 2 ^ 30

/-- **C78** (secret shares) With `--start_size` (the same positive number at both parties) the trees are filled with
random elements below `10^15` and the copies with encryptions of zero – this never fails – and, provided no mock element of a party
equals an element the other party adds later, a run that completes without losing entries yields shares of exactly the
common elements of the data sets: mock entries never show up, not even those that are common to both mock trees. -/
theorem C78_shares (S : Setup G) (c : Codec G) {p q : Nat} {mont : Int → Option Mont} {a b : TPaillier}
    (K : SSKeys p q mont a b) (hashOf : Nat → List Bool) (hh : ∀ e, (hashOf e).length = 256) (B stash node : Nat)
    (start : Int) (h0 : 0 < start) (ρ0 ρ1 : MockCoins) (w0 : ρ0.WF start.toNat (p * q) 1)
    (w1 : ρ1.WF start.toNat (p * q) 1) (ds : List (DayIn G (Nat × Int) Int)) (hA : MockAdmissible S B start.toNat ds)
    (hY : (allY ds).Nodup) :
    ∃ M0 M1 s, mockElements ρ0.rnd 0 start.toNat = .ok M0 ∧ mockElements ρ1.rnd 0 start.toNat = .ok M1 ∧
      (∀ m ∈ M0 ++ M1, m < 10 ^ 15) ∧ startSS hashOf S.pk mont b stash node start start ρ0 ρ1 = .ok s ∧
      ∀ s', (∀ m ∈ M0 ++ M1, m < B) → (∀ m ∈ M0, m ∉ allY ds) → (∀ m ∈ M1, m ∉ (allX ds).map Prod.fst) →
        runSSFrom S c mont a b hashOf s ds = .ok s' → s'.p0.lost = [] → s'.p1.lost = [] →
        s'.shares0.length = s'.shares1.length ∧
        (List.zipWith (fun x y => (x + y) % ((p * q : Nat) : Int)) s'.shares0 s'.shares1).Perm
          ((((allX ds).map Prod.fst).filter (fun e => e ∈ allY ds)).map (fun e : Nat => (e : Int))) := by
  have t1 := hA.sizeX
  have t2 := hA.sizeY
  obtain ⟨M0, M1, s, e0, e1, f0, f1, n0, n1, hs, z0, z1, hI⟩ := startSS_inv (c := c) (a := a) S K hh hA.bound stash node h0
    (by omega) w0 w1
  refine ⟨M0, M1, s, e0, e1, fun m hm => (List.mem_append.1 hm).elim (f0 m) (f1 m), hs, fun s' bm d0 d1 hr l0 l1 => ?_⟩
  have b0 : ∀ m ∈ M0, m < B := fun m hm => bm m (List.mem_append_left _ hm)
  have b1 : ∀ m ∈ M1, m < B := fun m hm => bm m (List.mem_append_right _ hm)
  have hXe : allX (ds.map DayIn.loaded) = (allX ds).map getPayloadSS := by
    simp only [allX, List.flatMap_map, List.map_flatMap]; rfl
  have hYe : allY (ds.map DayIn.loaded) = allY ds := by
    simp only [allY, List.flatMap_map]; rfl
  have h' : runDays (fun s d => daySSBody c mont a b hashOf S.pk S.sk0 S.sk1 s d.xs d.ys d.coins)
      s (ds.map DayIn.loaded) = .ok s' := by
    rw [runDays_map]; exact hr
  have xm : ∀ e ∈ allX (ds.map DayIn.loaded), e.1 ∈ (allX ds).map Prod.fst := by
    intro e he
    rw [hXe] at he
    obtain ⟨x, hx, rfl⟩ := List.mem_map.1 he
    exact List.mem_map.2 ⟨x, hx, rfl⟩
  have xb : ∀ k ∈ (allX ds).map Prod.fst, 0 < k ∧ k < B := by
    intro k hk
    obtain ⟨x, hx, rfl⟩ := List.mem_map.1 hk
    exact hA.x x hx
  have hout := (runDaysJ (ds.map DayIn.loaded)
    (step := fun s d => daySSBody c mont a b hashOf S.pk S.sk0 S.sk1 s d.xs d.ys d.coins)
    (J := fun X Y (t : StSS G) => InvN (fun k => k ∈ allY ds) (fun k => k ∈ (allX ds).map Prod.fst) S (funcSS c mont a b)
      (PaySS (p * q)) hashOf B (M0.map (fun e => (e, (1 : Int))) ++ X) (M1 ++ Y) t.p0 t.p1)
    (lost0 := fun t => t.p0.lost) (lost1 := fun t => t.p1.lost)
    (Out := fun X Y t => t.shares0.length = t.shares1.length ∧ ∃ ms, ms.Perm (matched Prod.fst X Y) ∧
      List.Forall₂ (fun e (t : Int × Int) => Reconstructs (p * q) e t.1 t.2) ms (t.shares0.zip t.shares1))
    (n := (allX ds).length) (m := (allY ds).length)
    ?_ (ds.map DayIn.loaded) [] [] s s' (fun _ h => h)
    (by
      show InvN _ _ S _ _ hashOf B (_ ++ []) (_ ++ []) s.p0 s.p1
      rw [List.append_nil, List.append_nil]
      exact hI _ _ d0 d1 (fun h => absurd (hA.y B h).2 (lt_irrefl B)) (fun h => absurd (xb B h).2 (lt_irrefl B)))
    (by rw [hXe]; simp) (by rw [hYe]; simp) (by simp) (by simp) h').2.2.2 l0 l1
    ⟨by rw [z0, z1], [], by simp [matched], by rw [z0]; exact .nil⟩
  · obtain ⟨hlen, ms, hp, hf⟩ := hout
    simp only [List.nil_append, hXe, hYe] at hp
    refine ⟨hlen, ?_⟩
    have e1 : List.zipWith (fun x y => (x + y) % ((p * q : Nat) : Int)) s'.shares0 s'.shares1 =
        ms.map Prod.snd := by
      rw [← List.map_uncurry_zip_eq_zipWith]
      clear hp
      generalize s'.shares0.zip s'.shares1 = z at hf
      induction hf with
      | nil => rfl
      | cons h1 _ ih =>
        rw [List.map_cons, List.map_cons, ih]
        exact congrArg (· :: _) h1.1
    rw [e1]
    refine (hp.map _).trans ?_
    rw [matched_eq_filter _ _ _ hY, List.filter_map, List.map_map, List.filter_map, List.map_map]
    exact List.Perm.refl _
  · intro X Y t t' d hd hJ tX tY mX mY hst
    obtain ⟨e, he, rfl⟩ := List.mem_map.1 hd
    have hc := hA.coins e he
    have hc' : (DayIn.loaded e).coins.WF S Prod.fst B (fun t => NonZero S (t 0)) (DayIn.loaded e).xs (DayIn.loaded e).ys :=
      ⟨⟨by simpa [DayIn.loaded] using hc.hsh0.1, hc.hsh0.2⟩, hc.hsh1, hc.pads0, hc.pads1, hc.shuffle, hc.masks⟩
    have hx1 : ∀ x ∈ (DayIn.loaded e).xs, x.1 ∈ (allX ds).map Prod.fst := fun x hx =>
      xm x (List.mem_flatMap.2 ⟨_, hd, hx⟩)
    have hy1 : ∀ y ∈ (DayIn.loaded e).ys, y ∈ allY ds := fun y hy => by
      rw [← hYe]; exact List.mem_flatMap.2 ⟨_, hd, hy⟩
    obtain ⟨k1, k2, k3, k4⟩ := daySSBodyN_step S K hh (le_of_lt hA.bound) hJ (fun _ _ h => absurd (hA.y 0 h).1 (lt_irrefl 0))
      (fun _ _ h => absurd (xb 0 h).1 (lt_irrefl 0)) hx1 hy1 hc' (fun x hx => by
        rcases List.mem_append.1 hx with hx | hx
        · rcases List.mem_append.1 hx with hx | hx
          · obtain ⟨m, hm, rfl⟩ := List.mem_map.1 hx
            exact b0 m hm
          · exact (xb _ (xm x (mX x hx))).2
        · exact (xb _ (hx1 x hx)).2) (fun y hy => by
        rcases List.mem_append.1 hy with hy | hy
        · rcases List.mem_append.1 hy with hy | hy
          · exact b1 y hy
          · exact (hA.y y (hYe ▸ mY y hy)).2
        · exact (hA.y y (hy1 y hy)).2)
      (by simp only [List.length_append, List.length_map] at tX t1 ⊢; omega)
      (by simp only [List.length_append] at tY t2 ⊢; omega) hst
    rw [List.append_assoc, List.append_assoc] at k1
    refine ⟨k1, k2, k3, fun l0 l1 ho => ?_⟩
    obtain ⟨ms, new, new1, hp, j1, i1, i2, i4⟩ := k4 l0 l1
    obtain ⟨hlen, ms0, hp0, hf0⟩ := ho
    refine ⟨by simp [j1, i1, hlen, i2], ms0 ++ ms, ?_, ?_⟩
    · refine List.Perm.trans (hp0.append (hp.trans ?_)) (matched_step Prod.fst X _ Y _).symm
      rw [List.append_assoc, matched_append_left _ (M0.map _),
        matched_disjoint Prod.fst (X := M0.map (fun e => (e, (1 : Int)))) (Y := (DayIn.loaded e).ys) (fun x hx => by
          obtain ⟨m, hm, rfl⟩ := List.mem_map.1 hx
          exact fun h => d0 m hm (hy1 m h)), List.nil_append]
      refine List.Perm.append_right _ ((matched_append_right Prod.fst _ M1 Y).trans ?_)
      rw [matched_disjoint Prod.fst (fun x hx h => d1 x.1 h (hx1 x hx)), List.nil_append]
    · simp only [j1, i1]
      rw [List.zip_append hlen]
      exact List.rel_append hf0 i4

end Upsi.Mock
