import Verif.Proto.ProgressProps
import Verif.Proto.SSProps
/-
Property theorem C63 for the addition-only secret-sharing protocol.
-/
namespace Upsi.Proto
open Upsi Upsi.ElGamal Upsi.Tree Upsi.Num

variable {G : Type} [AddCommGroup G] [DecidableEq G]

/-- The day's Paillier coins are in the ranges they are drawn from: encryption coins at most `n`,
re-randomization coins non-negative, shares below `n`; padding entries carry in-range payloads. -/
structure SSCoins (n : Nat) (ρ : Coins G (Nat × Int) Int) : Prop where
  enc0 : ∀ i j, 0 ≤ ρ.enc0 i j 1 ∧ ρ.enc0 i j 1 ≤ n
  x0 : ∀ i, 0 ≤ ρ.x0 i 1 ∧ ρ.x0 i 1 ≤ n
  send : ∀ i, 0 ≤ ρ.send i 0
  share : ∀ i, 0 ≤ ρ.last i 0 ∧ ρ.last i 0 < n
  last : ∀ i, 0 ≤ ρ.last i 1 ∧ ρ.last i 1 ≤ n
  pads : ∀ i j, 0 ≤ (ρ.pads0 i j).2 ∧ (ρ.pads0 i j).2 < n

theorem encryptP_total {p q : Nat} {mont : Int → Option Mont} {a b : TPaillier} (K : SSKeys p q mont a b)
    {m r : Int} (h0 : 0 ≤ m) (h1 : m < ((p * q : Nat) : Int)) (r0 : 0 ≤ r) (r1 : r ≤ ((p * q : Nat) : Int)) :
    ∃ c, a.pub.encrypt mont m r = .ok c ∧ Paillier.IsEnc (p * q) 1 c m.toNat := by
  have hn : 0 < p * q := Nat.mul_pos K.primes.hp.pos K.primes.hq.pos
  obtain ⟨c, k1, k2⟩ := Paillier.C21_encrypt hn K.primes.small_mul K.mont K.puba m.toNat (by rw [pow_one]; omega) r r0 r1
  rw [Int.toNat_of_nonneg h0] at k1
  exact ⟨c, k1, k2⟩

theorem serPaillier_only (c : Codec G) (x : Ct G) {k : Int} (hk : 0 ≤ k) : (serPaillier c x k).Only InfErr
    (fun w => deserPaillier c w = .ok (x, k)) := by
  obtain ⟨w, h1, h2, _⟩ := C30_bytes_roundtrip k hk
  unfold serPaillier
  refine (serializeCt_only c x).bind fun p _ hp => ?_
  rw [h1, Outcome.bind_ok]
  simp only [Outcome.Only, Outcome.pure_eq, deserPaillier, hp, Outcome.bind_ok, h2]

theorem funcSS_total (S : Setup G) (c : Codec G) {p q : Nat} {mont : Int → Option Mont} {a b : TPaillier}
    (K : SSKeys p q mont a b) :
    FuncTotal S (funcSS c mont a b) (PaySS (p * q)) InfErr (fun e => 0 ≤ e.2 ∧ e.2 < ((p * q : Nat) : Int))
      (fun k => ∃ m, Paillier.IsEnc (p * q) 1 k m)
      (fun t => 0 ≤ t 1 ∧ t 1 ≤ ((p * q : Nat) : Int)) (fun t => 0 ≤ t 1 ∧ t 1 ≤ ((p * q : Nat) : Int)) (fun t => 0 ≤ t 0) where
  tree t e ht he := by
    obtain ⟨y, h1, h2⟩ := encryptP_total K he.1 he.2 ht.1 ht.2
    simp only [funcSS]
    rw [h1, Outcome.bind_ok]
    exact (serPaillier_only c _ h2.1).mono (fun _ h => h) (fun w _ h => ⟨_, h⟩)
  payload t e ht he := by
    obtain ⟨y, h1, h2⟩ := encryptP_total K he.1 he.2 ht.1 ht.2
    simp only [funcSS]
    rw [h1]
    exact ⟨_, h2⟩
  ser x k hk := by
    obtain ⟨m, hm⟩ := hk
    exact (serPaillier_only c x hm.1).mono (fun _ h => h) (fun w _ h => ⟨_, h, m, hm⟩)
  mask t x hk := hk
  send t x ht hk := by
    obtain ⟨m, hm⟩ := hk
    obtain ⟨r, h1, h2⟩ := Paillier.C21_rerand (Nat.mul_pos K.primes.hp.pos K.primes.hq.pos) K.mont K.pubb hm (t 0) ht
    obtain ⟨w, h3, h4, _⟩ := C30_bytes_roundtrip r h2.1
    simp only [funcSS]
    refine (serializeCt_only c _).bind fun e _ he => ?_
    rw [h1, Outcome.bind_ok, h3, Outcome.bind_ok]
    refine ⟨(partialDecrypt S.sk1 x.1, r), ?_, m, h2⟩
    simp only [deserPaillier, he, Outcome.bind_ok, Outcome.pure_eq, h4]
  pay e k h := ⟨_, h.2.2⟩

/-- The share loop and the peer's decryption loop never fail on ciphertexts. -/
theorem ssLoop_total {p q : Nat} {mont : Int → Option Mont} {a b : TPaillier} (K : SSKeys p q mont a b)
    (sk0 : Int) {tape : Nat → Tape} (h0 : ∀ i, 0 ≤ tape i 0 ∧ tape i 0 < ((p * q : Nat) : Int))
    (h1 : ∀ i, 0 ≤ tape i 1 ∧ tape i 1 ≤ ((p * q : Nat) : Int)) (xs : List (Ct G × Int)) :
    ∀ (i : Nat) (sh : List Int) (pays : List (List UInt8)), (∀ x ∈ xs, ∃ m, Paillier.IsEnc (p * q) 1 x.2 m) →
    ∃ sh' newp, ssLoop mont a sk0 tape i xs sh pays = .ok (sh', pays ++ newp) ∧ ∀ r, ∃ r', ssRecv b newp r = .ok r' := by
  induction xs with
  | nil => intro i sh pays _; exact ⟨sh, [], by simp [ssLoop], fun r => ⟨r, rfl⟩⟩
  | cons x xs ih =>
    intro i sh pays hx
    have hxs : ∀ y ∈ xs, ∃ m, Paillier.IsEnc (p * q) 1 y.2 m := fun y hy => hx y (by simp [hy])
    unfold ssLoop
    split
    · obtain ⟨m, hm⟩ := hx x (by simp)
      obtain ⟨e, he, hE⟩ := encryptP_total K (h0 i).1 (h0 i).2 (h1 i).1 (h1 i).2
      obtain ⟨e', he', hS⟩ := Paillier.C23_add K.primes K.keys hm hE
      obtain ⟨-, part, hp1, hp2⟩ := Paillier.C23_decrypt K.primes K.keys hS
      have hpart : 0 ≤ part := by
        by_contra hneg
        rw [Paillier.decryptT, if_neg (by have := hS.1; omega), if_pos (by omega)] at hp2
        simp at hp2
      obtain ⟨w, hw, hw2, _⟩ := C30_bytes_roundtrip e' hS.1
      obtain ⟨wp, hwp, hwp2, _⟩ := C30_bytes_roundtrip part hpart
      obtain ⟨sh', newp, k1, k2⟩ := ih (i + 1) (sh ++ [a.key.n - tape i 0]) (pays ++ [w, wp]) hxs
      refine ⟨sh', w :: wp :: newp, ?_, ?_⟩
      · simp only [he, he', hp1, hw, hwp, Outcome.bind_ok, k1]; simp
      · intro r
        simp only [ssRecv]
        rw [hw2, hwp2, hp2, Outcome.bind_ok]
        exact k2 _
    · exact ih _ _ _ hxs

/-- The invariant of the parties' trees along a history, or the infinity error. -/
theorem runSS_inv (S : Setup G) (c : Codec G) {p q : Nat} {mont : Int → Option Mont} {a b : TPaillier}
    (K : SSKeys p q mont a b) (hashOf : Nat → List Bool)
    (hh : ∀ e, (hashOf e).length = 256) (B stash node : Nat) (ds : List (DayIn G (Nat × Int) Int))
    (hadm : Admissible S Prod.fst B (fun t => NonZero S (t 0)) ds)
    (hcoins : ∀ d ∈ ds, SSCoins (p * q) d.coins) (hB : B ≤ p * q) :
    (runSS S c mont a b hashOf stash node ds).Only InfErr (fun s =>
      Inv S (funcSS c mont a b) (PaySS (p * q)) hashOf B ((allX ds).map getPayloadSS) (allY ds) s.p0 s.p1 ∧
      Fits stash ((allX ds).map getPayloadSS) (allY ds) s.p0 s.p1) := by
  have hX : allX (ds.map DayIn.loaded) = (allX ds).map getPayloadSS := by
    simp only [allX, List.flatMap_map, List.map_flatMap]; rfl
  have hYe : allY (ds.map DayIn.loaded) = allY ds := by
    simp only [allY, List.flatMap_map]; rfl
  have hrun : runSS S c mont a b hashOf stash node ds =
      runDays (fun s d => daySSBody c mont a b hashOf S.pk S.sk0 S.sk1 s d.xs d.ys d.coins)
        (StSS.init stash node) (ds.map DayIn.loaded) := by
    rw [runDays_map]; rfl
  have := runDays_only (S := S) (key := Prod.fst) (Good := fun t => NonZero S (t 0)) (B := B) (E := InfErr)
    (D := fun d => SSCoins (p * q) d.coins) (PX := fun e => 0 ≤ e.2 ∧ e.2 < ((p * q : Nat) : Int))
    (J := fun X Y (s : StSS G) => Inv S (funcSS c mont a b) (PaySS (p * q)) hashOf B X Y s.p0 s.p1 ∧
      Fits stash X Y s.p0 s.p1)
    (step := fun s d => daySSBody c mont a b hashOf S.pk S.sk0 S.sk1 s d.xs d.ys d.coins)
    (fun X Y s d hJ hd hD hX hY tX tY => by
      unfold daySSBody
      refine (exchange_only (funcSS_ok S c K) c hh hd.bound hJ.1 hJ.2 (hd.coins d (by simp)) (fun p hp => (hX p hp).1)
        hY tX tY (fun _ h => h) (funcSS_total S c K) (fun e he => (hX e he).2) hD.pads hD.enc0 hD.x0 hD.send).bind ?_
      rintro ⟨p0, p1, cands⟩ - ⟨k0, k1, k2⟩
      obtain ⟨sh', newp, j1, j2⟩ := ssLoop_total K S.sk0 hD.share hD.last cands 0 s.shares0 [] k0
      obtain ⟨r', hr'⟩ := j2 s.shares1
      dsimp only
      rw [j1, Outcome.bind_ok]
      dsimp only
      rw [List.nil_append, hr', Outcome.bind_ok]
      exact ⟨k1, k2⟩)
    (ds.map DayIn.loaded) [] [] (StSS.init stash node) ⟨Inv.init _ _ _ _ _ _ _, Fits.init _ _⟩ hadm.bound ?_ ?_ ?_ ?_ ?_ ?_
  · rw [← hrun, List.nil_append, List.nil_append, hX, hYe] at this
    exact this
  · intro d hd
    obtain ⟨e, he, rfl⟩ := List.mem_map.1 hd
    have := hadm.coins e he
    exact ⟨⟨by simpa [DayIn.loaded] using this.hsh0.1, this.hsh0.2⟩, this.hsh1, this.pads0, this.pads1, this.shuffle, this.masks⟩
  · intro d hd
    obtain ⟨e, he, rfl⟩ := List.mem_map.1 hd
    exact hcoins e he
  · intro x hx
    simp only [List.nil_append, hX, List.mem_map] at hx
    obtain ⟨e, he, rfl⟩ := hx
    have := hadm.x e he
    exact ⟨this, by simp only [getPayloadSS]; omega, by simp only [getPayloadSS]; omega⟩
  · intro y hy
    rw [hYe] at hy
    exact hadm.y y (by simpa using hy)
  · rw [hX]; simpa using hadm.sizeX
  · rw [hYe]; simpa using hadm.sizeY

/-- **C63** (secret shares) With the Paillier coins in their ranges and elements below the Paillier modulus, the
run ends normally or with the infinity error. -/
theorem C63_secret_shares_only (S : Setup G) (c : Codec G) {p q : Nat} {mont : Int → Option Mont} {a b : TPaillier}
    (K : SSKeys p q mont a b) (hashOf : Nat → List Bool)
    (hh : ∀ e, (hashOf e).length = 256) (B stash node : Nat) (ds : List (DayIn G (Nat × Int) Int))
    (hadm : Admissible S Prod.fst B (fun t => NonZero S (t 0)) ds)
    (hcoins : ∀ d ∈ ds, SSCoins (p * q) d.coins) (hB : B ≤ p * q) :
    runSS S c mont a b hashOf stash node ds = .err "EC_POINT_point2oct failed" ∨
    ∃ s, runSS S c mont a b hashOf stash node ds = .ok s ∧
      ((allX ds).length ≤ stash → s.p0.lost = []) ∧ ((allY ds).length ≤ stash → s.p1.lost = []) := by
  rcases (runSS_inv S c K hashOf hh B stash node ds hadm hcoins hB).cases with ⟨s, hs, hJ⟩ | ⟨m, hm, rfl⟩
  · exact Or.inr ⟨s, hs, fun h => hJ.2.l0 (by simpa using h), hJ.2.l1⟩
  · exact Or.inl hm

/-- **C63/C45** (secret shares, unconditional for small sets). -/
theorem C63_secret_shares_small (S : Setup G) (c : Codec G) {p q : Nat} {mont : Int → Option Mont} {a b : TPaillier}
    (K : SSKeys p q mont a b) (hashOf : Nat → List Bool)
    (hh : ∀ e, (hashOf e).length = 256) (B stash node : Nat) (ds : List (DayIn G (Nat × Int) Int))
    (hadm : Admissible S Prod.fst B (fun t => NonZero S (t 0)) ds) (hY : (allY ds).Nodup)
    (hcoins : ∀ d ∈ ds, SSCoins (p * q) d.coins) (hB : B ≤ p * q)
    (sX : (allX ds).length ≤ stash) (sY : (allY ds).length ≤ stash) :
    runSS S c mont a b hashOf stash node ds = .err "EC_POINT_point2oct failed" ∨
    ∃ s, runSS S c mont a b hashOf stash node ds = .ok s ∧ s.shares0.length = s.shares1.length ∧
      (List.zipWith (fun x y => (x + y) % ((p * q : Nat) : Int)) s.shares0 s.shares1).Perm
        ((((allX ds).map Prod.fst).filter (fun e => e ∈ allY ds)).map (fun e : Nat => (e : Int))) := by
  rcases C63_secret_shares_only S c K hashOf hh B stash node ds hadm hcoins hB with h | ⟨s, hs, l0, l1⟩
  · exact Or.inl h
  · obtain ⟨k1, k2, _⟩ := C45_secret_shares S c K hashOf hh B stash node ds hadm hY s hs (l0 sX) (l1 sY)
    exact Or.inr ⟨s, hs, k1, k2⟩

end Upsi.Proto
