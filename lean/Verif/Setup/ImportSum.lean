import Verif.Setup.ImportProps
/-
Property theorems C60 (continued): the functionalities with payloads.
-/
namespace Upsi.Setup
open Upsi Upsi.ElGamal Upsi.Tree Upsi.Tree.Props Upsi.Num Upsi.Proto

variable {γ κ P σ G : Type} [AddCommGroup G] [DecidableEq G]

/-! ### sum -/

/-- A run of the sum protocol from given trees. -/
def runSumFrom (S : Setup G) (c : Codec G) (limit : Nat) (hashOf : Nat → List Bool) (s : StSum G)
    (ds : List (DayIn G (Nat × Int) (Ct G))) : Outcome (StSum G) :=
  runDays (fun s d => daySum c limit hashOf S.pk S.sk0 S.sk1 s d.xs d.ys d.coins) s ds

theorem import_elGamal (S : Setup G) {c : Codec G} {hashOf : Nat → List Bool} (hh : ∀ e, (hashOf e).length = 256)
    {B stash node : Nat} {X0 : List (Nat × Int)} {Y0 : List Nat} {f0 f1 : TreeFiles} {lost0 : List (Nat × Int)}
    {lost1 : List Nat} (hf : SetupFiles S c hashOf B stash node X0 Y0 f0 f1 lost0 lost1)
    (hX : X0.length < 2 ^ 30) (hY : Y0.length < 2 ^ 30) :
    ∃ s0 s1, importAdd c decNatPair (deserElGamal c) f0 f1 lost0 lost1 = .ok (s0, s1) ∧
      s0.lost = lost0 ∧ s1.lost = lost1 ∧
      Inv S (funcSum c) (fun p k => S.dec k = p.2 • S.g) hashOf B X0 Y0 s0 s1 := by
  obtain ⟨ρ0, w0, g0⟩ := hf.ex0
  obtain ⟨ρ1, w1, g1⟩ := hf.ex1
  obtain ⟨_, ⟨r0, e0, i0⟩⟩ := gen0_imported S hh w0 hX g0
  obtain ⟨r1, e1, i1⟩ := import1 S hh w1 hY g1
  exact importAdd_inv (S := S) (F := funcSum c) (Pay := fun p k => S.dec k = p.2 • S.g) e0 e1 i0 i1

theorem runSumFrom_spec {S : Setup G} {c : Codec G} {limit : Nat} {hashOf : Nat → List Bool}
    (hh : ∀ e, (hashOf e).length = 256) {B : Nat} {X0 : List (Nat × Int)} {Y0 : List Nat}
    {ds : List (DayIn G (Nat × Int) (Ct G))}
    (hA : AdmissibleFrom S Prod.fst B X0 Y0 ds) (hlim : limit ≤ 2 ^ 64) (hlimq : limit ≤ S.q)
    (hpos : ∀ p ∈ X0 ++ allX ds, 0 ≤ p.2)
    (hsmall : valueSum (matched Prod.fst (X0 ++ allX ds) (Y0 ++ allY ds)) < S.q) {s s' : StSum G}
    (hI : Inv S (funcSum c) (fun p k => S.dec k = p.2 • S.g) hashOf B X0 Y0 s.p0 s.p1)
    (hs : s.sum = 0) (hs' : s.cardinality = 0)
    (h : runSumFrom S c limit hashOf s ds = .ok s') (l0 : s'.p0.lost = []) (l1 : s'.p1.lost = []) :
    s'.cardinality + (matched Prod.fst X0 Y0).length =
      (matched Prod.fst (X0 ++ allX ds) (Y0 ++ allY ds)).length ∧
    (s'.sum.toNat : Int) = (valueSum (matched Prod.fst (X0 ++ allX ds) (Y0 ++ allY ds)) -
      valueSum (matched Prod.fst X0 Y0)) % 2 ^ 64 := by
  refine (runDays_spec (S := S) (F := funcSum c) (Pay := fun p k => S.dec k = p.2 • S.g)
    (Good := fun t => NonZero S (t 0)) (hashOf := hashOf) (B := B) (st0 := StSum.p0) (st1 := StSum.p1)
    (Out := fun X Y t => (∀ p ∈ X, 0 ≤ p.2) → valueSum (matched Prod.fst X Y) < S.q →
      t.cardinality + (matched Prod.fst X0 Y0).length = (matched Prod.fst X Y).length ∧
      (t.sum.toNat : Int) = (valueSum (matched Prod.fst X Y) - valueSum (matched Prod.fst X0 Y0)) % 2 ^ 64)
    ?_ ds X0 Y0 s s' hI hA.bound hA.coins hA.x hA.y hA.sizeX hA.sizeY h).2.2.2 l0 l1 ?_ hpos hsmall
  · intro X Y t t' d hI hd hX hY tX tY hs
    obtain ⟨k1, k2, k3, k4⟩ := daySum_step hh hlim hI hd hX hY tX tY hs
    refine ⟨k1, k2, k3, fun l0 l1 ho hp0 hsm => ?_⟩
    obtain ⟨ms, k, hp, hc, hk, hg, hsum⟩ := k4 l0 l1
    have hperm := matched_step Prod.fst X d.xs Y d.ys
    have hall := valueSum_perm hperm
    rw [valueSum_append, ← valueSum_perm hp] at hall
    have hXpos : ∀ p ∈ X, 0 ≤ p.2 := fun p hp => hp0 p (by simp [hp])
    have n1 : 0 ≤ valueSum (matched Prod.fst X Y) :=
      valueSum_nonneg (fun p hp => hXpos p (mem_matched.1 hp).1)
    have n2 : 0 ≤ valueSum ms := valueSum_nonneg (fun p hpm => by
      rcases List.mem_append.1 (hp.subset hpm) with h | h
      · exact hp0 p (by simp [(mem_matched.1 h).1])
      · exact hp0 p (mem_matched.1 h).1)
    obtain ⟨o1, o2⟩ := ho hXpos (by omega)
    have hkv := S.smul_inj_int (by omega) n2 (by omega) hg
    refine ⟨?_, ?_⟩
    · have := hperm.length_eq
      have := hp.length_eq
      simp only [List.length_append] at *
      omega
    · rw [hsum, hall, UInt64.toNat_add]
      push_cast
      rw [o2, UInt64.toNat_ofNat', ← hkv]
      push_cast
      omega
  · intro _ _
    exact ⟨by rw [hs']; simp, by rw [hs]; simp⟩

/-- **C60** (sum) After importing the trees generated by the setup program (the import succeeds), if all
days are processed without error and nothing was lost, the reported sum is the sum of party zero's values
over the common elements that were not already common at the start (modulo 2^64) and the cardinality is
their number; values given at setup count like values added during the run. -/
theorem C60_sum (S : Setup G) (c : Codec G) (limit : Nat) (hashOf : Nat → List Bool)
    (hh : ∀ e, (hashOf e).length = 256) (B stash node : Nat) (X0 : List (Nat × Int)) (Y0 : List Nat)
    (f0 f1 : TreeFiles) (lost0 : List (Nat × Int)) (lost1 : List Nat)
    (hf : SetupFiles S c hashOf B stash node X0 Y0 f0 f1 lost0 lost1) (ds : List (DayIn G (Nat × Int) (Ct G)))
    (hA : AdmissibleFrom S Prod.fst B X0 Y0 ds) (hlim : limit ≤ 2 ^ 64) (hlimq : limit ≤ S.q)
    (nY : (Y0 ++ allY ds).Nodup) (hpos : ∀ p ∈ X0 ++ allX ds, 0 ≤ p.2)
    (hsmall : (((X0 ++ allX ds).filter (fun p => p.1 ∈ Y0 ++ allY ds)).map Prod.snd).sum < S.q) :
    ∃ s0 s1, importAdd c decNatPair (deserElGamal c) f0 f1 lost0 lost1 = .ok (s0, s1) ∧
      ∀ s', runSumFrom S c limit hashOf ⟨s0, s1, 0, 0⟩ ds = .ok s' → s'.p0.lost = [] → s'.p1.lost = [] →
        s'.cardinality + (X0.filter (fun p => p.1 ∈ Y0)).length =
          ((X0 ++ allX ds).filter (fun p => p.1 ∈ Y0 ++ allY ds)).length ∧
        (s'.sum.toNat : Int) = ((((X0 ++ allX ds).filter (fun p => p.1 ∈ Y0 ++ allY ds)).map Prod.snd).sum -
          ((X0.filter (fun p => p.1 ∈ Y0)).map Prod.snd).sum) % 2 ^ 64 := by
  have t1 := hA.sizeX
  have t2 := hA.sizeY
  simp only [List.length_append] at t1 t2
  obtain ⟨s0, s1, h1, _, _, h4⟩ := import_elGamal S hh hf (by omega) (by omega)
  refine ⟨s0, s1, h1, fun s' hr l0 l1 => ?_⟩
  have := runSumFrom_spec hh hA hlim hlimq hpos (by rw [matched_eq_filter _ _ _ nY]; exact hsmall)
    (s := ⟨s0, s1, 0, 0⟩) h4 rfl rfl hr l0 l1
  rw [matched_eq_filter _ _ _ nY, matched_eq_filter _ _ _ (List.nodup_append.1 nY).1] at this
  exact this

/-! ### secret sharing -/

/-- A run of the secret-sharing protocol from given trees. -/
def runSSFrom (S : Setup G) (c : Codec G) (mont : Int → Option Mont) (a b : TPaillier)
    (hashOf : Nat → List Bool) (s : StSS G) (ds : List (DayIn G (Nat × Int) Int)) : Outcome (StSS G) :=
  runDays (fun s d => daySS c mont a b hashOf S.pk S.sk0 S.sk1 s d.xs d.ys d.coins) s ds

theorem import_paillier (S : Setup G) {c : Codec G} {p q : Nat} {mont : Int → Option Mont} {a b : TPaillier}
    (K : SSKeys p q mont a b) {hashOf : Nat → List Bool} (hh : ∀ e, (hashOf e).length = 256)
    {B stash node : Nat} {X0 : List (Nat × Int)} {Y0 : List Nat} {f0 f1 : TreeFiles} {lost0 : List (Nat × Int)}
    {lost1 : List Nat} (hf : SetupFilesSS S c mont a hashOf B stash node X0 Y0 f0 f1 lost0 lost1)
    (hX : X0.length < 2 ^ 30) (hY : Y0.length < 2 ^ 30) :
    ∃ s0 s1, importAdd c decNatPair (deserPaillier c) f0 f1 lost0 lost1 = .ok (s0, s1) ∧
      s0.lost = lost0 ∧ s1.lost = lost1 ∧
      Inv S (funcSS c mont a b) (PaySS (p * q)) hashOf B X0 Y0 s0 s1 := by
  obtain ⟨ρ0, w0, g0⟩ := hf.ex0
  obtain ⟨ρ1, w1, g1⟩ := hf.ex1
  obtain ⟨_, ⟨r0, e0, i0⟩⟩ := gen0SS_imported S K hh w0 hX g0
  obtain ⟨r1, e1, i1⟩ := import1 S hh w1 hY g1
  exact importAdd_inv (S := S) (F := funcSS c mont a b) (Pay := PaySS (p * q)) e0 e1 i0 i1

/-- What a day of the secret-sharing protocol adds to the shares (party zero's rows already loaded). -/
theorem daySSBody_step (S : Setup G) {c : Codec G} {p q : Nat} {mont : Int → Option Mont} {a b : TPaillier}
    (K : SSKeys p q mont a b) {hashOf : Nat → List Bool} (hh : ∀ e, (hashOf e).length = 256) {B : Nat}
    {X : List (Nat × Int)} {Y : List Nat} {s s' : StSS G} {d : DayIn G (Nat × Int) Int}
    (hI : Inv S (funcSS c mont a b) (PaySS (p * q)) hashOf B X Y s.p0 s.p1)
    (hd : Admissible S Prod.fst B (fun t => NonZero S (t 0)) [d])
    (hX : ∀ e ∈ X ++ d.xs, (funcSS c mont a b).key e < B) (hY : ∀ y ∈ Y ++ d.ys, y < B)
    (tX : (X ++ d.xs).length < 2 ^ 30) (tY : (Y ++ d.ys).length < 2 ^ 30)
    (hs : daySSBody c mont a b hashOf S.pk S.sk0 S.sk1 s d.xs d.ys d.coins = .ok s') :
    Inv S (funcSS c mont a b) (PaySS (p * q)) hashOf B (X ++ d.xs) (Y ++ d.ys) s'.p0 s'.p1 ∧
    s.p0.lost <+: s'.p0.lost ∧ s.p1.lost <+: s'.p1.lost ∧
    (s'.p0.lost = [] → s'.p1.lost = [] → ∃ ms new0 new1,
      ms.Perm (matched Prod.fst d.xs Y ++ matched Prod.fst (X ++ d.xs) d.ys) ∧
      s'.shares0 = s.shares0 ++ new0 ∧ s'.shares1 = s.shares1 ++ new1 ∧ new0.length = new1.length ∧
      List.Forall₂ (fun e (t : Int × Int) => Reconstructs (p * q) e t.1 t.2) ms (new0.zip new1)) := by
  simp only [daySSBody, Outcome.bind_eq_ok, Outcome.pure_eq, Outcome.ok.injEq] at hs
  obtain ⟨⟨p0, p1, cands⟩, he, ⟨sh0, pays⟩, hl, sh1, hr, rfl⟩ := hs
  obtain ⟨k1, k2, k3, k4⟩ := exchange_spec (funcSS_ok S c K) c hh hd.bound hI
    (hd.coins d (by simp)) hX hY tX tY he
  refine ⟨k1, k2, k3, fun l0 l1 => ?_⟩
  obtain ⟨ms, hp, hf⟩ := k4 l0 l1
  obtain ⟨new, newp, j1, j2, j3⟩ := ssLoop_spec K _ _ _ _ _ _ _ _ _ hf hl
  simp only [List.nil_append] at j2
  subst j2
  obtain ⟨new1, i1, i2, i3, i4⟩ := j3 _ _ hr
  exact ⟨ms, new, new1, hp, j1, i1, by rw [i2, i3], i4⟩

/-- **C60** (secret shares) After importing the trees generated by a setup for secret sharing (the import
succeeds; `a'` is the Paillier object of the setup program, `a` that of party zero), if all days are processed without error and nothing was lost, the parties hold equally many
shares and, position by position, the shares add up modulo the Paillier modulus to one value for each
common element that was not already common at the start.  For an element party zero added during the run
the value is the element; for an imported element it is the *value* of the data set. -/
theorem C60_shares (S : Setup G) (c : Codec G) {p q : Nat} {mont : Int → Option Mont} {a a' b : TPaillier}
    (K : SSKeys p q mont a b) (K' : SSKeys p q mont a' b) (hashOf : Nat → List Bool)
    (hh : ∀ e, (hashOf e).length = 256) (B stash node : Nat) (X0 : List (Nat × Int)) (Y0 : List Nat)
    (f0 f1 : TreeFiles) (lost0 : List (Nat × Int)) (lost1 : List Nat)
    (hf : SetupFilesSS S c mont a' hashOf B stash node X0 Y0 f0 f1 lost0 lost1)
    (ds : List (DayIn G (Nat × Int) Int))
    (hA : AdmissibleFrom S Prod.fst B X0 Y0 ds) (nY : (Y0 ++ allY ds).Nodup) :
    ∃ s0 s1, importAdd c decNatPair (deserPaillier c) f0 f1 lost0 lost1 = .ok (s0, s1) ∧
      ∀ s', runSSFrom S c mont a b hashOf ⟨s0, s1, [], []⟩ ds = .ok s' → s'.p0.lost = [] → s'.p1.lost = [] →
        s'.shares0.length = s'.shares1.length ∧
        (List.zipWith (fun x y => (x + y) % ((p * q : Nat) : Int)) s'.shares0 s'.shares1 ++
          (X0.filter (fun e => e.1 ∈ Y0)).map Prod.snd).Perm
          ((X0.filter (fun e => e.1 ∈ Y0 ++ allY ds)).map Prod.snd ++
            ((allX ds).filter (fun e => e.1 ∈ Y0 ++ allY ds)).map (fun e => (e.1 : Int))) := by
  have t1 := hA.sizeX
  have t2 := hA.sizeY
  simp only [List.length_append] at t1 t2
  obtain ⟨s0, s1, h1, _, _, h4'⟩ := import_paillier (b := b) S K' hh hf (by omega) (by omega)
  have h4 : Inv S (funcSS c mont a b) (PaySS (p * q)) hashOf B X0 Y0 s0 s1 :=
    ⟨h4'.1, h4'.2, h4'.3, h4'.4, h4'.5, h4'.6, h4'.7, h4'.8⟩
  refine ⟨s0, s1, h1, fun s' hr l0 l1 => ?_⟩
  have hXe : allX (ds.map DayIn.loaded) = (allX ds).map getPayloadSS := by
    simp only [allX, List.flatMap_map, List.map_flatMap]; rfl
  have hYe : allY (ds.map DayIn.loaded) = allY ds := by
    simp only [allY, List.flatMap_map]; rfl
  have h' : runDays (fun s d => daySSBody c mont a b hashOf S.pk S.sk0 S.sk1 s d.xs d.ys d.coins)
      (⟨s0, s1, [], []⟩ : StSS G) (ds.map DayIn.loaded) = .ok s' := by
    rw [runDays_map]; exact hr
  have hout := (runDays_spec (S := S) (F := funcSS c mont a b) (Pay := PaySS (p * q))
    (Good := fun t => NonZero S (t 0)) (hashOf := hashOf) (B := B) (st0 := StSS.p0) (st1 := StSS.p1)
    (Out := fun X Y s => s.shares0.length = s.shares1.length ∧
      ∃ ms, (ms ++ matched Prod.fst X0 Y0).Perm (matched Prod.fst X Y) ∧
      List.Forall₂ (fun e (t : Int × Int) => Reconstructs (p * q) e t.1 t.2) ms (s.shares0.zip s.shares1))
    ?_ (ds.map DayIn.loaded) X0 Y0 _ s' h4 hA.bound ?_ ?_ ?_ ?_ ?_ h').2.2.2 l0 l1
    ⟨rfl, [], by simp, .nil⟩
  · obtain ⟨hlen, ms, hp, hf⟩ := hout
    rw [hXe, hYe] at hp
    refine ⟨hlen, ?_⟩
    have e1 : List.zipWith (fun x y => (x + y) % ((p * q : Nat) : Int)) s'.shares0 s'.shares1 =
        ms.map Prod.snd := by
      rw [← List.map_uncurry_zip_eq_zipWith]
      clear hp
      generalize s'.shares0.zip s'.shares1 = z at hf
      induction hf with
      | nil => rfl
      | cons h1 _ ih =>
        rw [List.map_cons, List.map_cons, ih]
        exact congrArg (· :: _) h1.1
    have hp' := hp.map Prod.snd
    rw [e1]
    rw [List.map_append, matched_eq_filter _ _ _ nY, matched_eq_filter _ _ _ (List.nodup_append.1 nY).1,
      List.filter_append, List.map_append, List.filter_map, List.map_map] at hp'
    exact hp'
  · intro X Y s s' d hI hd hX hY tX tY hs
    obtain ⟨k1, k2, k3, k4⟩ := daySSBody_step S K hh hI hd hX hY tX tY hs
    refine ⟨k1, k2, k3, fun l0 l1 ho => ?_⟩
    obtain ⟨ms, new, new1, hp, j1, i1, i2, i4⟩ := k4 l0 l1
    obtain ⟨hlen, ms0, hp0, hf0⟩ := ho
    refine ⟨by simp [j1, i1, hlen, i2], ms0 ++ ms, ?_, ?_⟩
    · refine List.Perm.trans ?_ (matched_step Prod.fst X d.xs Y d.ys).symm
      refine List.Perm.trans ?_ (hp0.append hp)
      rw [List.append_assoc, List.append_assoc]
      exact List.Perm.append_left _ List.perm_append_comm
    · simp only [j1, i1]
      rw [List.zip_append hlen]
      exact List.rel_append hf0 i4
  · intro d hd
    obtain ⟨e, he, rfl⟩ := List.mem_map.1 hd
    have := hA.coins e he
    exact ⟨⟨by simpa [DayIn.loaded] using this.hsh0.1, this.hsh0.2⟩, this.hsh1, this.pads0, this.pads1, this.shuffle, this.masks⟩
  · intro x hx
    rw [hXe] at hx
    rcases List.mem_append.1 hx with hx | hx
    · exact hA.x x (List.mem_append_left _ hx)
    · obtain ⟨e, he, rfl⟩ := List.mem_map.1 hx
      exact hA.x e (List.mem_append_right _ he)
  · rw [hYe]; exact hA.y
  · rw [hXe]; simpa using hA.sizeX
  · rw [hYe]; exact hA.sizeY

end Upsi.Setup
