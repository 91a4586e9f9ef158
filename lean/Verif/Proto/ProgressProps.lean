import Verif.Proto.Progress
/-
Property theorems C63: a run of the addition-only protocols between honest parties never crashes and never
stops for any other reason than a point at infinity on the wire (or the bound of the sum decryption table).
-/
namespace Upsi.Proto
open Upsi Upsi.ElGamal Upsi.Tree Upsi.Num

variable {α β γ κ P G δ σ : Type} [AddCommGroup G] [DecidableEq G]

omit [DecidableEq G] in
theorem runDays_only {step : σ → DayIn G P κ → Outcome σ} {S : Setup G} {key : P → Nat} {Good : Tape → Prop}
    {B : Nat} {E : String → Prop} {J : List P → List Nat → σ → Prop} {D : DayIn G P κ → Prop} {PX : P → Prop}
    (hstep : ∀ X Y s d, J X Y s → Admissible S key B Good [d] → D d → (∀ p ∈ X ++ d.xs, key p < B ∧ PX p) →
      (∀ y ∈ Y ++ d.ys, y < B) → (X ++ d.xs).length < 2 ^ 30 → (Y ++ d.ys).length < 2 ^ 30 →
      (step s d).Only E (J (X ++ d.xs) (Y ++ d.ys)))
    (ds : List (DayIn G P κ)) : ∀ (X : List P) (Y : List Nat) (s : σ), J X Y s → B ≤ S.q →
    (∀ d ∈ ds, d.coins.WF S key B Good d.xs d.ys) → (∀ d ∈ ds, D d) →
    (∀ p ∈ X ++ allX ds, key p < B ∧ PX p) → (∀ y ∈ Y ++ allY ds, y < B) →
    (X ++ allX ds).length < 2 ^ 30 → (Y ++ allY ds).length < 2 ^ 30 →
    (runDays step s ds).Only E (J (X ++ allX ds) (Y ++ allY ds)) := by
  induction ds with
  | nil =>
    intro X Y s hJ _ _ _ _ _ _ _
    simpa [allX, allY, runDays, Outcome.Only] using hJ
  | cons d ds ih =>
    intro X Y s hJ hB hw hD hX hY tX tY
    have eX : X ++ allX (d :: ds) = (X ++ d.xs) ++ allX ds := by simp [allX]
    have eY : Y ++ allY (d :: ds) = (Y ++ d.ys) ++ allY ds := by simp [allY]
    rw [eX] at hX tX ⊢
    rw [eY] at hY tY ⊢
    have hX1 : ∀ p ∈ X ++ d.xs, key p < B ∧ PX p := fun p hp => hX p (by simp at hp ⊢; tauto)
    have hY1 : ∀ y ∈ Y ++ d.ys, y < B := fun y hy => hY y (by simp at hy ⊢; tauto)
    have tX1 : (X ++ d.xs).length < 2 ^ 30 := by rw [List.length_append (as := X ++ d.xs)] at tX; omega
    have tY1 : (Y ++ d.ys).length < 2 ^ 30 := by rw [List.length_append (as := Y ++ d.ys)] at tY; omega
    have hadm : Admissible S key B Good [d] := by
      refine ⟨hB, fun e he => by simp at he; subst he; exact hw e (by simp), ?_, ?_, ?_, ?_⟩
      · intro p hp; simp [allX] at hp; exact (hX1 p (by simp [hp])).1
      · intro p hp; simp [allY] at hp; exact hY1 p (by simp [hp])
      · simp [allX] at tX1 ⊢; omega
      · simp [allY] at tY1 ⊢; omega
    simp only [runDays]
    exact (hstep X Y s d hJ hadm (hD d (by simp)) hX1 hY1 tX1 tY1).bind fun s' _ hs' =>
      ih _ _ s' hs' hB (fun e he => hw e (by simp [he])) (fun e he => hD e (by simp [he])) hX hY tX tY

/-- What is tracked besides the invariant: stash sizes, and no loss while everything inserted fits the stash. -/
structure Fits (stash : Nat) (X : List P) (Y : List Nat) (s0 : St0 G P) (s1 : St1 γ) : Prop where
  st0 : s0.my.stashSize = stash
  st1 : s1.my.stashSize = stash
  l0 : X.length ≤ stash → s0.lost = []
  l1 : Y.length ≤ stash → s1.lost = []

omit [AddCommGroup G] [DecidableEq G] in
theorem Fits.init (stash node : Nat) : Fits stash ([] : List P) [] (St0.init stash node : St0 G P) (St1.init stash node : St1 γ) :=
  ⟨rfl, rfl, fun _ => rfl, fun _ => rfl⟩

/-- One exchange keeps both. -/
theorem exchange_only {S : Setup G} {F : Func G P γ κ} {Pay Pay' : P → κ → Prop}
    {Good : Tape → Prop} (hF : FuncOK S F Pay Pay' Good) (c : Codec G) {hashOf : Nat → List Bool}
    (hh : ∀ e, (hashOf e).length = 256) {B : Nat} (hB : B ≤ S.q) {X xs : List P} {Y ys : List Nat}
    {s0 : St0 G P} {s1 : St1 γ} (hI : Inv S F Pay hashOf B X Y s0 s1) {stash : Nat} (hfit : Fits stash X Y s0 s1)
    {ρ : Coins G P κ} (hρ : ρ.WF S F.key B Good xs ys)
    (hX : ∀ p ∈ X ++ xs, F.key p < B) (hY : ∀ y ∈ Y ++ ys, y < B)
    (ht0 : (X ++ xs).length < 2 ^ 30) (ht1 : (Y ++ ys).length < 2 ^ 30)
    {E : String → Prop} (hE : ∀ m, InfErr m → E m) {PayOK : P → Prop} {K : κ → Prop} {G1 G2 G3 : Tape → Prop}
    (hT : FuncTotal S F Pay E PayOK K G1 G2 G3) (hpay : ∀ p ∈ X ++ xs, PayOK p) (hpads : ∀ i j, PayOK (ρ.pads0 i j))
    (h1 : ∀ i j, G1 (ρ.enc0 i j)) (h2 : ∀ i, G2 (ρ.x0 i)) (h3 : ∀ i, G3 (ρ.send i)) :
    (exchange F c hashOf S.pk S.sk1 s0 s1 xs ys ρ).Only E (fun r => (∀ x ∈ r.2.2, K x.2) ∧
      Inv S F Pay hashOf B (X ++ xs) (Y ++ ys) r.1 r.2.1 ∧ Fits stash (X ++ xs) (Y ++ ys) r.1 r.2.1) := by
  refine (exchange_total hF c hh hI hρ ht0 ht1 hE hT hpay hpads h1 h2 h3).mono (fun _ h => h) ?_
  rintro ⟨s0', s1', cands⟩ hr ⟨k1, k2, k3, k4, k5⟩
  obtain ⟨i1, _⟩ := exchange_spec hF c hh hB hI hρ hX hY ht0 ht1 hr
  refine ⟨k1, i1, k2.trans hfit.st0, k3.trans hfit.st1, fun h => k4 (by rw [hfit.st0]; exact h) (hfit.l0 ?_),
    fun h => k5 (by rw [hfit.st1]; exact h) (hfit.l1 ?_)⟩
  · simp only [List.length_append] at h; omega
  · simp only [List.length_append] at h; omega

/-! ### cardinality -/

theorem funcCA_total (S : Setup G) (c : Codec G) :
    FuncTotal S (funcCA c) (fun _ _ => True) InfErr (fun _ => True) (fun _ => True) (fun _ => True) (fun _ => True)
      (fun _ => True) where
  tree t p _ _ := (serNoPayload_only c _).mono (fun _ h => h) (fun w _ h => ⟨_, h.2⟩)
  payload t p _ _ := trivial
  ser x k _ := (serNoPayload_only c _).mono (fun _ h => h) (fun w _ h => ⟨(x, ()), by simp [funcCA, h.1], trivial⟩)
  mask _ _ _ := trivial
  send t x _ _ := (serNoPayload_only c _).mono (fun _ h => h) (fun w _ h =>
    ⟨(partialDecrypt S.sk1 x.1, ()), by simp [funcCA, h.1], trivial⟩)
  pay _ _ _ := trivial

/-- **C63** (cardinality) For every admissible history the run ends normally or with the error raised when a
point to be sent is the point at infinity; it never aborts and never has undefined behaviour.  When it
ends normally, neither party has lost an element unless it inserted more elements than its stash holds. -/
theorem C63_cardinality_only (S : Setup G) (c : Codec G) (hashOf : Nat → List Bool)
    (hh : ∀ e, (hashOf e).length = 256) (B stash node : Nat) (ds : List (DayIn G Nat Unit))
    (hadm : Admissible S id B (fun t => NonZero S (t 0)) ds) :
    runCA S c hashOf stash node ds = .err "EC_POINT_point2oct failed" ∨
    ∃ s, runCA S c hashOf stash node ds = .ok s ∧
      ((allX ds).length ≤ stash → s.p0.lost = []) ∧ ((allY ds).length ≤ stash → s.p1.lost = []) := by
  have := runDays_only (S := S) (key := id) (Good := fun t => NonZero S (t 0)) (B := B) (E := InfErr)
    (D := fun _ => True) (PX := fun _ => True)
    (J := fun X Y (s : StCA G) => Inv S (funcCA c) (fun _ _ => True) hashOf B X Y s.p0 s.p1 ∧ Fits stash X Y s.p0 s.p1)
    (step := fun s d => dayCA c hashOf S.pk S.sk0 S.sk1 s d.xs d.ys d.coins) (fun X Y s d hJ hd _ hX hY tX tY => by
      unfold dayCA
      refine (exchange_only (funcCA_ok S c) c hh hd.bound hJ.1 hJ.2 (hd.coins d (by simp)) (fun p hp => (hX p hp).1)
        hY tX tY (fun _ h => h) (funcCA_total S c) (fun _ _ => trivial) (fun _ _ => trivial) (fun _ _ => trivial)
        (fun _ => trivial) (fun _ => trivial)).bind ?_
      rintro ⟨p0, p1, cands⟩ - ⟨_, k1, k2⟩
      exact ⟨k1, k2⟩)
    ds [] [] (StCA.init stash node) ⟨Inv.init _ _ _ _ _ _ _, Fits.init _ _⟩ hadm.bound hadm.coins (fun _ _ => trivial)
    (fun p hp => ⟨hadm.x p (by simpa using hp), trivial⟩) (by simpa using hadm.y) (by simpa using hadm.sizeX) (by simpa using hadm.sizeY)
  rcases this.cases with ⟨s, hs, hJ⟩ | ⟨m, hm, rfl⟩
  · exact Or.inr ⟨s, hs, by simpa using hJ.2.l0, by simpa using hJ.2.l1⟩
  · exact Or.inl hm

/-- **C63/C42** (cardinality, unconditional for small sets) If each party inserts at most `stash` elements, the
run reports the size of the intersection or ends with the infinity error: no other outcome exists. -/
theorem C63_cardinality_small (S : Setup G) (c : Codec G) (hashOf : Nat → List Bool)
    (hh : ∀ e, (hashOf e).length = 256) (B stash node : Nat) (ds : List (DayIn G Nat Unit))
    (hadm : Admissible S id B (fun t => NonZero S (t 0)) ds) (hX : (allX ds).Nodup) (hY : (allY ds).Nodup)
    (sX : (allX ds).length ≤ stash) (sY : (allY ds).length ≤ stash) :
    runCA S c hashOf stash node ds = .err "EC_POINT_point2oct failed" ∨
    ∃ s, runCA S c hashOf stash node ds = .ok s ∧
      s.cardinality = ((allX ds).toFinset ∩ (allY ds).toFinset).card := by
  rcases C63_cardinality_only S c hashOf hh B stash node ds hadm with h | ⟨s, hs, l0, l1⟩
  · exact Or.inl h
  · exact Or.inr ⟨s, hs, C42_cardinality S c hashOf hh B stash node ds hadm s hs (l0 sX) (l1 sY) hX hY⟩

/-! ### PSI -/

theorem funcPSI_total (S : Setup G) (c cu : Codec G) :
    FuncTotal S (funcPSI c cu) (fun p k => S.dec k = (p : Int) • S.g) InfErr (fun _ => True) (fun _ => True) (fun _ => True)
      (fun _ => True) (fun _ => True) where
  tree t p _ _ := (serNoPayload_only c _).mono (fun _ h => h) (fun w _ h => ⟨_, h.2⟩)
  payload t p _ _ := (pointToBytes_only cu _).bind fun _ _ _ => trivial
  ser x k _ := (serElGamal_only c _ _).mono (fun _ h => h) (fun w _ h => ⟨(x, k), by simp [funcPSI, h], trivial⟩)
  mask _ _ _ := trivial
  send t x _ _ := (serElGamal_only c _ _).mono (fun _ h => h) (fun w _ h =>
    ⟨(partialDecrypt S.sk1 x.1, partialDecrypt S.sk1 x.2), by simp [funcPSI, h], trivial⟩)
  pay _ _ _ := trivial

theorem recordAll_only (S : Setup G) (cu : Codec G) (xs : List Nat) : ∀ m, (recordAll cu S.pk xs m).Only InfErr (fun _ => True) := by
  induction xs with
  | nil => intro m; exact trivial
  | cons x xs ih => intro m; exact (pointToBytes_only cu _).bind fun k _ _ => ih _

theorem psiLoop_only (cu : Codec G) (sk0 : Int) (m : Mapping) (l : List (Ct G × Ct G)) :
    ∀ out, (psiLoop cu sk0 m l out).Only InfErr (fun _ => True) := by
  induction l with
  | nil => intro m; exact trivial
  | cons x xs ih =>
    intro out
    unfold psiLoop
    split
    · exact (pointToBytes_only cu _).bind fun k _ _ => ih _
    · exact ih _

/-- **C63** (PSI) As for cardinality. -/
theorem C63_psi_only (S : Setup G) (c cu : Codec G) (hashOf : Nat → List Bool)
    (hh : ∀ e, (hashOf e).length = 256) (B stash node : Nat) (ds : List (DayIn G Nat (Ct G)))
    (hadm : Admissible S id B (fun t => NonZero S (t 0)) ds) :
    runPSI S c cu hashOf stash node ds = .err "EC_POINT_point2oct failed" ∨
    ∃ s, runPSI S c cu hashOf stash node ds = .ok s ∧
      ((allX ds).length ≤ stash → s.p0.lost = []) ∧ ((allY ds).length ≤ stash → s.p1.lost = []) := by
  have := runDays_only (S := S) (key := id) (Good := fun t => NonZero S (t 0)) (B := B) (E := InfErr)
    (D := fun _ => True) (PX := fun _ => True)
    (J := fun X Y (s : StPSI G) => Inv S (funcPSI c cu) (fun p k => S.dec k = (p : Int) • S.g) hashOf B X Y s.p0 s.p1 ∧
      Fits stash X Y s.p0 s.p1)
    (step := fun s d => dayPSI c cu hashOf S.pk S.sk0 S.sk1 s d.xs d.ys d.coins) (fun X Y s d hJ hd _ hX hY tX tY => by
      unfold dayPSI
      refine (recordAll_only S cu _ _).bind fun m _ _ => ?_
      refine (exchange_only (funcPSI_ok S c cu) c hh hd.bound hJ.1 hJ.2 (hd.coins d (by simp)) (fun p hp => (hX p hp).1)
        hY tX tY (fun _ h => h) (funcPSI_total S c cu) (fun _ _ => trivial) (fun _ _ => trivial) (fun _ _ => trivial)
        (fun _ => trivial) (fun _ => trivial)).bind ?_
      rintro ⟨p0, p1, cands⟩ - ⟨_, k1, k2⟩
      exact (psiLoop_only cu _ _ _ _).bind fun out _ _ => ⟨k1, k2⟩)
    ds [] [] (StPSI.init stash node) ⟨Inv.init _ _ _ _ _ _ _, Fits.init _ _⟩ hadm.bound hadm.coins (fun _ _ => trivial)
    (fun p hp => ⟨hadm.x p (by simpa using hp), trivial⟩) (by simpa using hadm.y) (by simpa using hadm.sizeX) (by simpa using hadm.sizeY)
  rcases this.cases with ⟨s, hs, hJ⟩ | ⟨m, hm, rfl⟩
  · exact Or.inr ⟨s, hs, by simpa using hJ.2.l0, by simpa using hJ.2.l1⟩
  · exact Or.inl hm

/-- **C63/C43** (PSI, unconditional for small sets). -/
theorem C63_psi_small (S : Setup G) (c cu : Codec G) (hashOf : Nat → List Bool)
    (hh : ∀ e, (hashOf e).length = 256) (B stash node : Nat) (ds : List (DayIn G Nat (Ct G)))
    (hadm : Admissible S id B (fun t => NonZero S (t 0)) ds) (hY : (allY ds).Nodup)
    (sX : (allX ds).length ≤ stash) (sY : (allY ds).length ≤ stash) :
    runPSI S c cu hashOf stash node ds = .err "EC_POINT_point2oct failed" ∨
    ∃ s, runPSI S c cu hashOf stash node ds = .ok s ∧
      s.intersection.Perm (((allX ds).filter (fun x => x ∈ allY ds)).map some) := by
  rcases C63_psi_only S c cu hashOf hh B stash node ds hadm with h | ⟨s, hs, l0, l1⟩
  · exact Or.inl h
  · exact Or.inr ⟨s, hs, C43_psi S c cu hashOf hh B stash node ds hadm s hs (l0 sX) (l1 sY) hY⟩

/-! ### sum -/

theorem funcSum_total (S : Setup G) (c : Codec G) :
    FuncTotal S (funcSum c) (fun p k => S.dec k = p.2 • S.g) InfErr (fun _ => True) (fun _ => True) (fun _ => True)
      (fun _ => True) (fun _ => True) where
  tree t p _ _ := (serElGamal_only c _ _).mono (fun _ h => h) (fun w _ h => ⟨_, h⟩)
  payload t p _ _ := trivial
  ser x k _ := (serElGamal_only c _ _).mono (fun _ h => h) (fun w _ h => ⟨(x, k), by simp [funcSum, h], trivial⟩)
  mask _ _ _ := trivial
  send t x _ _ := (serElGamal_only c (partialDecrypt S.sk1 x.1) (reRandomize S.pk (t 0) x.2)).mono (fun _ h => h) (fun w _ h =>
    ⟨_, h, trivial⟩)
  pay _ _ _ := trivial

/-- The two errors the sum protocol can end with. -/
def SumErr (m : String) : Prop :=
  m = "EC_POINT_point2oct failed" ∨ m = "[ElGamalDecrypter::DecryptExp] message not within exp_limit"

omit [AddCommGroup G] in
theorem findExp_only (p : G) (ts : List G) : ∀ i, (findExp p i ts).Only
    (fun m => m = "[ElGamalDecrypter::DecryptExp] message not within exp_limit") (fun k => k < i + ts.length) := by
  induction ts with
  | nil => intro i; exact rfl
  | cons t ts ih =>
    intro i
    unfold findExp
    split
    · simp [Outcome.Only]
    · exact (ih (i + 1)).mono (fun _ h => h) (fun k _ h => by simp only [List.length_cons]; omega)

theorem decryptExp_only (x : Int) (g : G) {limit : Nat} (h0 : 0 < limit) (ct : Ct G) :
    (decryptExp x (initDecryptExp g limit) ct).Only
      (fun m => m = "[ElGamalDecrypter::DecryptExp] message not within exp_limit") (fun k => k < limit) := by
  have hl : (initDecryptExp g limit).length = limit := by simp [initDecryptExp]
  unfold decryptExp
  rw [if_neg (by rw [hl]; omega)]
  exact (findExp_only _ _ 0).mono (fun _ h => h) (fun k _ h => by rw [hl] at h; omega)

theorem daySum_only (S : Setup G) (c : Codec G) {limit : Nat} (hl0 : 0 < limit) (hlim : limit ≤ 2 ^ 64) {hashOf : Nat → List Bool}
    (hh : ∀ e, (hashOf e).length = 256) {B stash : Nat} {X : List (Nat × Int)} {Y : List Nat} {s : StSum G}
    {d : DayIn G (Nat × Int) (Ct G)}
    (hI : Inv S (funcSum c) (fun p k => S.dec k = p.2 • S.g) hashOf B X Y s.p0 s.p1) (hfit : Fits stash X Y s.p0 s.p1)
    (hd : Admissible S Prod.fst B (fun t => NonZero S (t 0)) [d])
    (hX : ∀ p ∈ X ++ d.xs, (funcSum c).key p < B) (hY : ∀ y ∈ Y ++ d.ys, y < B)
    (tX : (X ++ d.xs).length < 2 ^ 30) (tY : (Y ++ d.ys).length < 2 ^ 30) :
    (daySum c limit hashOf S.pk S.sk0 S.sk1 s d.xs d.ys d.coins).Only SumErr (fun s' =>
      Inv S (funcSum c) (fun p k => S.dec k = p.2 • S.g) hashOf B (X ++ d.xs) (Y ++ d.ys) s'.p0 s'.p1 ∧
      Fits stash (X ++ d.xs) (Y ++ d.ys) s'.p0 s'.p1) := by
  have hE : ∀ m, InfErr m → SumErr m := fun m h => Or.inl h
  unfold daySum
  refine ((exchange_only (funcSum_ok S c) c hh hd.bound hI hfit (hd.coins d (by simp)) hX
    hY tX tY (fun _ h => h) (funcSum_total S c) (fun _ _ => trivial) (fun _ _ => trivial) (fun _ _ => trivial)
    (fun _ => trivial) (fun _ => trivial)).mono hE (fun _ _ h => h)).bind ?_
  rintro ⟨p0, p1, cands⟩ - ⟨_, k1, k2⟩
  dsimp only
  refine ((serializeCt_only c _).mono hE (fun _ _ h => h)).bind fun m3 _ hm3 => ?_
  rw [hm3, Outcome.bind_ok]
  refine ((serializeCt_only c _).mono hE (fun _ _ h => h)).bind fun m4 _ hm4 => ?_
  rw [hm4, Outcome.bind_ok]
  refine ((decryptExp_only _ _ hl0 _).mono (fun m h => Or.inr h) (fun _ _ h => h)).bind fun big _ hb => ?_
  have : ∃ v, toIntValue (big : Int) = .ok v := ⟨_, by rw [toIntValue, if_pos (by simp; omega)]⟩
  obtain ⟨v, hv⟩ := this
  rw [hv]
  exact ⟨k1, k2⟩

theorem runSum_only (S : Setup G) (c : Codec G) (limit : Nat) (hl0 : 0 < limit) (hlim : limit ≤ 2 ^ 64)
    (hashOf : Nat → List Bool) (hh : ∀ e, (hashOf e).length = 256) (B stash node : Nat)
    (ds : List (DayIn G (Nat × Int) (Ct G)))
    (hadm : Admissible S Prod.fst B (fun t => NonZero S (t 0)) ds) :
    (runSum S c limit hashOf stash node ds).Only SumErr (fun s => Fits stash (allX ds) (allY ds) s.p0 s.p1) := by
  have := runDays_only (S := S) (key := Prod.fst) (Good := fun t => NonZero S (t 0)) (B := B) (E := SumErr)
    (D := fun _ => True) (PX := fun _ => True)
    (J := fun X Y (s : StSum G) => Inv S (funcSum c) (fun p k => S.dec k = p.2 • S.g) hashOf B X Y s.p0 s.p1 ∧
      Fits stash X Y s.p0 s.p1)
    (step := fun s d => daySum c limit hashOf S.pk S.sk0 S.sk1 s d.xs d.ys d.coins) (fun X Y s d hJ hd _ hX hY tX tY =>
      daySum_only S c hl0 hlim hh hJ.1 hJ.2 hd (fun p hp => (hX p hp).1) hY tX tY)
    ds [] [] (StSum.init stash node) ⟨Inv.init _ _ _ _ _ _ _, Fits.init _ _⟩ hadm.bound hadm.coins (fun _ _ => trivial)
    (fun p hp => ⟨hadm.x p (by simpa using hp), trivial⟩) (by simpa using hadm.y) (by simpa using hadm.sizeX) (by simpa using hadm.sizeY)
  simp only [List.nil_append] at this
  exact this.mono (fun _ h => h) (fun _ _ h => h.2)

theorem runSum_fits (S : Setup G) (c : Codec G) (limit : Nat) (hl0 : 0 < limit) (hlim : limit ≤ 2 ^ 64)
    (hashOf : Nat → List Bool) (hh : ∀ e, (hashOf e).length = 256) (B stash node : Nat)
    (ds : List (DayIn G (Nat × Int) (Ct G)))
    (hadm : Admissible S Prod.fst B (fun t => NonZero S (t 0)) ds) (s : StSum G)
    (hs : runSum S c limit hashOf stash node ds = .ok s) : Fits stash (allX ds) (allY ds) s.p0 s.p1 := by
  have := runSum_only S c limit hl0 hlim hashOf hh B stash node ds hadm
  rw [hs] at this
  exact this

/-- **C63** (sum) As for cardinality; the only further error is that a day's sum reached the bound of the
decryption table. -/
theorem C63_sum_only (S : Setup G) (c : Codec G) (limit : Nat) (hl0 : 0 < limit) (hlim : limit ≤ 2 ^ 64)
    (hashOf : Nat → List Bool) (hh : ∀ e, (hashOf e).length = 256) (B stash node : Nat)
    (ds : List (DayIn G (Nat × Int) (Ct G)))
    (hadm : Admissible S Prod.fst B (fun t => NonZero S (t 0)) ds) :
    runSum S c limit hashOf stash node ds = .err "EC_POINT_point2oct failed" ∨
    runSum S c limit hashOf stash node ds = .err "[ElGamalDecrypter::DecryptExp] message not within exp_limit" ∨
    ∃ s, runSum S c limit hashOf stash node ds = .ok s ∧
      ((allX ds).length ≤ stash → s.p0.lost = []) ∧ ((allY ds).length ≤ stash → s.p1.lost = []) := by
  rcases (runSum_only S c limit hl0 hlim hashOf hh B stash node ds hadm).cases with ⟨s, hs, hJ⟩ | ⟨m, hm, rfl | rfl⟩
  · exact Or.inr (Or.inr ⟨s, hs, hJ.l0, hJ.l1⟩)
  · exact Or.inl hm
  · exact Or.inr (Or.inl hm)

omit [AddCommGroup G] [DecidableEq G] in
/-- An error of a run is an error of one of its days, the earlier ones having completed. -/
theorem runDays_err {step : σ → δ → Outcome σ} {m : String} (ds : List δ) : ∀ s, runDays step s ds = .err m →
    ∃ pre d post s', ds = pre ++ d :: post ∧ runDays step s pre = .ok s' ∧ step s' d = .err m := by
  induction ds with
  | nil => intro s h; simp [runDays] at h
  | cons d ds ih =>
    intro s h
    simp only [runDays] at h
    rcases hs : step s d with s' | m' | _ | _
    · rw [hs, Outcome.bind_ok] at h
      obtain ⟨pre, e, post, t, h1, h2, h3⟩ := ih s' h
      exact ⟨d :: pre, e, post, t, by simp [h1], by simp [runDays, hs, h2], h3⟩
    · rw [hs] at h
      exact ⟨[], d, ds, s, rfl, rfl, by rw [hs]; exact h⟩
    · rw [hs] at h; cases h
    · rw [hs] at h; cases h

omit [AddCommGroup G] in
theorem findExp_total (p : G) (ts : List G) : ∀ i, p ∈ ts → ∃ k, findExp p i ts = .ok k := by
  induction ts with
  | nil => intro i h; simp at h
  | cons t ts ih =>
    intro i h
    unfold findExp
    split
    · exact ⟨_, rfl⟩
    · rename_i hne
      refine ih _ ?_
      rcases List.mem_cons.1 h with h | h
      · exact absurd h hne
      · exact h

/-- A day whose new matches sum to less than the table bound does not end with the table error. -/
theorem daySum_not_limit (S : Setup G) (c : Codec G) {limit : Nat} (hlim : limit ≤ 2 ^ 64) {hashOf : Nat → List Bool}
    (hh : ∀ e, (hashOf e).length = 256) {B stash : Nat} {X : List (Nat × Int)} {Y : List Nat} {s : StSum G}
    {d : DayIn G (Nat × Int) (Ct G)}
    (hI : Inv S (funcSum c) (fun p k => S.dec k = p.2 • S.g) hashOf B X Y s.p0 s.p1) (hfit : Fits stash X Y s.p0 s.p1)
    (hd : Admissible S Prod.fst B (fun t => NonZero S (t 0)) [d])
    (hX : ∀ p ∈ X ++ d.xs, (funcSum c).key p < B) (hY : ∀ y ∈ Y ++ d.ys, y < B)
    (tX : (X ++ d.xs).length < 2 ^ 30) (tY : (Y ++ d.ys).length < 2 ^ 30)
    (sX : (X ++ d.xs).length ≤ stash) (sY : (Y ++ d.ys).length ≤ stash)
    (v0 : 0 ≤ valueSum (matched Prod.fst d.xs Y ++ matched Prod.fst (X ++ d.xs) d.ys))
    (v1 : valueSum (matched Prod.fst d.xs Y ++ matched Prod.fst (X ++ d.xs) d.ys) < limit) :
    (daySum c limit hashOf S.pk S.sk0 S.sk1 s d.xs d.ys d.coins).Only InfErr (fun _ => True) := by
  unfold daySum
  refine (exchange_only (funcSum_ok S c) c hh hd.bound hI hfit (hd.coins d (by simp)) hX
    hY tX tY (fun _ h => h) (funcSum_total S c) (fun _ _ => trivial) (fun _ _ => trivial) (fun _ _ => trivial)
    (fun _ => trivial) (fun _ => trivial)).bind ?_
  rintro ⟨p0, p1, cands⟩ he ⟨_, k1, k2⟩
  obtain ⟨_, _, _, k4⟩ := exchange_spec (funcSum_ok S c) c hh hd.bound hI
    (hd.coins d (by simp)) hX hY tX tY he
  obtain ⟨ms, hp, hf⟩ := k4 (k2.l0 sX) (k2.l1 sY)
  obtain ⟨_, j2⟩ := sumLoop_ok S cands ms s.cardinality (encrypt S.pk (d.coins.last 0 0) 0) hf
  have hp' : ms.Perm (matched Prod.fst d.xs Y ++ matched Prod.fst (X ++ d.xs) d.ys) := hp
  rw [← valueSum_perm hp'] at v0 v1
  dsimp only
  refine (serializeCt_only c _).bind fun m3 _ hm3 => ?_
  rw [hm3, Outcome.bind_ok]
  refine (serializeCt_only c _).bind fun m4 _ hm4 => ?_
  rw [hm4, Outcome.bind_ok]
  obtain ⟨k, hk⟩ := Int.eq_ofNat_of_zero_le v0
  have hkl : k < limit := by omega
  have hdec : decrypt S.sk0 (partialDecrypt S.sk1 (sumLoop S.sk0 cands s.cardinality (encrypt S.pk (d.coins.last 0 0) 0)).2) =
      (k : Int) • S.g := by
    rw [S.dec_partial, j2, S.dec_encrypt, hk]; simp
  have hl : (initDecryptExp S.pk.g limit).length = limit := by simp [initDecryptExp]
  obtain ⟨big, hb⟩ : ∃ big, decryptExp S.sk0 (initDecryptExp S.pk.g limit)
      (partialDecrypt S.sk1 (sumLoop S.sk0 cands s.cardinality (encrypt S.pk (d.coins.last 0 0) 0)).2) = .ok big := by
    unfold decryptExp
    rw [if_neg (by rw [hl]; omega)]
    apply findExp_total
    rw [hdec]
    simp only [initDecryptExp, List.mem_map, List.mem_range]
    exact ⟨k, hkl, rfl⟩
  have hbl := (decryptExp_ok _ _ _ _ _ hb).1
  rw [hb, Outcome.bind_ok, toIntValue, if_pos (by simp; omega)]
  trivial

/-- **C63/C44** (sum, unconditional for small sets) If each party inserts at most `stash` elements, the values are
non-negative and the values of the intersection sum to less than the table bound (and the group order), the run
reports the number of matches and the exact sum or ends with the infinity error: no other outcome exists. -/
theorem C63_sum_small (S : Setup G) (c : Codec G) (limit : Nat) (hl0 : 0 < limit) (hlim : limit ≤ 2 ^ 64) (hlimq : limit ≤ S.q)
    (hashOf : Nat → List Bool) (hh : ∀ e, (hashOf e).length = 256) (B stash node : Nat)
    (ds : List (DayIn G (Nat × Int) (Ct G)))
    (hadm : Admissible S Prod.fst B (fun t => NonZero S (t 0)) ds) (hY : (allY ds).Nodup)
    (hpos : ∀ p ∈ allX ds, 0 ≤ p.2)
    (hsmall : (((allX ds).filter (fun p => p.1 ∈ allY ds)).map Prod.snd).sum < limit)
    (sX : (allX ds).length ≤ stash) (sY : (allY ds).length ≤ stash) :
    runSum S c limit hashOf stash node ds = .err "EC_POINT_point2oct failed" ∨
    ∃ s, runSum S c limit hashOf stash node ds = .ok s ∧
      s.cardinality = ((allX ds).filter (fun p => p.1 ∈ allY ds)).length ∧
      (s.sum.toNat : Int) = (((allX ds).filter (fun p => p.1 ∈ allY ds)).map Prod.snd).sum := by
  rcases C63_sum_only S c limit hl0 hlim hashOf hh B stash node ds hadm with h | h | ⟨s, hs, l0, l1⟩
  · exact Or.inl h
  · exfalso
    have hsmall' : valueSum (matched Prod.fst (allX ds) (allY ds)) < limit := by
      rw [matched_eq_filter _ _ _ hY]; exact hsmall
    obtain ⟨pre, d, post, s, rfl, h1, h2⟩ := runDays_err _ _ h
    have eX : allX (pre ++ d :: post) = (allX pre ++ d.xs) ++ allX post := by simp [allX]
    have eY : allY (pre ++ d :: post) = (allY pre ++ d.ys) ++ allY post := by simp [allY]
    rw [eX, eY] at hsmall'
    rw [eX] at hpos sX
    rw [eY] at sY
    have bX := hadm.x; have bY := hadm.y; have zX := hadm.sizeX; have zY := hadm.sizeY
    rw [eX] at bX zX
    rw [eY] at bY zY
    simp only [List.length_append] at sX sY zX zY
    have vpos : ∀ (l : List (Nat × Int)) (Y : List Nat), (∀ p ∈ l, 0 ≤ p.2) → 0 ≤ valueSum (matched Prod.fst l Y) :=
      fun l Y h => valueSum_nonneg (fun p hp => h p (mem_matched.1 hp).1)
    have hp1 : ∀ p ∈ allX pre ++ d.xs, 0 ≤ p.2 := fun p hp => hpos p (List.mem_append_left _ hp)
    have hp2 : ∀ p ∈ allX pre, 0 ≤ p.2 := fun p hp => hp1 p (List.mem_append_left _ hp)
    have hp3 : ∀ p ∈ d.xs, 0 ≤ p.2 := fun p hp => hp1 p (List.mem_append_right _ hp)
    have hp4 : ∀ p ∈ allX post, 0 ≤ p.2 := fun p hp => hpos p (List.mem_append_right _ hp)
    have v1 := valueSum_perm (matched_step Prod.fst (allX pre ++ d.xs) (allX post) (allY pre ++ d.ys) (allY post))
    have v2 := valueSum_perm (matched_step Prod.fst (allX pre) d.xs (allY pre) d.ys)
    simp only [valueSum_append] at v1 v2
    have n1 := vpos (allX pre) (allY pre) hp2
    have n2 := vpos d.xs (allY pre) hp3
    have n3 := vpos (allX pre ++ d.xs) d.ys hp1
    have n4 := vpos (allX post) (allY pre ++ d.ys) hp4
    have n5 := vpos ((allX pre ++ d.xs) ++ allX post) (allY post) hpos
    have hadm1 : Admissible S Prod.fst B (fun t => NonZero S (t 0)) pre :=
      ⟨hadm.bound, fun e he => hadm.coins e (by simp [he]), fun p hp => bX p (by simp [hp]),
        fun p hp => bY p (by simp [hp]), by omega, by omega⟩
    have hd1 : Admissible S Prod.fst B (fun t => NonZero S (t 0)) [d] :=
      ⟨hadm.bound, fun e he => hadm.coins e (by simp at he; simp [he]),
        fun p hp => bX p (by simp [allX] at hp; simp [hp]), fun p hp => bY p (by simp [allY] at hp; simp [hp]),
        by simp [allX]; omega, by simp [allY]; omega⟩
    have hI := (runSum_spec S c limit hashOf hh B stash node pre hadm1 hlim hlimq hp2 (by omega) s h1).1
    have hst := runSum_fits S c limit hl0 hlim hashOf hh B stash node pre hadm1 s h1
    have := daySum_not_limit S c hlim hh hI hst hd1 (fun p hp => bX p (by simp only [List.mem_append] at hp ⊢; tauto))
      (fun p hp => bY p (by simp only [List.mem_append] at hp ⊢; tauto))
      (by simp only [List.length_append]; omega) (by simp only [List.length_append]; omega)
      (by simp only [List.length_append]; omega) (by simp only [List.length_append]; omega)
      (by rw [valueSum_append]; omega) (by rw [valueSum_append]; omega)
    rw [h2] at this
    simp [Outcome.Only, InfErr] at this
  · obtain ⟨k1, k2⟩ := C44_sum S c limit hashOf hh B stash node ds hadm hlim hlimq hY hpos (by omega) s hs (l0 sX) (l1 sY)
    refine Or.inr ⟨s, hs, k1, ?_⟩
    rw [k2]
    refine Int.emod_eq_of_lt ?_ (by omega)
    have := valueSum_nonneg (a := (allX ds).filter (fun p => p.1 ∈ allY ds)) (fun p hp => hpos p (List.mem_filter.1 hp).1)
    exact this

end Upsi.Proto
