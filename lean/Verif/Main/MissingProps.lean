import Verif.Main.AddEndExamples
/-
Property theorem C74 (continued): running the parties for more days than the setup program generated.
-/
namespace Upsi.Main
open Upsi Upsi.Rec Upsi.ElGamal Upsi.Tree Upsi.Tree.Props Upsi.Proto Upsi.Proto.Examples Upsi.Setup Upsi.Wire Upsi.Num Upsi.Data

variable {G P γ : Type}

theorem readDaily_readable {dir : String} {fs : FS} : ∀ (n i : Nat) (d : List Dataset), readDaily dir fs n i = .ok d →
    ∀ j < n, ∃ x, readDataset (dayFile dir (i + j)) fs = .ok x := by
  intro n
  induction n with
  | zero => intro i d _ j hj; omega
  | succ n ih =>
    intro i d h j hj
    simp only [readDaily, Outcome.bind_eq_ok, Outcome.pure_eq, Outcome.ok.injEq] at h
    obtain ⟨x, hx, r, hr, -⟩ := h
    rcases Nat.eq_zero_or_pos j with rfl | hp
    · exact ⟨x, hx⟩
    · have := ih _ _ hr (j - 1) (by omega)
      rwa [show i + 1 + (j - 1) = i + j by omega] at this

theorem readDaily_missing {dir : String} {fs : FS} : ∀ (n i k : Nat), k < n →
    (∀ j < k, ∃ x, readDataset (dayFile dir (i + j)) fs = .ok x) → fs.data (canon (dayFile dir (i + k))) = none →
    readDaily dir fs n i = .abort := by
  intro n
  induction n with
  | zero => intro i k hk; omega
  | succ n ih =>
    intro i k hk hr hm
    rw [readDaily]
    rcases Nat.eq_zero_or_pos k with rfl | hp
    · have : readDataset (dayFile dir i) fs = .abort := by
        rw [readDataset]
        rw [Nat.add_zero] at hm
        rw [hm]
      rw [this]; rfl
    · obtain ⟨x, hx⟩ := hr 0 hp
      rw [Nat.add_zero] at hx
      rw [hx, Outcome.bind_ok, ih (i + 1) (k - 1) (by omega)
        (fun j hj => by rw [show i + 1 + j = i + (j + 1) by omega]; exact hr _ (by omega))
        (by rw [show i + 1 + (k - 1) = i + k by omega]; exact hm)]
      rfl

variable [AddCommGroup G] [DecidableEq G]

/-- **C74** (more days than generated) Run for more days than the setup program generated, with no file of party
zero for the next day left over from an earlier setup, party zero's program ends with an uncaught exception before any
message is sent, in every protocol: no result for a shorter history is printed. -/
theorem C74_missing_day (c cu : Codec G) (g : G) (q : Nat) (hq : q.Prime) (hcard : Nat.card G = q) (hg : g ≠ 0)
    (hashOf : Nat → List Bool) (hh : ∀ e, (hashOf e).length = 256) (L B stash node : Nat) (f : SetupFlags)
    (hf : SizesOK L B q stash node f) (ρ : SetupRand) (hρ : ρ.OK L B q f) (fs : FS) (o : SetupOut)
    (h : setupMain c g q hashOf stash node f ρ fs = .ok o) (days : Nat) (hd : f.days < days)
    (hm : o.fs.data (canon (dayFile (f.dataDir ++ "p0/") (f.days + 1))) = none) (limit : Nat)
    (mont : Int → Option Mont) (x0 x1 : Int) (coinsCA : Nat → Coins G Nat Unit) (coinsPSI : Nat → Coins G Nat (Ct G))
    (coinsSum : Nat → Coins G (Nat × Int) (Ct G)) (coinsSS : Nat → Coins G (Nat × Int) Int) :
    let r : RunFlags := { RunFlags.of f with days := days }
    mainCA c hashOf stash node r coinsCA o.fs = .abort ∧ mainPSI c cu hashOf stash node r coinsPSI o.fs = .abort ∧
    mainSum c limit hashOf stash node r coinsSum o.fs = .abort ∧ mainSS c mont x0 x1 hashOf stash node r coinsSS o.fs = .abort := by
  obtain ⟨S, gs, k0, k1, rfl, rfl, F, -⟩ := setup_found c g q hq hcard hg hh hf hρ h
  intro r
  have key : ∀ {P γ : Type} (dec : PElem → P) (deser : EncElem → Outcome γ) (load : List Dataset → Outcome (List (List P))),
      start c dec deser load stash node r o.fs = .abort := by
    intro P γ dec deser load
    have r0 := readDaily_readable _ _ _ F.daily0
    unfold start
    have : readDaily (r.dataDir ++ "p0/") o.fs r.days 1 = .abort :=
      readDaily_missing days 1 f.days hd r0 (by rw [Nat.add_comm]; exact hm)
    rw [this]; rfl
  unfold mainCA mainPSI mainSum mainSS
  simp only [key]
  exact ⟨rfl, rfl, rfl, rfl⟩

theorem missing_run : ∃ o, exSetup 0 = .ok o ∧ (o.fs.data (canon (dayFile ((exFlags 0).dataDir ++ "p0/") ((exFlags 0).days + 1)))).isNone = true :=
  holds_ok (by decide +kernel)

/-- Two days were generated, the parties are run for three. -/
example : ∃ o, exSetup 0 = .ok o ∧
    mainCA toyCodec65521 toyHash 4 1 { RunFlags.of (exFlags 0) with days := 3 } (exCoins 9) o.fs = .abort := by
  obtain ⟨o, h, p⟩ := missing_run
  exact ⟨o, h, (C74_missing_day toyCodec65521 toyCodec65521 1 65521 (by norm_num) (by simp) (by decide) toyHash toyHash_len 1 10 4 1 _
    (exSizes 0 (by norm_num)) _ (exRand_ok 0 (by norm_num)) _ o h 3 (by decide) (Option.isNone_iff_eq_none.1 p) 5 (fun _ => none) 2 2
    (exCoins 9) (exCoins 9) (exCoins (9, 0)) exCoinsSS).1⟩

end Upsi.Main
