import Verif.Main.AddEndExamples
/- Property theorems C74: the flag `--shared_size` of addition/setup.cc and the count of initial matches. -/
namespace Upsi.Main
open Upsi Upsi.Rec Upsi.ElGamal Upsi.Tree Upsi.Tree.Props Upsi.Proto Upsi.Proto.Examples Upsi.Setup Upsi.Data

variable {G : Type} [AddCommGroup G] [DecidableEq G]

/-- **C74** (size of the intersection) Without initial trees, the expected cardinality printed by `addition/setup.cc` is the flag
`--shared_size`, or an eighth (rounded down) of all elements of a party if the flag is negative, which is its default. -/
theorem C74_shared_size (c : Codec G) (g : G) (q : Nat) (hq : q.Prime) (hcard : Nat.card G = q) (hg : g ≠ 0)
    (hashOf : Nat → List Bool) (hh : ∀ e, (hashOf e).length = 256) (L B stash node : Nat) (f : SetupFlags)
    (hf : SizesOK L B q stash node f) (ρ : SetupRand) (hρ : ρ.OK L B q f) (fs : FS) (o : SetupOut)
    (h : setupMain c g q hashOf stash node f ρ fs = .ok o) (hs : f.start = 0) :
    ∃ n m, o.printed = some (n, m) ∧ (0 ≤ f.shared → n = f.shared) ∧
      (f.shared < 0 → n = ((f.days * f.daily / 8 : Nat) : Int)) := by
  obtain ⟨S, gs, k0, k1, rfl, rfl, F, -⟩ := setup_found c g q hq hcard hg hh hf hρ h
  refine ⟨_, _, (F.fresh hs).2.2, fun h => ?_, fun h => ?_⟩
  · rw [sharedSize, if_neg (by omega)]
  · have := hf.total
    rw [sharedSize, if_pos h, hs, Nat.zero_add, Nat.mod_eq_of_lt (by omega)]

/-- **C74** (overflow of the count) The loop over the initial elements counts `k` matches of an element up to `2^31 - 1`
of them; one more overflows the counter, which is undefined. -/
theorem C74_count (e : Data.Bytes) (v n s : Int) (k : Nat) (hn : n < 2 ^ 31) :
    (n + k < 2 ^ 31 → ∃ s', initInner e v (List.replicate k e) (n, s) = .ok (n + k, s')) ∧
    (2 ^ 31 ≤ n + k → initInner e v (List.replicate k e) (n, s) = .ub) := by
  induction k generalizing n s with
  | zero => exact ⟨fun _ => ⟨s, by simp [initInner]⟩, fun h => by simp at h; omega⟩
  | succ k ih =>
    rw [List.replicate_succ, initInner, if_pos rfl]
    rw [Nat.cast_succ]
    by_cases h : n + 1 < 2 ^ 31
    · rw [if_pos h]
      obtain ⟨i1, i2⟩ := ih (n + 1) (int32 (s + v)) h
      refine ⟨fun hk => ?_, fun hk => i2 (by omega)⟩
      obtain ⟨s', e1⟩ := i1 (by omega)
      exact ⟨s', by rw [e1]; congr 2; omega⟩
    · rw [if_neg h]
      exact ⟨fun hk => by omega, fun _ => rfl⟩

/-- Two shared elements requested, two printed. -/
example : ∃ o m, exSetup 0 = .ok o ∧ o.printed = some (2, m) := by
  obtain ⟨r, hr, -⟩ := endSS_run
  obtain ⟨h1, -⟩ := exBoth_ok hr
  obtain ⟨n, m, hp, hn, -⟩ := C74_shared_size toyCodec65521 1 65521 (by norm_num) (by simp) (by decide) toyHash toyHash_len 1 10 4 1 _
    (exSizes 0 (by norm_num)) _ (exRand_ok 0 (by norm_num)) _ _ h1 rfl
  refine ⟨_, m, h1, ?_⟩
  rw [hp, hn (by decide)]; rfl

/-- Three matches fit; with a counter at its maximum one more is undefined. -/
example : (∃ s', initInner [49] 7 (List.replicate 3 [49]) (0, 0) = .ok (3, s')) ∧
    initInner [49] 7 (List.replicate 1 [49]) (2 ^ 31 - 1, 0) = .ub :=
  ⟨by simpa using (C74_count [49] 7 0 0 3 (by norm_num)).1 (by norm_num), (C74_count [49] 7 (2 ^ 31 - 1) 0 1 (by norm_num)).2 (by norm_num)⟩

end Upsi.Main
