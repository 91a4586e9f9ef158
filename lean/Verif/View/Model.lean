import Verif.View.Count
import Verif.Proto.SSModel
import Verif.Proto.AddProps
/-
What party zero sees in the clear in the addition-only protocols (C64): the plaintexts of the candidates in
message II, as a function of the masks and the permutation party one draws.
-/
namespace Upsi.View
open Upsi Upsi.ElGamal Upsi.Tree Upsi.Num Upsi.Proto

/-- `std::shuffle` with the permutation `σ`; lists of another length are left alone (the permutation is drawn for
the number of candidates at hand). -/
def permuteBy {N : Nat} {α : Type} (σ : Equiv.Perm (Fin N)) (l : List α) : List α :=
  if h : l.length = N then List.ofFn (fun i => l[(σ i : Nat)]'(h.symm ▸ (σ i).isLt)) else l

/-- The coins of a day with the masks and the shuffle replaced (everything else is kept). -/
def resample {G P κ : Type} {N : Nat} (ρ : Coins G P κ) (tape : Fin N → Tape) (σ : Equiv.Perm (Fin N)) : Coins G P κ :=
  { ρ with shuffle := permuteBy σ, masks := fun i => if h : i < N then tape ⟨i, h⟩ else fun _ => 1 }

/-- A mask drawn by `CreateRandomMask` (elgamal.cc:137-139, ec_group.cc:136-138): uniform on `[1, q - 1]`, i.e.
`k + 1` for `k` uniform on `q - 1` values. -/
def maskOf {q : Nat} (k : Fin (q - 1)) : Int := (k : Int) + 1

variable {G : Type} [AddCommGroup G] [DecidableEq G]

/-- What party zero sees of the candidates of message II on a day, seeing `see x` of every candidate `x` it reads. -/
def seen (S : Setup G) {P γ κ W : Type} (F : Func G P γ κ) (see : Ct G × κ → W) (c : Codec G) (hashOf : Nat → List Bool) (s0 : St0 G P)
    (s1 : St1 γ) (xs : List P) (ys : List Nat) (ρ : Coins G P κ) : Outcome (List W) := do
  let (_, _, cands) ← exchange F c hashOf S.pk S.sk1 s0 s1 xs ys ρ
  pure (cands.map see)

/-- The plaintext party zero decrypts from a candidate: party_zero.cc:316-321 (cardinality), 344-351 (sum), 381-383
(shares). -/
def seeFirst (S : Setup G) {κ : Type} (x : Ct G × κ) : G := decrypt S.sk0 x.1

/-- Both plaintexts party zero can decrypt from a candidate of the intersection protocol: party_zero.cc:293-300 (the
code decrypts the second one only if the first one is the identity; party zero holds what it needs to decrypt all). -/
def seeBoth (S : Setup G) (x : Ct G × Ct G) : G × G := (decrypt S.sk0 x.1, decrypt S.sk0 x.2)

/-- The mask tape of a candidate of the cardinality, sum and sharing protocols: one mask. -/
def tapeOf {q : Nat} (k : Fin (q - 1)) : Tape := fun _ => maskOf k

/-- The mask tape of a candidate of the intersection protocol: two masks (party_one.cc:155-170). -/
def tapeOf2 {q : Nat} (k : Fin (q - 1) × Fin (q - 1)) : Tape := fun i => if i = 0 then maskOf k.1 else maskOf k.2

/-- The same day with other masks and another shuffle of the candidates. -/
def redraw {P κ K : Type} {N : Nat} (tp : K → Tape) (d : DayIn G P κ) (x : (Fin N → K) × Equiv.Perm (Fin N)) : DayIn G P κ :=
  { d with coins := resample d.coins (fun i => tp (x.1 i)) x.2 }

/-- The plaintexts party zero decrypts on a day of the cardinality protocol. -/
def viewCA (S : Setup G) (c : Codec G) (hashOf : Nat → List Bool) (s : StCA G) (d : DayIn G Nat Unit) : Outcome (List G) :=
  seen S (funcCA c) (seeFirst S) c hashOf s.p0 s.p1 d.xs d.ys d.coins

/-- The plaintexts of the first components party zero decrypts on a day of the sum protocol. -/
def viewSum (S : Setup G) (c : Codec G) (hashOf : Nat → List Bool) (s : StSum G) (d : DayIn G (Nat × Int) (Ct G)) : Outcome (List G) :=
  seen S (funcSum c) (seeFirst S) c hashOf s.p0 s.p1 d.xs d.ys d.coins

/-- The plaintexts of the first components party zero decrypts on a day of the sharing protocol. -/
def viewSS (S : Setup G) (c : Codec G) (mont : Int → Option Mont) (a b : TPaillier) (hashOf : Nat → List Bool) (s : StSS G)
    (d : DayIn G (Nat × Int) Int) : Outcome (List G) :=
  seen S (funcSS c mont a b) (seeFirst S) c hashOf s.p0 s.p1 (d.xs.map getPayloadSS) d.ys d.coins

/-- The pairs of plaintexts party zero can decrypt on a day of the intersection protocol. -/
def viewPSI (S : Setup G) (c cu : Codec G) (hashOf : Nat → List Bool) (s : StPSI G) (d : DayIn G Nat (Ct G)) : Outcome (List (G × G)) :=
  seen S (funcPSI c cu) (seeBoth S) c hashOf s.p0 s.p1 d.xs d.ys d.coins

/-- The candidates party one holds before the shuffle: party_one.cc:121-149. -/
def preCands {P γ κ : Type} (F : Func G P γ κ) (hashOf : Nat → List Bool) (pk : PK G)
    (s0 : St0 G P) (s1 : St1 γ) (xs : List P) (ys : List Nat) (ρ : Coins G P κ) : Outcome (List (Ct G × κ)) := do
  let (_, m) ← genI F hashOf pk s0 xs ρ
  let other ← recvUpdate F.deserTree s1.other m.updates
  let cands ← forIdx (fun _ w => F.deser w) 0 m.candidates
  let own ← forIdx (candII F hashOf pk other ρ) 0 ys
  pure (cands ++ own.flatten)

/-- The ideal view: out of `N` positions, a random set of `M` positions holds the identity and every other position
holds a uniformly random non-identity element (a random non-zero multiple of the generator). -/
def idealView (g : G) (q N M : Nat) (x : (Fin N → Fin (q - 1)) × Equiv.Perm (Fin N)) : List G :=
  List.ofFn (fun i => if (x.2 i : Nat) < M then 0 else maskOf (x.1 i) • g)

/-- The number of ways the masks and the permutation can be drawn so that the experiment `f` gives `w`.  All draws
are equally likely, so two experiments with the same numbers have the same distribution. -/
def ways {K W : Type} [Fintype K] [DecidableEq W] {N : Nat} (f : (Fin N → K) × Equiv.Perm (Fin N) → W) (w : W) : Nat :=
  Fintype.card {x // f x = w}

/-- The ideal view of the intersection protocol for candidates given as pairs (does it match?, party zero's element as a
point): in random order, a match shows the identity and the element, another candidate shows a random non-identity
point and its element shifted by a random non-identity point. -/
def idealView2 (g : G) (q : Nat) {N : Nat} (items : Fin N → Bool × G) (x : (Fin N → Fin (q - 1) × Fin (q - 1)) × Equiv.Perm (Fin N)) :
    List (G × G) :=
  List.ofFn (fun i => if (items (x.2 i)).1 then (0, (items (x.2 i)).2)
    else (maskOf (x.1 i).1 • g, (items (x.2 i)).2 + maskOf (x.1 i).2 • g))

end Upsi.View
