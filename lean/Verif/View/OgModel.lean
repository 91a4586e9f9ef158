import Verif.View.Props
import Verif.Proto.OgProps
/-
What the two parties of the original protocol see in the clear (C67), as a function of the masks, points and
permutations drawn on the day.
-/
namespace Upsi.View
open Upsi Upsi.ElGamal Upsi.Tree Upsi.Num Upsi.Proto

/-- The number of ways the coins `x` can be drawn so that the experiment `f` gives `w`; all draws are equally likely. -/
def draws {X W : Type} [Fintype X] [DecidableEq W] (f : X → W) (w : W) : Nat := Fintype.card {x // f x = w}

variable {G : Type} [AddCommGroup G] [DecidableEq G]

/-- Read the candidate sets of a message and decrypt them with the secret key `sk`: party_one.cc:63-86 (message II),
party_zero.cc:118-131 (message III). -/
def openSets (c : Codec G) (sk : Int) (sets : List (List EncElem)) : Outcome (List (List G)) :=
  forIdx (fun _ ws => do
    let cts ← forIdx (fun _ w => deserNoPayload c w) 0 ws
    pure (cts.map (decrypt sk))) 0 sets

/-- What party one decrypts from message II of a day: party_one.cc:60-86. -/
def plainII (K : OgKeys G) (c cu : Codec G) (H : Nat → G) (hashOf : Nat → List Bool) (s : OgSt G) (d : OgDay G) :
    Outcome (List (List G)) := do
  let (_, m1) ← ogSendI c H hashOf K.pk1 K.b s.p1 d.ys d.coins
  let (_, m2) ← ogSendII c cu hashOf K.pk0 K.pk1 K.a s.p0 m1 d.xs d.coins
  openSets c K.b m2.candidates

/-- What party zero decrypts from message III of a day: party_zero.cc:111-131 (the code stops decrypting a set at the
first match; party zero can decrypt all of it). -/
def plainIII (K : OgKeys G) (c cu : Codec G) (H : Nat → G) (hashOf : Nat → List Bool) (s : OgSt G) (d : OgDay G) :
    Outcome (List (List G)) := do
  let (_, m1) ← ogSendI c H hashOf K.pk1 K.b s.p1 d.ys d.coins
  let (_, m2) ← ogSendII c cu hashOf K.pk0 K.pk1 K.a s.p0 m1 d.xs d.coins
  let m3 ← ogSendIII c K.pk0 K.b m2 d.coins
  openSets c K.a m3

/-- The points party one reads from message IV of a day: party_one.cc:110-117. -/
def pointsIV (K : OgKeys G) (c cu : Codec G) (H : Nat → G) (hashOf : Nat → List Bool) (s : OgSt G) (d : OgDay G) :
    Outcome (List G) := do
  let (_, m1) ← ogSendI c H hashOf K.pk1 K.b s.p1 d.ys d.coins
  let (p0, m2) ← ogSendII c cu hashOf K.pk0 K.pk1 K.a s.p0 m1 d.xs d.coins
  let m3 ← ogSendIII c K.pk0 K.b m2 d.coins
  let (_, m4) ← ogSendIV c H K.a p0 m3 d.xs d.coins
  forIdx (fun _ w => createECPoint c w) 0 m4

/-- A function of two indices given for `n` rows of sizes `N`; `1` outside. -/
def grid {n : Nat} {N : Fin n → Nat} (f : ∀ i, Fin (N i) → Int) (i j : Nat) : Int :=
  if h : i < n then if h' : j < N ⟨i, h⟩ then f ⟨i, h⟩ ⟨j, h'⟩ else 1 else 1

/-- The same day with other masks and shuffles in message III (party_one.cc:88-97): one mask per candidate, one
permutation per set. -/
def redrawIII {q n : Nat} {N : Fin n → Nat} (d : OgDay G) (x : ∀ i, (Fin (N i) → Fin (q - 1)) × Equiv.Perm (Fin (N i))) : OgDay G :=
  { d with coins := { d.coins with
      gamma := grid (fun i j => maskOf ((x i).1 j))
      shuffle := fun i => if h : i < n then permuteBy (x ⟨i, h⟩).2 else id } }

/-- The same day with other masks in message II (party_zero.cc:82-89). -/
def redrawII {q n : Nat} {N : Fin n → Nat} (d : OgDay G) (x : ∀ i, Fin (N i) → Fin (q - 1)) : OgDay G :=
  { d with coins := { d.coins with beta := grid (fun i j => maskOf (x i j)) } }

/-- The same day with other masks and other random numbers in message IV (party_zero.cc:134-156); `R r` is the point
obtained from the random number `r` (`GetPointByHashingToCurveSha256`). -/
def redrawIV {q n : Nat} (R : Fin q → G) (d : OgDay G) (x : Fin n → Fin (q - 1) × Fin q) : OgDay G :=
  { d with coins := { d.coins with
      mask := fun i => if h : i < n then maskOf (x ⟨i, h⟩).1 else 1
      dummy := fun i => if h : i < n then R (x ⟨i, h⟩).2 else 0 } }

end Upsi.View
