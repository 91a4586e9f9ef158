import Verif.Proto.Wire
import Verif.Tree.Update
/-
Model of the addition-only protocols: upsi/addition/party_zero.cc and party_one.cc.

The four functionalities (PSI, cardinality, sum, secret share) repeat the same code with different
payloads.  The common part is written once, parametrised by a `Func` (what differs); every
functionality is an instance whose fields cite the lines they model.

Randomness: every draw is an explicit argument.  A `Tape` holds the coins of one loop iteration.
`shuffle` is the effect of `std::shuffle` on the candidate vector.
-/
namespace Upsi.Proto
open Upsi Upsi.ElGamal Upsi.Tree Upsi.Num

/-- The coins drawn in one loop iteration, in order. -/
abbrev Tape := Nat → Int

variable {G : Type} [AddCommGroup G] [DecidableEq G]

/-- What differs between functionalities.  `P` = what party zero stores per element, `γ` = what
party one's copy of that tree stores, `κ` = payload of a candidate. -/
structure Func (G P γ κ : Type) where
  /-- the element of an entry -/
  key : P → Nat
  /-- `EncryptNode` + `SerializeNode` of party zero's tree, one entry -/
  encTree : PK G → Tape → P → Outcome EncElem
  /-- `DeserializeNode` of party one's copy, one entry -/
  deserTree : EncElem → Outcome γ
  /-- the ciphertext of the element in a path entry -/
  first : γ → Ct G
  /-- the payload party one attaches to a candidate made from a path entry -/
  second : γ → κ
  /-- the payload party zero attaches to the candidates of one of its elements; coin 0 of the tape
  is the one used for encrypting the element itself -/
  payload : PK G → Tape → P → Outcome κ
  /-- serialization of a candidate in message I -/
  ser : Ct G → κ → Outcome EncElem
  /-- `DeserializeCiphertexts` -/
  deser : EncElem → Outcome (Ct G × κ)
  /-- the masking loop of `GenerateMessageII` -/
  mask : Tape → Ct G × κ → Ct G × κ
  /-- partial decryption, re-randomization and serialization of a candidate in message II;
  second argument: party one's ElGamal key share -/
  send : PK G → Int → Tape → Ct G × κ → Outcome EncElem

/-- The coins of one day. -/
structure Coins (G P κ : Type) where
  /-- path identifiers of party zero's tree update -/
  hsh0 : List (List Bool)
  pads0 : Nat → Nat → P
  enc0 : Nat → Nat → Tape
  /-- party zero, loop over new elements -/
  x0 : Nat → Tape
  rr : Nat → Nat → Int
  /-- party one, loop over new elements -/
  x1 : Nat → Int
  shuffle : List (Ct G × κ) → List (Ct G × κ)
  masks : Nat → Tape
  send : Nat → Tape
  hsh1 : List (List Bool)
  pads1 : Nat → Nat → Nat
  enc1 : Nat → Nat → Int
  /-- coins of the third message -/
  last : Nat → Tape

/-- The trees of party zero (`HasTree`, roles.h:62-110); `lost` is ghost: the elements dropped from
`my` by stash overflow. -/
structure St0 (G P : Type) where
  my : Tree P
  other : Tree (Ct G)
  lost : List P

/-- The trees of party one. -/
structure St1 (γ : Type) where
  my : Tree Nat
  other : Tree γ
  lost : List Nat

/-- `PartyZeroMessage::MessageI` and `PartyOneMessage::MessageII` (upsi.proto): tree updates and
candidates. -/
structure ProtoMsg where
  updates : Msg EncElem
  candidates : List EncElem

/-- Both trees freshly constructed (roles.h:74-76). -/
def St0.init (stash node : Nat) : St0 G P := ⟨Tree.empty stash node, Tree.empty stash node, []⟩
/-- Both trees freshly constructed (roles.h:74-76). -/
def St1.init (stash node : Nat) : St1 γ := ⟨Tree.empty stash node, Tree.empty stash node, []⟩

/-- Body of the element loop of `GenerateMessageI`: party_zero.cc:133-162 (PSI), 178-196 (CA),
212-235 (SUM), 251-271 (SS). -/
def candI (F : Func G P γ κ) (hashOf : Nat → List Bool) (pk : PK G) (other : Tree (Ct G))
    (ρ : Coins G P κ) (i : Nat) (p : P) : Outcome (List EncElem) := do
  let path ← getPath other (hashOf (F.key p))
  let x := encrypt pk (ρ.x0 i 0) (F.key p)
  let pay ← F.payload pk (ρ.x0 i) p
  forIdx (fun j y => F.ser (reRandomize pk (ρ.rr i j) (mul y (invert x))) pay) 0 path

/-- `GenerateMessageI`: party_zero.cc:123-274.  The tree update comes first; the candidates are
computed against the *old* copy of party one's tree. -/
def genI (F : Func G P γ κ) (hashOf : Nat → List Bool) (pk : PK G) (s : St0 G P) (es : List P)
    (ρ : Coins G P κ) : Outcome (St0 G P × ProtoMsg) := do
  let u ← sendUpdate (fun p => hashOf (F.key p)) id (fun i j => F.encTree pk (ρ.enc0 i j)) ρ.pads0
    s.my es ρ.hsh0
  let cs ← forIdx (candI F hashOf pk s.other ρ) 0 es
  pure ({ s with my := u.tree, lost := s.lost ++ u.lost }, ⟨u.msg, cs.flatten⟩)

/-- Body of the element loop of `GenerateMessageII`: party_one.cc:136-148 (PSI), 213-222 (CA),
273-287 (SUM), 366-380 (SS). -/
def candII (F : Func G P γ κ) (hashOf : Nat → List Bool) (pk : PK G) (other : Tree γ)
    (ρ : Coins G P κ) (i : Nat) (e : Nat) : Outcome (List (Ct G × κ)) := do
  let path ← getPath other (hashOf e)
  let x := encrypt pk (ρ.x1 i) e
  pure (path.map (fun y => (mul (F.first y) (invert x), F.second y)))

/-- `GenerateMessageII`: party_one.cc:121-191 (PSI), 198-252 (CA), 258-322 (SUM), 351-412 (SS).
The masking loop (which cannot fail) and the decrypt-and-serialize loop are kept separate as in the
code. -/
def genII (F : Func G P γ κ) (c : Codec G) (hashOf : Nat → List Bool) (pk : PK G) (sk1 : Int)
    (s : St1 γ) (m : ProtoMsg) (es : List Nat) (ρ : Coins G P κ) :
    Outcome (St1 γ × ProtoMsg) := do
  let other ← recvUpdate F.deserTree s.other m.updates
  let cands ← forIdx (fun _ w => F.deser w) 0 m.candidates
  let own ← forIdx (candII F hashOf pk other ρ) 0 es
  let all := ρ.shuffle (cands ++ own.flatten)
  let masked := all.mapIdx (fun i x => F.mask (ρ.masks i) x)
  let out ← forIdx (fun i x => F.send pk sk1 (ρ.send i) x) 0 masked
  let u ← sendUpdate hashOf id (fun i j y => serNoPayload c (encrypt pk (ρ.enc1 i j) y)) ρ.pads1
    s.my es ρ.hsh1
  pure (⟨u.tree, other, s.lost ++ u.lost⟩, ⟨u.msg, out⟩)

/-- The common first half of `ProcessMessageII` / `SendMessageIII`: party_zero.cc:282-291, 309-314,
332-341, 369-378. -/
def recvII (F : Func G P γ κ) (c : Codec G) (s : St0 G P) (m : ProtoMsg) :
    Outcome (St0 G P × List (Ct G × κ)) := do
  let other ← recvUpdate (deserTreeCt c) s.other m.updates
  let cands ← forIdx (fun _ w => F.deser w) 0 m.candidates
  pure ({ s with other := other }, cands)

/-- Messages I and II of one day, up to the point where party zero holds the candidates. -/
def exchange (F : Func G P γ κ) (c : Codec G) (hashOf : Nat → List Bool) (pk : PK G) (sk1 : Int)
    (s0 : St0 G P) (s1 : St1 γ) (xs : List P) (ys : List Nat) (ρ : Coins G P κ) :
    Outcome (St0 G P × St1 γ × List (Ct G × κ)) := do
  let (s0', m1) ← genI F hashOf pk s0 xs ρ
  let (s1', m2) ← genII F c hashOf pk sk1 s1 m1 ys ρ
  let (s0'', cands) ← recvII F c s0' m2
  pure (s0'', s1', cands)

/-! ### Cardinality -/

/-- Cardinality: no payload.  Tree: crypto_node.cc:105-116, 191-200, 273-296; candidates:
party_zero.cc:190-195; masking: party_one.cc:228-234; sending: party_one.cc:236-243. -/
def funcCA (c : Codec G) : Func G Nat (Ct G) Unit where
  key := id
  encTree pk t p := serNoPayload c (encrypt pk (t 0) p)
  deserTree := deserTreeCt c
  first := id
  second _ := ()
  payload _ _ _ := .ok ()
  ser x _ := serNoPayload c x
  deser w := do let x ← deserNoPayload c w; pure (x, ())
  mask t x := (exp x.1 (t 0), ())
  send _ sk1 _ x := serNoPayload c (partialDecrypt sk1 x.1)

/-- The counting loop: party_zero.cc:316-321. -/
def countLoop (sk0 : Int) : List (Ct G × κ) → Nat → Nat
  | [], n => n
  | x :: xs, n => if decrypt sk0 x.1 = 0 then countLoop sk0 xs (n + 1) else countLoop sk0 xs n

/-- Both parties of the cardinality protocol.  `cardinality` is an `int64_t` in the code. -/
structure StCA (G : Type) where
  p0 : St0 G Nat
  p1 : St1 (Ct G)
  cardinality : Nat

/-- One day of the cardinality protocol: party_zero.cc:28-41, 307-326. -/
def dayCA (c : Codec G) (hashOf : Nat → List Bool) (pk : PK G) (sk0 sk1 : Int) (s : StCA G)
    (xs ys : List Nat) (ρ : Coins G Nat Unit) : Outcome (StCA G) := do
  let (p0, p1, cands) ← exchange (funcCA c) c hashOf pk sk1 s.p0 s.p1 xs ys ρ
  pure ⟨p0, p1, countLoop sk0 cands s.cardinality⟩

/-! ### PSI -/

/-- PSI: the payload is an encryption of the element.  Candidates: party_zero.cc:144, 153-161;
path payload: party_one.cc:144-146; masking: party_one.cc:155-170; sending: party_one.cc:172-183.
`cu` is the uncompressed point encoding used as map key (party_zero.cc:136; an error for the point
at infinity). -/
def funcPSI (c cu : Codec G) : Func G Nat (Ct G) (Ct G) where
  key := id
  encTree pk t p := serNoPayload c (encrypt pk (t 0) p)
  deserTree := deserTreeCt c
  first := id
  second y := y
  payload pk t p := do
    let _ ← pointToBytes cu ((p : Int) • pk.g)
    pure (encrypt pk (t 0) p)
  ser x k := serElGamal c x k
  deser := deserElGamal c
  mask t x :=
    let f := exp x.1 (t 0)
    (f, mul x.2 (exp f (t 1)))
  send _ sk1 _ x := serElGamal c (partialDecrypt sk1 x.1) (partialDecrypt sk1 x.2)

/-- `group_mapping`: a `std::map` from point bytes to element strings; newest entry first. -/
abbrev Mapping := List (List UInt8 × Nat)

/-- `group_mapping[key] = elements[i].ToDecimalString()`: party_zero.cc:135-137.  Elements stand for
their decimal strings. -/
def recordAll (cu : Codec G) (pk : PK G) : List Nat → Mapping → Outcome Mapping
  | [], m => .ok m
  | x :: xs, m => do
    let k ← pointToBytes cu ((x : Int) • pk.g)
    recordAll cu pk xs ((k, x) :: m)

/-- The output loop: party_zero.cc:293-300.  `group_mapping[key]` of an unknown key default-inserts
the empty string, modelled by `none` (the insertion itself is not modelled: a later lookup of the
same key gives the empty string again). -/
def psiLoop (cu : Codec G) (sk0 : Int) (m : Mapping) :
    List (Ct G × Ct G) → List (Option Nat) → Outcome (List (Option Nat))
  | [], out => .ok out
  | x :: xs, out =>
    if decrypt sk0 x.1 = 0 then do
      let k ← pointToBytes cu (decrypt sk0 x.2)
      psiLoop cu sk0 m xs (out ++ [m.lookup k])
    else psiLoop cu sk0 m xs out

/-- Both parties of the PSI protocol. -/
structure StPSI (G : Type) where
  p0 : St0 G Nat
  p1 : St1 (Ct G)
  mapping : Mapping
  intersection : List (Option Nat)

/-- One day of the PSI protocol: party_zero.cc:28-41, 123-165, 280-305. -/
def dayPSI (c cu : Codec G) (hashOf : Nat → List Bool) (pk : PK G) (sk0 sk1 : Int) (s : StPSI G)
    (xs ys : List Nat) (ρ : Coins G Nat (Ct G)) : Outcome (StPSI G) := do
  let m ← recordAll cu pk xs s.mapping
  let (p0, p1, cands) ← exchange (funcPSI c cu) c hashOf pk sk1 s.p0 s.p1 xs ys ρ
  let out ← psiLoop cu sk0 m cands s.intersection
  pure ⟨p0, p1, m, out⟩

/-! ### Sum -/

/-- Sum: party zero's entries carry a value, encrypted in the exponent.  Tree:
crypto_node.cc:118-132, 215-228, 320-344; candidates: party_zero.cc:216, 226-234; masking:
party_one.cc:293-299; sending: party_one.cc:301-313. -/
def funcSum (c : Codec G) : Func G (Nat × Int) (Ct G × Ct G) (Ct G) where
  key := Prod.fst
  encTree pk t p := serElGamal c (encrypt pk (t 0) p.1) (encrypt pk (t 1) p.2)
  deserTree := deserElGamal c
  first := Prod.fst
  second := Prod.snd
  payload pk t p := .ok (encrypt pk (t 1) p.2)
  ser x k := serElGamal c x k
  deser := deserElGamal c
  mask t x := (exp x.1 (t 0), x.2)
  send pk sk1 t x := do
    let a ← serializeCt c (partialDecrypt sk1 x.1)
    let b ← serializeCt c (reRandomize pk (t 0) x.2)
    pure (.elgamal a b)

/-- The aggregation loop: party_zero.cc:344-351. -/
def sumLoop (sk0 : Int) : List (Ct G × Ct G) → Nat → Ct G → Nat × Ct G
  | [], n, s => (n, s)
  | x :: xs, n, s =>
    if decrypt sk0 x.1 = 0 then sumLoop sk0 xs (n + 1) (mul s x.2) else sumLoop sk0 xs n s

/-- Both parties of the sum protocol. -/
structure StSum (G : Type) where
  p0 : St0 G (Nat × Int)
  p1 : St1 (Ct G × Ct G)
  cardinality : Nat
  sum : UInt64

/-- One day of the sum protocol: `SendMessageIII` party_zero.cc:328-363, `ProcessMessageIII`
party_one.cc:324-344, `ProcessMessageIV` party_zero.cc:463-477.  `limit` is `MAX_SUM`
(party_zero.h `InitDecryptExp`, utils.h). -/
def daySum (c : Codec G) (limit : Nat) (hashOf : Nat → List Bool) (pk : PK G) (sk0 sk1 : Int)
    (s : StSum G) (xs : List (Nat × Int)) (ys : List Nat) (ρ : Coins G (Nat × Int) (Ct G)) :
    Outcome (StSum G) := do
  let (p0, p1, cands) ← exchange (funcSum c) c hashOf pk sk1 s.p0 s.p1 xs ys ρ
  let (n, sum) := sumLoop sk0 cands s.cardinality (encrypt pk (ρ.last 0 0) 0)
  let m3 ← serializeCt c sum
  let sum1 ← deserializeCt c m3
  let m4 ← serializeCt c (partialDecrypt sk1 sum1)
  let sum2 ← deserializeCt c m4
  let big ← decryptExp sk0 (initDecryptExp pk.g limit) sum2
  let v ← toIntValue big
  pure ⟨p0, p1, n, s.sum + v⟩

/-- A protocol over several days: one step per day. -/
def runDays (step : σ → δ → Outcome σ) : σ → List δ → Outcome σ
  | s, [] => .ok s
  | s, d :: ds => do
    let s' ← step s d
    runDays step s' ds

end Upsi.Proto
