import Verif.Proto.AddModel
import Verif.Paillier.Model
/-
Model of the addition-only secret-sharing functionality: `PartyZeroSecretShare`
(addition/party_zero.cc) and `PartyOneSecretShare` (addition/party_one.cc).
-/
namespace Upsi.Proto
open Upsi Upsi.ElGamal Upsi.Tree Upsi.Num

variable {G : Type} [AddCommGroup G] [DecidableEq G]

/-- A `ThresholdPaillier` object (threshold_paillier.h): the key share and the `PublicPaillier` built
from the modulus. -/
structure TPaillier where
  key : Paillier.TKey
  pub : Paillier.Public

/-- Secret sharing: the payload is a threshold-Paillier ciphertext.  Tree: crypto_node.cc:134-149,
202-213, 298-318; candidates: party_zero.cc:254, 264-269; masking: party_one.cc:385-391; sending:
party_one.cc:393-402.  `a` and `b` are the Paillier objects of party zero and party one. -/
def funcSS (c : Codec G) (mont : Int → Option Mont) (a b : TPaillier) :
    Func G (Nat × Int) (Ct G × Int) Int where
  key := Prod.fst
  encTree pk t p := do
    let y ← a.pub.encrypt mont p.2 (t 1)
    serPaillier c (encrypt pk (t 0) p.1) y
  deserTree := deserPaillier c
  first := Prod.fst
  second := Prod.snd
  payload _ t p := a.pub.encrypt mont p.2 (t 1)
  ser x k := serPaillier c x k
  deser := deserPaillier c
  mask t x := (exp x.1 (t 0), x.2)
  send _ sk1 t x := do
    let e ← serializeCt c (partialDecrypt sk1 x.1)
    let r ← b.pub.reRand mont x.2 (t 0)
    let w ← toBytes r
    pure (.paillier e w)

/-- The share loop of `PartyZeroSecretShare::SendMessageIII`: party_zero.cc:381-397.  `tape i 0` is the
random share, `tape i 1` the encryption coin.  Returns the extended share list and the payloads of
message III. -/
def ssLoop (mont : Int → Option Mont) (a : TPaillier) (sk0 : Int) (tape : Nat → Tape) :
    Nat → List (Ct G × Int) → List Int → List (List UInt8) → Outcome (List Int × List (List UInt8))
  | _, [], shares, pays => .ok (shares, pays)
  | i, x :: xs, shares, pays =>
    if decrypt sk0 x.1 = 0 then do
      let r := tape i 0
      let e ← a.pub.encrypt mont r (tape i 1)
      let e' ← Paillier.addT a.key x.2 e
      let part ← Paillier.partialDecrypt a.key e'
      let w ← toBytes e'
      let wp ← toBytes part
      ssLoop mont a sk0 tape (i + 1) xs (shares ++ [a.key.n - r]) (pays ++ [w, wp])
    else ssLoop mont a sk0 tape (i + 1) xs shares pays

/-- `PartyOneSecretShare::ProcessMessageIII`: party_one.cc:414-428.  The loop takes payloads two at a
time; `at(i + 1)` beyond the end is fatal. -/
def ssRecv (b : TPaillier) : List (List UInt8) → List Int → Outcome (List Int)
  | [], shares => .ok shares
  | [_], _ => .abort
  | x :: y :: rest, shares => do
    let v ← Paillier.decryptT b.key (ofBytes x) (ofBytes y)
    ssRecv b rest (shares ++ [v])

/-- Both parties of the secret-sharing protocol. -/
structure StSS (G : Type) where
  p0 : St0 G (Nat × Int)
  p1 : St1 (Ct G × Int)
  shares0 : List Int
  shares1 : List Int

/-- `PartyZeroSecretShare::GetPayload`: party_zero.cc:415-417: the payload is the element itself, the
value of the data set is ignored. -/
def getPayloadSS (p : Nat × Int) : Nat × Int := (p.1, p.1)

/-- The messages of one day of the secret-sharing protocol: party_zero.cc:365-405, 441-457,
party_one.cc:351-428. -/
def daySSBody (c : Codec G) (mont : Int → Option Mont) (a b : TPaillier) (hashOf : Nat → List Bool)
    (pk : PK G) (sk0 sk1 : Int) (s : StSS G) (xs : List (Nat × Int)) (ys : List Nat)
    (ρ : Coins G (Nat × Int) Int) : Outcome (StSS G) := do
  let (p0, p1, cands) ← exchange (funcSS c mont a b) c hashOf pk sk1 s.p0 s.p1 xs ys ρ
  let (sh0, pays) ← ssLoop mont a sk0 ρ.last 0 cands s.shares0 []
  let sh1 ← ssRecv b pays s.shares1
  pure ⟨p0, p1, sh0, sh1⟩

/-- One day with data set rows `xs` (element and value): the rows go through `GetPayload` when they are
loaded (party_zero.cc:76-90). -/
def daySS (c : Codec G) (mont : Int → Option Mont) (a b : TPaillier) (hashOf : Nat → List Bool)
    (pk : PK G) (sk0 sk1 : Int) (s : StSS G) (xs : List (Nat × Int)) (ys : List Nat)
    (ρ : Coins G (Nat × Int) Int) : Outcome (StSS G) :=
  daySSBody c mont a b hashOf pk sk0 sk1 s (xs.map getPayloadSS) ys ρ

end Upsi.Proto
