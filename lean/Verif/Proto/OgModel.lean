import Verif.Proto.AddModel
import Verif.Num.Modular
/-
Model of the original (addition-only, one-sided) protocol: upsi/original/party_one.cc (client) and
upsi/original/party_zero.cc (server).

`H` is the hash to the curve applied to an element's bytes (`GetPointByHashingToCurveSha256`,
modelled in `Verif.Curve`).  Party zero has ElGamal key `a`, party one `b`.  `cu` is the uncompressed
point encoding used for map keys.  Randomness is explicit; a point drawn by hashing a random number
is an arbitrary point.
-/
namespace Upsi.Proto
open Upsi Upsi.ElGamal Upsi.Tree Upsi.Num

variable {G : Type} [AddCommGroup G] [DecidableEq G]

/-- The coins of one day of the original protocol. -/
structure OgCoins (G : Type) where
  /-- path identifiers, paddings and encryption coins of party one's tree update -/
  hsh : List (List Bool)
  pads : Nat → Nat → Nat
  enc : Nat → Nat → Int
  /-- the random point of message II and the coins of its two encryptions -/
  hr : G
  a0 : Int
  a1 : Int
  /-- encryption of party zero's `i`-th element; `beta i j` the mask of its `j`-th candidate -/
  x : Nat → Int
  beta : Nat → Nat → Int
  /-- party one: mask and encryption coin of candidate `j` of set `i`; shuffle of set `i` -/
  gamma : Nat → Nat → Int
  re : Nat → Nat → Int
  shuffle : Nat → List (Ct G) → List (Ct G)
  /-- party zero, message IV: random point resp. mask for set `i` -/
  dummy : Nat → G
  mask : Nat → Int

/-- `OriginalMessage.MessageI` (network/upsi.proto): tree updates and one point per new element. -/
structure OgMsgI where
  updates : Msg EncElem
  ciphertexts : List (List UInt8)

/-- `OriginalMessage.MessageII`. -/
structure OgMsgII where
  alpha : CtProto
  candidates : List (List EncElem)

/-- Party zero's state (party_zero.h:66-80); elements stand for their decimal strings. -/
structure Og0 (G : Type) where
  tree : Tree (Ct G)
  mapping : Mapping
  intersection : List Nat
  masks : List Int

/-- Party one's state (party_one.h:56-58); `lost` is ghost: elements dropped by stash overflow. -/
structure Og1 where
  tree : Tree Nat
  lost : List Nat

/-- Party zero freshly constructed (party_zero.h:19-22). -/
def Og0.init (stash node : Nat) : Og0 G := ⟨Tree.empty stash node, [], [], []⟩
/-- Party one freshly constructed (party_one.h:20-21). -/
def Og1.init (stash node : Nat) : Og1 := ⟨Tree.empty stash node, []⟩

/-- `SendMessageI`: party_one.cc:37-58. -/
def ogSendI (c : Codec G) (H : Nat → G) (hashOf : Nat → List Bool) (pk1 : PK G) (b : Int) (s : Og1)
    (ys : List Nat) (ρ : OgCoins G) : Outcome (Og1 × OgMsgI) := do
  let u ← sendUpdate hashOf id (fun i j y => serNoPayload c (encrypt pk1 (ρ.enc i j) y)) ρ.pads
    s.tree ys ρ.hsh
  let cs ← forIdx (fun _ y => pointToBytes c (b • H y)) 0 ys
  pure (⟨u.tree, s.lost ++ u.lost⟩, ⟨u.msg, cs⟩)

/-- The lookup loop of `SendMessageII`: party_zero.cc:51-58. -/
def ogLookup (c cu : Codec G) (a : Int) (m : Mapping) :
    List (List UInt8) → List Nat → Outcome (List Nat)
  | [], out => .ok out
  | w :: ws, out => do
    let p ← createECPoint c w
    let key ← pointToBytes cu (a • p)
    match m.lookup key with
    | some x => ogLookup c cu a m ws (out ++ [x])
    | none => ogLookup c cu a m ws out

/-- The candidates of one element, serialized: party_zero.cc:75-91 and 94-102. -/
def ogCand (c : Codec G) (hashOf : Nat → List Bool) (pk1 : PK G) (tree : Tree (Ct G)) (alpha : Ct G)
    (ρ : OgCoins G) (i : Nat) (x : Nat) : Outcome (List EncElem) := do
  let path ← getPath tree (hashOf x)
  let ex := encrypt pk1 (ρ.x i) x
  forIdx (fun j y => serNoPayload c (mul alpha (exp (mul ex (invert y)) (ρ.beta i j)))) 0 path

/-- `SendMessageII`: party_zero.cc:43-109. -/
def ogSendII (c cu : Codec G) (hashOf : Nat → List Bool) (pk0 pk1 : PK G) (a : Int) (s : Og0 G)
    (m : OgMsgI) (xs : List Nat) (ρ : OgCoins G) : Outcome (Og0 G × OgMsgII) := do
  let tree ← recvUpdate (deserTreeCt c) s.tree m.updates
  let out ← ogLookup c cu a s.mapping m.ciphertexts s.intersection
  let alpha ← serializeCt c (encryptPoint pk0 ρ.a0 ρ.hr)
  let cands ← forIdx (ogCand c hashOf pk1 tree (encryptPoint pk1 ρ.a1 ρ.hr) ρ) 0 xs
  pure (⟨tree, s.mapping, out, s.masks⟩, ⟨alpha, cands⟩)

/-- One candidate set of `SendMessageIII`: party_one.cc:71-101. -/
def ogSet (c : Codec G) (pk0 : PK G) (b : Int) (minusAlpha : Ct G) (ρ : OgCoins G) (i : Nat)
    (ws : List EncElem) : Outcome (List EncElem) := do
  let cts ← forIdx (fun _ w => deserNoPayload c w) 0 ws
  let outgoing := cts.mapIdx (fun j x =>
    exp (mul (encryptPoint pk0 (ρ.re i j) (decrypt b x)) minusAlpha) (ρ.gamma i j))
  forIdx (fun _ x => serNoPayload c x) 0 (ρ.shuffle i outgoing)

/-- `SendMessageIII`: party_one.cc:60-108.  The message is the list of candidate sets. -/
def ogSendIII (c : Codec G) (pk0 : PK G) (b : Int) (m : OgMsgII) (ρ : OgCoins G) :
    Outcome (List (List EncElem)) := do
  let al ← deserializeCt c m.alpha
  forIdx (ogSet c pk0 b (invert al) ρ) 0 m.candidates

/-- What party zero does with one candidate set in `SendMessageIV`: party_zero.cc:118-156.  Result:
whether the element is pushed to the intersection, the mask remembered, the point sent.
`datasets[current_day][i]` (140, 150) is not bounds-checked. -/
def ogOpen (c : Codec G) (H : Nat → G) (a : Int) (xs : List Nat) (ρ : OgCoins G) (i : Nat)
    (ws : List EncElem) : Outcome (Option Nat × Int × List UInt8) := do
  let cts ← forIdx (fun _ w => deserNoPayload c w) 0 ws
  let x ← vget xs i
  if cts.any (fun ct => decrypt a ct = 0) then
    let w ← pointToBytes c (ρ.dummy i)
    pure (some x, 0, w)
  else
    let w ← pointToBytes c (ρ.mask i • (a • H x))
    pure (none, ρ.mask i, w)

/-- `SendMessageIV`: party_zero.cc:111-167. -/
def ogSendIV (c : Codec G) (H : Nat → G) (a : Int) (s : Og0 G) (sets : List (List EncElem))
    (xs : List Nat) (ρ : OgCoins G) : Outcome (Og0 G × List (List UInt8)) := do
  let rs ← forIdx (ogOpen c H a xs ρ) 0 sets
  pure (⟨s.tree, s.mapping, s.intersection ++ rs.filterMap (·.1), rs.map (·.2.1)⟩, rs.map (·.2.2))

/-- `SendMessageV`: party_one.cc:110-125. -/
def ogSendV (c : Codec G) (b : Int) (ws : List (List UInt8)) : Outcome (List (List UInt8)) :=
  forIdx (fun _ w => do
    let p ← createECPoint c w
    pointToBytes c (b • p)) 0 ws

/-- The loop of `ProcessMessageV`: party_zero.cc:169-180.  `masks[i]` and `datasets[current_day][i]`
are not bounds-checked. -/
def ogRecord (c cu : Codec G) (q : Nat) (masks : List Int) (xs : List Nat) :
    Nat → List (List UInt8) → Mapping → Outcome Mapping
  | _, [], m => .ok m
  | i, w :: ws, m => do
    let k ← vget masks i
    if k = 0 then ogRecord c cu q masks xs (i + 1) ws m
    else
      let p ← createECPoint c w
      let inv ← modInverse k q
      let key ← pointToBytes cu (inv • p)
      let x ← vget xs i
      ogRecord c cu q masks xs (i + 1) ws ((key, x) :: m)

/-- `ProcessMessageV`: party_zero.cc:169-180. -/
def ogProcV (c cu : Codec G) (q : Nat) (s : Og0 G) (ws : List (List UInt8)) (xs : List Nat) :
    Outcome (Og0 G) := do
  let m ← ogRecord c cu q s.masks xs 0 ws s.mapping
  pure ⟨s.tree, m, s.intersection, s.masks⟩

/-- The keys of the original protocol: `H(x)^{ab}` is the stored form of an element. -/
structure OgKeys (G : Type) where
  g : G
  q : Nat
  /-- party zero's and party one's ElGamal secret keys -/
  a : Int
  b : Int

/-- Party zero's public key (elgamal_key_util.cc:37-56). -/
def OgKeys.pk0 (K : OgKeys G) : PK G := ⟨K.g, K.a • K.g⟩
/-- Party one's public key (elgamal_key_util.cc:37-56). -/
def OgKeys.pk1 (K : OgKeys G) : PK G := ⟨K.g, K.b • K.g⟩

/-- Both parties. -/
structure OgSt (G : Type) where
  p0 : Og0 G
  p1 : Og1

/-- One day: party_one.cc:19-35 and party_zero.cc:18-41. -/
def dayOg (K : OgKeys G) (c cu : Codec G) (H : Nat → G) (hashOf : Nat → List Bool) (s : OgSt G)
    (xs ys : List Nat) (ρ : OgCoins G) : Outcome (OgSt G) := do
  let (p1, m1) ← ogSendI c H hashOf K.pk1 K.b s.p1 ys ρ
  let (p0, m2) ← ogSendII c cu hashOf K.pk0 K.pk1 K.a s.p0 m1 xs ρ
  let m3 ← ogSendIII c K.pk0 K.b m2 ρ
  let (p0, m4) ← ogSendIV c H K.a p0 m3 xs ρ
  let m5 ← ogSendV c K.b m4
  let p0 ← ogProcV c cu K.q p0 m5 xs
  pure ⟨p0, p1⟩

/-- One day's inputs. -/
structure OgDay (G : Type) where
  xs : List Nat
  ys : List Nat
  coins : OgCoins G

/-- A run over several days from a given state (party_one.cc:19-35). -/
def runOgFrom (K : OgKeys G) (c cu : Codec G) (H : Nat → G) (hashOf : Nat → List Bool) (s : OgSt G)
    (ds : List (OgDay G)) : Outcome (OgSt G) :=
  runDays (fun s d => dayOg K c cu H hashOf s d.xs d.ys d.coins) s ds

/-- A run from freshly constructed parties (`start_size` 0). -/
def runOg (K : OgKeys G) (c cu : Codec G) (H : Nat → G) (hashOf : Nat → List Bool)
    (stash node : Nat) (ds : List (OgDay G)) : Outcome (OgSt G) :=
  runOgFrom K c cu H hashOf ⟨Og0.init stash node, Og1.init stash node⟩ ds

end Upsi.Proto
