import Verif.Rec.Process
import Verif.Paillier.Model
import Verif.ElGamal.Model
import Verif.Curve.Oracle
/-
Model of key setup: upsi/util/setup_util.cc (keys part), upsi/util/elgamal_key_util.cc,
upsi/util/elgamal_proto_util.cc, the key writing part of upsi/crypto/threshold_paillier.cc and
upsi/crypto/paillier.cc, and of the party constructors that read the keys (upsi/addition/party.h,
upsi/deletion/party.h, upsi/deletion-psi/party.h, upsi/original/party.h).

The protobuf messages are modelled down to their bytes (proto2 wire format).
-/
namespace Upsi.Setup
open Upsi Upsi.Rec Upsi.ElGamal Upsi.Paillier Upsi.Num

/-! ### protobuf wire format -/

/-- A field value on the wire: wire type 0 (varint) or 2 (length-delimited).  The key messages use no
other wire types. -/
inductive WVal where
  | varint (n : Nat)
  | len (b : Bytes)
  deriving DecidableEq

/-- One field: tag, then the value (generated `SerializeWithCachedSizes`; called at proto_util.h:60-65). -/
def encField : Nat × WVal → Bytes
  | (k, .varint n) => writeVarint (8 * k) ++ writeVarint n
  | (k, .len b) => writeVarint (8 * k + 2) ++ (writeVarint b.length ++ b)

/-- The fields of a message in the order of their numbers. -/
def encFields (l : List (Nat × WVal)) : Bytes := l.flatMap encField

/-- Reading a varint of at most `k` bytes. -/
def readVar : Nat → Bytes → Option (Nat × Bytes)
  | 0, _ => none
  | _ + 1, [] => none
  | k + 1, c :: r =>
    if c.toNat < 128 then some (c.toNat, r)
    else match readVar k r with
      | none => none
      | some (v, r') => some (c.toNat % 128 + 128 * v, r')

/-- `ParseFromArray`: proto_util.h:52-58.  The boolean result is ignored by `FromString`, so a malformed
message yields the fields read before the malformed place.  Simplification: fixed-size and group fields
are treated as malformed. -/
def parseFields : Nat → Bytes → List (Nat × WVal)
  | 0, _ => []
  | n + 1, b =>
    match readVar 5 b with
    | none => []
    | some (tag, r) =>
      if tag % 8 = 0 then
        match readVar 10 r with
        | none => []
        | some (v, r') => (tag / 8, .varint (v % 2 ^ 64)) :: parseFields n r'
      else if tag % 8 = 2 then
        match readVar 5 r with
        | none => []
        | some (l, r') =>
          if r'.length < l then [] else (tag / 8, .len (r'.take l)) :: parseFields n (r'.drop l)
      else []

/-- All fields of a serialized message. -/
def parseMsg (b : Bytes) : List (Nat × WVal) := parseFields b.length b

/-- Getter of an `optional bytes` field: the last occurrence, empty when absent. -/
def getBytes (k : Nat) (l : List (Nat × WVal)) : Bytes :=
  l.foldl (fun acc f => match f with | (n, .len b) => if n = k then b else acc | _ => acc) []

/-- Getter of an `optional int32` field: the last occurrence reduced to 32 bits, 0 when absent. -/
def getInt32 (k : Nat) (l : List (Nat × WVal)) : Int :=
  int32 (l.foldl (fun acc f => match f with | (n, .varint v) => if n = k then (v : Int) else acc | _ => acc) 0)

/-! ### the key messages -/

/-- `ElGamalPublicKey`: elgamal.proto:43-47 (`p` is never set). -/
structure PkProto where
  g : Bytes
  y : Bytes
  deriving DecidableEq

def PkProto.ser (m : PkProto) : Bytes := encFields [(2, .len m.g), (3, .len m.y)]
def PkProto.parse (b : Bytes) : PkProto := ⟨getBytes 2 (parseMsg b), getBytes 3 (parseMsg b)⟩

/-- `ElGamalSecretKey`: elgamal.proto:66-68. -/
structure SkProto where
  x : Bytes
  deriving DecidableEq

def SkProto.ser (m : SkProto) : Bytes := encFields [(1, .len m.x)]
def SkProto.parse (b : Bytes) : SkProto := ⟨getBytes 1 (parseMsg b)⟩

/-- `ThresholdPaillierKey`: paillier.proto:39-46. -/
structure TkProto where
  n : Bytes
  share : Bytes
  deriving DecidableEq

def TkProto.ser (m : TkProto) : Bytes := encFields [(1, .len m.n), (2, .len m.share)]
def TkProto.parse (b : Bytes) : TkProto := ⟨getBytes 1 (parseMsg b), getBytes 2 (parseMsg b)⟩

/-- `PaillierPublicKey`: paillier.proto:21-27; `s` is a positive `int32`. -/
structure PubProto where
  n : Bytes
  s : Nat
  deriving DecidableEq

def PubProto.ser (m : PubProto) : Bytes := encFields [(1, .len m.n), (2, .varint m.s)]
def PubProto.parse (b : Bytes) : PubProto := ⟨getBytes 1 (parseMsg b), (getInt32 2 (parseMsg b)).toNat⟩

/-- `PaillierPrivateKey`: paillier.proto:29-37. -/
structure PrivProto where
  p : Bytes
  q : Bytes
  s : Nat
  deriving DecidableEq

def PrivProto.ser (m : PrivProto) : Bytes := encFields [(1, .len m.p), (2, .len m.q), (3, .varint m.s)]
def PrivProto.parse (b : Bytes) : PrivProto :=
  ⟨getBytes 1 (parseMsg b), getBytes 2 (parseMsg b), (getInt32 3 (parseMsg b)).toNat⟩

/-! ### file names -/

/-- POSIX path resolution treats repeated slashes as one; two names with the same result denote the same
file.  Links and `.`/`..` components are not modelled. -/
def squeeze : List Char → List Char
  | [] => []
  | c :: r => if c = '/' ∧ (squeeze r).head? = some '/' then squeeze r else c :: squeeze r

def canon (s : String) : String := String.ofList (squeeze s.toList)

/-- `ProtoUtils::WriteProtoToFile`: proto_util.h:95-101. -/
def writeKey {M : Type} (ser : M → Bytes) (m : M) (name : String) (fs : FS) : Outcome FS :=
  writeProtoToFile ser (canon name) m fs

/-- `ProtoUtils::ReadProtoFromFile`: proto_util.h:67-77. -/
def readKey {M : Type} (parse : Bytes → M) (name : String) (fs : FS) : Outcome M :=
  readProtoFromFile parse (canon name) fs

/-! ### ElGamal keys -/

section
variable {G : Type} [AddCommGroup G] [DecidableEq G]

/-- `SerializePublicKey`: elgamal_proto_util.cc:24-32. -/
def serializePublicKey (c : Codec G) (pk : PK G) : Outcome PkProto := do
  let g ← pointToBytes c pk.g
  let y ← pointToBytes c pk.y
  pure ⟨g, y⟩

/-- `DeserializePublicKey`: elgamal_proto_util.cc:50-58. -/
def deserializePublicKey (c : Codec G) (m : PkProto) : Outcome (PK G) := do
  let g ← createECPoint c m.g
  let y ← createECPoint c m.y
  pure ⟨g, y⟩

/-- `SerializePrivateKey`: elgamal_proto_util.cc:43-48. -/
def serializePrivateKey (x : Int) : Outcome SkProto := do
  let b ← toBytes x
  pure ⟨b⟩

/-- `DeserializePrivateKey`: elgamal_proto_util.cc:60-64. -/
def deserializePrivateKey (m : SkProto) : Outcome Int := pure (ofBytes m.x)

/-- `GenerateElGamalKeyPair` (to files): elgamal_key_util.cc:37-54. -/
def generateElGamalKeyPair (c : Codec G) (g : G) (order coin : Nat) (pubFn prvFn : String) (fs : FS) : Outcome FS := do
  let x ← Curve.generatePrivateKey coin order
  let key := keyPair g x
  let pub ← serializePublicKey c key.1
  let prv ← serializePrivateKey key.2
  let fs ← writeKey PkProto.ser pub pubFn fs
  writeKey SkProto.ser prv prvFn fs

/-- The reading loop of `ComputeJointElGamalPublicKey`: elgamal_key_util.cc:67-74. -/
def readShares (c : Codec G) (fs : FS) : List String → Outcome (List (PK G))
  | [] => pure []
  | f :: r => do
    let m ← readKey PkProto.parse f fs
    let k ← deserializePublicKey c m
    let ks ← readShares c fs r
    pure (k :: ks)

/-- `ComputeJointElGamalPublicKey`: elgamal_key_util.cc:56-83. -/
def computeJointElGamalPublicKey (c : Codec G) (files : List String) (outFn : String) (fs : FS) : Outcome FS :=
  if files.isEmpty then
    .err "elgmal_key_util::ComputeJointElGamalPublicKey() : empty shares files provided"
  else do
    let shares ← readShares c fs files
    let joint ← fromShares shares
    let m ← serializePublicKey c joint
    writeKey PkProto.ser m outFn fs

/-! ### Paillier keys -/

/-- The messages made at threshold_paillier.cc:55-63. -/
def tkProto (k : TKey) : Outcome TkProto := do
  let n ← toBytes k.n
  let s ← toBytes k.share
  pure ⟨n, s⟩

/-- The constructor from the message: threshold_paillier.cc:86-87. -/
def TkProto.key (m : TkProto) : TKey := ⟨ofBytes m.n, ofBytes m.share⟩

/-- The random choices of threshold Paillier key generation: the two safe primes and the three draws
(threshold_paillier.cc:20-49). -/
structure TCoins where
  p : Int
  q : Int
  r1 : Int
  r2 : Int
  sk1 : Int

/-- `GenerateThresholdPaillierKeys` (to files): threshold_paillier.cc:66-80. -/
def generateThresholdPaillierKeys (k : TCoins) (fn0 fn1 : String) (fs : FS) : Outcome FS := do
  let (k0, k1) ← thresholdKeys k.p k.q k.r1 k.r2 k.sk1
  let m0 ← tkProto k0
  let m1 ← tkProto k1
  let fs ← writeKey TkProto.ser m0 fn0 fs
  writeKey TkProto.ser m1 fn1 fs

/-- The messages of `GeneratePaillierKeyPair`: paillier.cc:195-219; `p`, `q` are the generated safe primes
(redrawn until they differ). -/
def paillierKeyPair (modLength : Int) (p q : Int) (s : Nat) : Outcome (PubProto × PrivProto) := do
  if modLength.tdiv 2 ≤ 0 ∨ s = 0 then
    .err "GeneratePaillierKeyPair: modulus_length/2 and s must each be >0"
  else
    let pb ← toBytes p
    let qb ← toBytes q
    let nb ← toBytes (p * q)
    pure (⟨nb, s⟩, ⟨pb, qb, s⟩)

/-! ### setup_util.cc -/

/-- `GenerateThresholdKeys`: setup_util.cc:19-83. -/
def generateThresholdKeys (c : Codec G) (g : G) (order coin0 coin1 : Nat) (k : TCoins) (p0Dir p1Dir : String)
    (fs : FS) : Outcome FS := do
  let fs ← generateElGamalKeyPair c g order coin0 (p0Dir ++ "/elgamal.pub") (p0Dir ++ "/elgamal.key") fs
  let fs ← generateElGamalKeyPair c g order coin1 (p1Dir ++ "/elgamal.pub") (p1Dir ++ "/elgamal.key") fs
  let fs ← computeJointElGamalPublicKey c [p0Dir ++ "elgamal.pub", p1Dir ++ "elgamal.pub"] (p0Dir ++ "shared.pub") fs
  let fs ← computeJointElGamalPublicKey c [p0Dir ++ "elgamal.pub", p1Dir ++ "elgamal.pub"] (p1Dir ++ "shared.pub") fs
  generateThresholdPaillierKeys k (p0Dir ++ "paillier.key") (p1Dir ++ "paillier.key") fs

/-- `GeneratePaillierKeys`: setup_util.cc:85-127. -/
def generatePaillierKeys (modLength p0 q0 p1 q1 : Int) (p0Dir p1Dir : String) (fs : FS) : Outcome FS := do
  let k0 ← paillierKeyPair modLength p0 q0 1
  let k1 ← paillierKeyPair modLength p1 q1 1
  let fs ← writeKey PubProto.ser k0.1 (p1Dir ++ "paillier.pub") fs
  let fs ← writeKey PrivProto.ser k0.2 (p0Dir ++ "paillier.key") fs
  let fs ← writeKey PubProto.ser k1.1 (p0Dir ++ "paillier.pub") fs
  writeKey PrivProto.ser k1.2 (p1Dir ++ "paillier.key") fs

/-- `GenerateElGamalKeys`: setup_util.cc:129-162. -/
def generateElGamalKeys (c : Codec G) (g : G) (order coin0 coin1 : Nat) (p0Dir p1Dir : String) (fs : FS) : Outcome FS := do
  let fs ← generateElGamalKeyPair c g order coin0 (p0Dir ++ "/elgamal.pub") (p0Dir ++ "/elgamal.key") fs
  generateElGamalKeyPair c g order coin1 (p1Dir ++ "/elgamal.pub") (p1Dir ++ "/elgamal.key") fs

/-- Key generation in the three `setup.cc` programs: addition/setup.cc:135-141, original/setup.cc:148-152,
deletion/setup.cc:85-91 and deletion-psi/setup.cc (same lines). -/
def setupAddition (c : Codec G) (g : G) (order coin0 coin1 : Nat) (k : TCoins) (outDir : String) : FS → Outcome FS :=
  generateThresholdKeys c g order coin0 coin1 k (outDir ++ "p0/") (outDir ++ "p1/")
def setupOriginal (c : Codec G) (g : G) (order coin0 coin1 : Nat) (outDir : String) : FS → Outcome FS :=
  generateElGamalKeys c g order coin0 coin1 (outDir ++ "p0/") (outDir ++ "p1/")
def setupDeletion (modLength p0 q0 p1 q1 : Int) (outDir : String) : FS → Outcome FS :=
  generatePaillierKeys modLength p0 q0 p1 q1 (outDir ++ "p0/") (outDir ++ "p1/")

/-! ### reading the keys -/

/-- `StatusOr::value()` on the result of a read: the `std::runtime_error` after a failed read is
constructed but not thrown, so the process dies in `value()`. -/
def valueOf {A : Type} : Outcome A → Outcome A
  | .ok a => .ok a
  | .err _ => .abort
  | .abort => .abort
  | .ub => .ub

/-- The keys of an addition-only party. -/
structure AddKeys (G : Type) where
  pk : PK G
  sk : Int
  paillier : TKey

/-- Constructor of `addonly::Party`: addition/party.h:28-54, with the names of addition/run.cc:49-55 and
111-117. -/
def additionParty (c : Codec G) (outDir party : String) (fs : FS) : Outcome (AddKeys G) := do
  let epk ← valueOf (readKey PkProto.parse (outDir ++ party ++ "/shared.pub") fs)
  let pk ← valueOf (deserializePublicKey c epk)
  let esk ← valueOf (readKey SkProto.parse (outDir ++ party ++ "/elgamal.key") fs)
  let sk ← valueOf (deserializePrivateKey esk)
  let psk ← valueOf (readKey TkProto.parse (outDir ++ party ++ "/paillier.key") fs)
  pure ⟨pk, sk, psk.key⟩

/-- The keys of a party of the original protocol. -/
structure OgKeysRead (G : Type) where
  mine : PK G
  theirs : PK G
  sk : Int

/-- Constructor of `original::Party`: original/party.h:33-68, names of original/run.cc:48-54 and 108-114. -/
def originalParty (c : Codec G) (outDir me other : String) (fs : FS) : Outcome (OgKeysRead G) := do
  let a ← valueOf (readKey PkProto.parse (outDir ++ me ++ "/elgamal.pub") fs)
  let mine ← valueOf (deserializePublicKey c a)
  let b ← valueOf (readKey PkProto.parse (outDir ++ other ++ "/elgamal.pub") fs)
  let theirs ← valueOf (deserializePublicKey c b)
  let esk ← valueOf (readKey SkProto.parse (outDir ++ me ++ "/elgamal.key") fs)
  let sk ← valueOf (deserializePrivateKey esk)
  pure ⟨mine, theirs, sk⟩

end

/-- Constructor of `deletion::Party` / the deletion-PSI party: deletion/party.h:36-52,
deletion-psi/party.h:35-51, names of deletion/run.cc:52-57 and 148-153; `x` is the coin of the public-key
object, `tries` the bound on generator tries (`kGeneratorTryCount`). -/
def deletionParty (tries : Nat) (x : Int) (outDir party : String) (fs : FS) : Outcome (Private × Public) := do
  let sk ← valueOf (readKey PrivProto.parse (outDir ++ party ++ "/paillier.key") fs)
  let priv ← Private.new tries (ofBytes sk.p) (ofBytes sk.q) sk.s
  let pk ← valueOf (readKey PubProto.parse (outDir ++ party ++ "/paillier.pub") fs)
  let pub ← Public.new x (ofBytes pk.n) pk.s
  pure (priv, pub)

end Upsi.Setup
