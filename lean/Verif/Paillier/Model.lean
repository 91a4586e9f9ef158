import Verif.Num.Modular
/-
Model of upsi/crypto/paillier.cc (Damgard-Jurik generalisation with parameter `s`; the protocols use
`s = 1`) and upsi/crypto/threshold_paillier.cc.  `BigNum`s are `Int`s.  Randomness is explicit.
`FixedBaseExp` objects are the function `fixedBaseExp` (Num/Modular.lean) with the strategy chosen by
`mont : Int → Option Mont` (the Montgomery context of a modulus when the 2^k-ary strategy is on).
-/
namespace Upsi.Paillier
open Upsi Upsi.Num

/-- Loop of `GetPowers`: paillier.cc:121-128; the powers from the current one on. -/
def powersGo (num : Int) : Nat → Int → List Int
  | 0, last => [last]
  | k + 1, last => last :: powersGo num k (last * num)

/-- `GetPowers`: paillier.cc:121-128: `num^i` for `i` in `[0, s+1]`. -/
def getPowers (num : Int) (s : Nat) : List Int := powersGo num (s + 1) 1

/-- Loop of `GetPrecomp`: paillier.cc:135-139; `i` is the index of `last`, `k` the number of entries
still to compute. -/
def precompGo (num modulus : Int) : Nat → Nat → Int → Outcome (List Int)
  | 0, _, last => .ok [last]
  | k + 1, i, last => do
    let iInv ← value (modInverse ((i : Int) + 1) modulus)
    let iInvN ← modMul iInv num modulus
    let next ← modMul last iInvN modulus
    let rest ← precompGo num modulus k (i + 1) next
    pure (last :: rest)

/-- `GetPrecomp`: paillier.cc:131-141. -/
def getPrecomp (num modulus : Int) (s : Nat) : Outcome (List Int) := precompGo num modulus s 0 1

/-- `BigNumTable` (paillier.cc:40-82): a map from index pairs to numbers. -/
abbrev Table := List ((Nat × Nat) × Int)

/-- `BigNumTable::Get`: paillier.cc:69-77; a missing entry is fatal. -/
def Table.get (t : Table) (k j : Nat) : Outcome Int :=
  match t.lookup (k, j) with | some v => .ok v | none => .abort

/-- Inner loop of `GetDecryptPrecomp`: paillier.cc:163-165; fills `(k, j)` for `j = s-1` down to `k`,
`v` is the entry at `j + 1`. -/
def tableRow (powers : List Int) (k : Nat) : Nat → Int → Table → Outcome Table
  | 0, _, t => .ok t
  | j + 1, v, t =>
    if j + 1 < k then .ok t
    else do
      let pj ← vget powers (j + 1)
      let v' ← mod v pj
      tableRow powers k j v' (((k, j + 1), v') :: t)

/-- Outer loop of `GetDecryptPrecomp`: paillier.cc:160-166; `cnt` rows starting at `k`. -/
def tableGo (precomp powers : List Int) (s : Nat) : Nat → Nat → Table → Outcome Table
  | 0, _, t => .ok t
  | c + 1, k, t => do
    let ps ← vget powers s
    let kInv ← value (modInverse k ps)
    let pre ← vget precomp (k - 1)
    let v ← modMul kInv pre ps
    let t' ← tableRow powers k (s - 1) v (((k, s), v) :: t)
    tableGo precomp powers s c (k + 1) t'

/-- `GetDecryptPrecomp`: paillier.cc:145-168 (rows `k = 2..s`). -/
def getDecryptPrecomp (precomp powers : List Int) (s : Nat) : Outcome Table :=
  tableGo precomp powers s (s - 1) 2 []

/-- Loop of `ComputeByBinomialExpansion`: paillier.cc:182-189; `k` iterations left, next index `j`. -/
def binGo (precomp powers : List Int) (s : Nat) (red : Int) : Nat → Nat → Int → Int → Outcome Int
  | 0, _, _, c => .ok c
  | k + 1, j, tmp, c =>
    if red < j then .ok c
    else do
      let m1 ← vget powers (s - j + 1)
      let tmp' ← modMul tmp (red - j + 1) m1
      let pj ← vget precomp j
      let ms ← vget powers (s + 1)
      let x ← modMul tmp' pj ms
      binGo precomp powers s red k (j + 1) tmp' (c + x)

/-- `ComputeByBinomialExpansion`: paillier.cc:172-191 (`s = precomp.size() - 1`). -/
def binomialExpansion (precomp powers : List Int) (message : Int) : Outcome Int := do
  let s := precomp.length - 1
  let ps ← vget powers s
  let red ← mod message ps
  binGo precomp powers s red s 1 1 1

/-! ### generators -/

/-- Loop of `GetGeneratorForSafePrime`: paillier.cc:89-95 (`kGeneratorTryCount` tries; fatal when
exhausted). -/
def genSafeGo (p q : Int) : Nat → Int → Outcome Int
  | 0, _ => .abort
  | k + 1, g => do
    let a ← modSqr g p
    let b ← modExp g q p
    if a = 1 ∨ b = 1 then genSafeGo p q k (g + 1) else pure g

/-- `GetGeneratorForSafePrime`: paillier.cc:85-99 (`CHECK(p.IsSafePrime())` is a hypothesis of the
theorems). -/
def genSafePrime (tries : Nat) (p : Int) : Outcome Int := do
  let q ← div (p - 1) 2
  genSafeGo p q tries 2

/-- `GetGeneratorForSafeModulus`: paillier.cc:103-109; `x` is the random number drawn by
`RelativelyPrimeRandomLessThan`. -/
def genSafeModulus (x n : Int) : Outcome Int := do
  let y ← modSqr x n
  pure (n - y)

/-- `GetGeneratorOfPrimePowersFromSafePrime`: paillier.cc:112-118. -/
def genPrimePowers (tries : Nat) (p : Int) : Outcome Int := do
  let g ← genSafePrime tries p
  let y ← modExp g (p - 1) (p * p)
  pure (if y = 1 then g + p else g)

/-! ### PublicPaillier -/

/-- `PublicPaillier`: paillier.h (fields), constructor paillier.cc:360-369. -/
structure Public where
  n : Int
  s : Nat
  powers : List Int
  modulus : Int
  gn : Int
  precomp : List Int

/-- Constructor `PublicPaillier(ctx, n, s)`: paillier.cc:360-369; `x` is the coin of the generator. -/
def Public.new (x n : Int) (s : Nat) : Outcome Public := do
  let powers := getPowers n s
  let modulus ← vget powers (s + 1)
  let g ← genSafeModulus x n
  let ns ← vget powers s
  let gn ← modExp g ns modulus
  let precomp ← getPrecomp n modulus s
  pure ⟨n, s, powers, modulus, gn, precomp⟩

/-- `PublicPaillier::Add`: paillier.cc:382-385. -/
def Public.add (k : Public) (a b : Int) : Outcome Int := modMul a b k.modulus

/-- `PublicPaillier::Multiply`: paillier.cc:387-389. -/
def Public.multiply (k : Public) (c m : Int) : Outcome Int := modExp c m k.modulus

/-- `EncryptUsingGeneratorAndRand`: paillier.cc:407-416. -/
def Public.encryptWithGen (mont : Int → Option Mont) (k : Public) (m r : Int) : Outcome Int := do
  if r > k.n then .err "PublicPaillier: The given random is not less than or equal to n."
  else
    let c ← binomialExpansion k.precomp k.powers m
    let gr ← fixedBaseExp (mont k.modulus) k.gn k.modulus r
    modMul c gr k.modulus

/-- `PublicPaillier::Encrypt`: paillier.cc:395-405; `r` drawn below `n`. -/
def Public.encrypt (mont : Int → Option Mont) (k : Public) (m r : Int) : Outcome Int := do
  if m < 0 then .err "PublicPaillier::Encrypt() - Cannot encrypt negative number."
  else
    let ns ← vget k.powers k.s
    if m ≥ ns then .err "PublicPaillier::Encrypt() - Message not smaller than n^s."
    else k.encryptWithGen mont m r

/-- `PublicPaillier::EncryptWithRand`: paillier.cc:418-426. -/
def Public.encryptWithRand (k : Public) (m r : Int) : Outcome Int := do
  if Int.gcd r k.n ≠ 1 then .err "PublicPaillier::EncryptWithRand: The given random is not in Z*n."
  else
    let c ← binomialExpansion k.precomp k.powers m
    let ns ← vget k.powers k.s
    let rn ← modExp r ns k.modulus
    modMul c rn k.modulus

/-- `PublicPaillier::ReRand`: paillier.cc:435-439. -/
def Public.reRand (mont : Int → Option Mont) (k : Public) (c r : Int) : Outcome Int := do
  let gr ← fixedBaseExp (mont k.modulus) k.gn k.modulus r
  modMul c gr k.modulus

/-! ### PrimeCrypto and PrivatePaillier -/

/-- `PrimeCrypto`: paillier.cc:229-312 (fields 299-311). -/
structure Prime where
  p : Int
  n : Int
  s : Nat
  powers : List Int
  precomp : List Int
  lambdaInv : Int
  otherInv : Int
  table : Table
  gpn : Int
  g : Int

/-- Constructor of `PrimeCrypto`: paillier.cc:233-249.  `gpn` is the fixed base
`g_p^(n^s) mod p^(s+1)`, `g` is `g_p_`. -/
def Prime.new (tries : Nat) (p other : Int) (s : Nat) : Outcome Prime := do
  let n := p * other
  let powers := getPowers p s
  let ps1 ← vget powers (s + 1)
  let ps ← vget powers s
  let precomp ← getPrecomp n ps1 s
  let lambdaInv ← value (modInverse (p - 1) ps)
  let otherInv ← value (modInverse other ps)
  let table ← getDecryptPrecomp precomp powers s
  let g ← genPrimePowers tries p
  let gpn ← modExp g (n ^ s) ps1
  pure ⟨p, n, s, powers, precomp, lambdaInv, otherInv, table, gpn, g⟩

/-- `PrimeCrypto::EncryptWithRand`: paillier.cc:261-265. -/
def Prime.encrypt (mont : Int → Option Mont) (k : Prime) (m r : Int) : Outcome Int := do
  let cp ← binomialExpansion k.precomp k.powers m
  let ps1 ← vget k.powers (k.s + 1)
  let gr ← fixedBaseExp (mont ps1) k.gpn ps1 r
  modMul cp gr ps1

/-- `LFunc`: paillier.cc:295-298. -/
def Prime.lFunc (k : Prime) (c : Int) : Outcome Int := do
  let x ← div (c - 1) k.p
  let ps ← vget k.powers k.s
  modMul x k.otherInv ps

/-- Inner loop of `PrimeCrypto::Decrypt`: paillier.cc:280-284; `cnt` iterations from `kk` on. -/
def decInner (tbl : Table) (pj : Int) (j : Nat) : Nat → Nat → Int → Int → Int → Outcome Int
  | 0, _, _, _, t1 => .ok t1
  | cnt + 1, kk, ml, t2, t1 => do
    let ml' := ml - 1
    let t2' ← modMul t2 ml' pj
    let d ← tbl.get kk j
    decInner tbl pj j cnt (kk + 1) ml' t2' (t1 - t2' * d)

/-- Outer loop of `PrimeCrypto::Decrypt`: paillier.cc:274-286. -/
def decOuter (tbl : Table) (powers : List Int) (lu : Int) : Nat → Nat → Int → Outcome Int
  | 0, _, ml => .ok ml
  | cnt + 1, j, ml => do
    let pj ← vget powers j
    let t1 ← mod lu pj
    let ml' ← decInner tbl pj j (j - 1) 2 ml ml t1
    decOuter tbl powers lu cnt (j + 1) ml'

/-- `PrimeCrypto::Decrypt`: paillier.cc:269-288. -/
def Prime.decrypt (k : Prime) (c : Int) : Outcome Int := do
  let ps1 ← vget k.powers (k.s + 1)
  let x ← modExp c (k.p - 1) ps1
  let lu ← k.lFunc x
  let ml ← decOuter k.table k.powers lu k.s 1 0
  let ps ← vget k.powers k.s
  modMul ml k.lambdaInv ps

/-- `PrivatePaillier`: paillier.h (fields), paillier.cc:443-459. -/
structure Private where
  ns : Int
  ns1 : Int
  pc : Prime
  qc : Prime
  crtEnc : Crt
  crtDec : Crt

/-- Constructor: paillier.cc:443-459. -/
def Private.new (tries : Nat) (p q : Int) (s : Nat) : Outcome Private := do
  let ns := (p * q) ^ s
  let pc ← Prime.new tries p q s
  let qc ← Prime.new tries q p s
  let p1 ← vget pc.powers (s + 1)
  let q1 ← vget qc.powers (s + 1)
  let e ← Crt.new p1 q1
  let p0 ← vget pc.powers s
  let q0 ← vget qc.powers s
  let d ← Crt.new p0 q0
  pure ⟨ns, ns * p * q, pc, qc, e, d⟩

/-- `PrivatePaillier::Encrypt`: paillier.cc:461-473; `rp`, `rq` are drawn in `[1, p)` and `[1, q)`. -/
def Private.encrypt (mont : Int → Option Mont) (k : Private) (m rp rq : Int) : Outcome Int := do
  if m < 0 then .err "PrivatePaillier::Encrypt() - Cannot encrypt negative number."
  else if m ≥ k.ns then .err "PrivatePaillier::Encrypt() - Message not smaller than n^s."
  else
    let a ← k.pc.encrypt mont m rp
    let b ← k.qc.encrypt mont m rq
    k.crtEnc.compute a b

/-- `PrivatePaillier::Decrypt`: paillier.cc:478-489. -/
def Private.decrypt (k : Private) (c : Int) : Outcome Int := do
  if c < 0 then .err "PrivatePaillier::Decrypt() - Cannot decrypt negative number."
  else if c ≥ k.ns1 then .err "PrivatePaillier::Decrypt() - Ciphertext not smaller than n^(s+1)."
  else
    let a ← k.pc.decrypt c
    let b ← k.qc.decrypt c
    k.crtDec.compute a b

/-- `PrimeCryptoWithRand::EncryptAndGetRand`: paillier.cc:342-347; `r` is drawn in `[1, p)`; `exp_for_report_` is the fixed
base `g_p` (paillier.cc:318-323). -/
def Prime.encryptAndGetRand (mont : Int → Option Mont) (k : Prime) (m r : Int) : Outcome (Int × Int) := do
  let ct ← k.encrypt mont m r
  let ps1 ← vget k.powers (k.s + 1)
  let e ← fixedBaseExp (mont ps1) k.g ps1 r
  pure (ct, e)

/-- `PrivatePaillierWithRand` (constructor paillier.cc:491-501, `EncryptAndGetRand` 509-529); `rp`, `rq` are drawn in `[1, p)`
and `[1, q)`; the CRT object for the random numbers is built from `GetPToExp(1)` of both primes. -/
def Private.encryptAndGetRand (mont : Int → Option Mont) (k : Private) (m rp rq : Int) : Outcome (Int × Int) := do
  let p ← vget k.pc.powers 1
  let q ← vget k.qc.powers 1
  let crtRand ← Crt.new p q
  if m < 0 then .err "PrivatePaillier::Encrypt() - Cannot encrypt negative number."
  else if m ≥ k.ns then .err "PrivatePaillier::Encrypt() - Message not smaller than n^s."
  else
    let a ← k.pc.encryptAndGetRand mont m rp
    let b ← k.qc.encryptAndGetRand mont m rq
    let c ← k.crtEnc.compute a.1 b.1
    let r ← crtRand.compute a.2 b.2
    pure (c, r)

/-- `PublicPaillier::EncryptAndGetRand`: paillier.cc:428-433; `r` is the unit below `n` drawn by
`RelativelyPrimeRandomLessThan`. -/
def Public.encryptAndGetRand (k : Public) (m r : Int) : Outcome (Int × Int) := do
  let c ← k.encryptWithRand m r
  pure (c, r)

/-! ### threshold_paillier.cc -/

/-- `ThresholdPaillierKey` (protobuf): modulus and share.  Both are serialized as bytes
(non-negative). -/
structure TKey where
  n : Int
  share : Int
  deriving DecidableEq

/-- `GenerateThresholdPaillierKeys`: threshold_paillier.cc:11-64.  `p`, `q` are the generated safe
primes (not checked to be distinct), `r1`, `r2`, `sk1` the random draws. -/
def thresholdKeys (p q r1 r2 sk1 : Int) : Outcome (TKey × TKey) := do
  let n := p * q
  let phi := n - p - q + 1
  let r0 := phi * r1 + n * r2
  let r0inv ← value (modInverse r0 n)
  let d := r1 * phi * r0inv
  let dphi ← mod d phi
  if dphi ≠ 0 then .err "d != 0 mod phi(n) "
  else
    let dn ← mod d n
    if dn ≠ 1 then .err "d != 1 mod n "
    else
      let sk2 := d - sk1
      if sk1 + sk2 ≠ d then .err "Secret keys aren't correctly an additive share of d."
      else if sk1 < 0 ∨ sk2 < 0 then .abort
      else pure (⟨n, sk1⟩, ⟨n, sk2⟩)

/-- `ThresholdPaillier::PartialDecrypt`: threshold_paillier.cc:101-115. -/
def partialDecrypt (k : TKey) (c : Int) : Outcome Int :=
  if c < 0 then .err "ThresholdPaillier::PartialDecrypt() - Cannot decrypt negative number."
  else if c ≥ k.n * k.n then
    .err "ThresholdPaillier::PartialDecrypt() - Ciphertext not smaller than n^(s+1)."
  else modExp c k.share (k.n * k.n)

/-- `ThresholdPaillier::Decrypt`: threshold_paillier.cc:116-147. -/
def decryptT (k : TKey) (c part : Int) : Outcome Int := do
  if c < 0 then .err "ThresholdPaillier::Decrypt() - Cannot decrypt negative number."
  else if part < 0 then .err "ThresholdPaillier::Decrypt() - Cannot decrypt with negative partial."
  else if c ≥ k.n * k.n then
    .err "ThresholdPaillier::Decrypt() - Ciphertext not smaller than n^(s+1)."
  else if part ≥ k.n * k.n then
    .err "ThresholdPaillier::Decrypt() - Partial ciphertext not smaller than n^(s+1)."
  else
    let ours ← partialDecrypt k c
    let x ← modMul part ours (k.n * k.n)
    div (x - 1) k.n

/-- `ThresholdPaillier::Add`: threshold_paillier.cc:149-154. -/
def addT (k : TKey) (a b : Int) : Outcome Int := modMul a b (k.n * k.n)

end Upsi.Paillier
