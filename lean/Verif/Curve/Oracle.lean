import Verif.Num.Modular
/-
Model of the hashing and sampling functions of `upsi/crypto/context.cc`.  The hash functions SHA-256/384/512
and HMAC-SHA-512 are arbitrary functions on byte strings.  The coins of `BN_rand_range` are explicit arguments.
-/
namespace Upsi.Curve
open Upsi Upsi.Num

abbrev Bytes := List UInt8

/-- `BigNum::BitLength` of a non-negative number (`BN_num_bits`): big_num.cc:118. -/
def bitLength (n : Nat) : Nat := if n = 0 then 0 else n.log2 + 1

/-- The loop of `Context::RandomOracle`: context.cc:112-125 (`i` from the current index, `k` rounds left).
`CreateBigNum(i).ToBytes()` is `natBytes i`; `Lshift(len)` is multiplication by `2^len`. -/
def oracleGo (H : Bytes → Bytes) (len : Nat) (x : Bytes) : Nat → Nat → Nat → Nat
  | 0, _, acc => acc
  | k + 1, i, acc => oracleGo H len x k (i + 1) (acc * 2 ^ len + ofBytes (H (natBytes i ++ x)))

/-- `Context::RandomOracle`: context.cc:95-126, with `H` the hash of output length `len` bits chosen at lines
97-102.  `std::ceil(float/int)` is the integer ceiling (exact for all sizes that pass the `CHECK`). -/
def randomOracle (H : Bytes → Bytes) (len : Nat) (x : Bytes) (maxValue : Nat) : Outcome Nat :=
  let outBits := bitLength maxValue + len
  let iters := (outBits + len - 1) / len
  if iters * len < 130048 then
    let excess := iters * len - outBits
    if maxValue = 0 then .abort
    else .ok (oracleGo H len x iters 1 0 / 2 ^ excess % maxValue)
  else .abort

/-- The recursion of `Context::PRF`: context.cc:143-166 after its two `CHECK`s (they do not depend on `data`,
so the recursive calls pass them too).  `fuel` bounds the number of HMAC evaluations; `none`: still running. -/
def prfGo (mac : Bytes → Bytes → Bytes) (key : Bytes) (maxValue : Nat) : Nat → Bytes → Option Nat
  | 0, _ => none
  | fuel + 1, data =>
    let h := ofBytes (mac key data)
    let r := getLastNBits h (bitLength maxValue)
    if r < maxValue then some r else prfGo mac key maxValue fuel (natBytes h)

/-- `Context::PRF`: context.cc:143-166. -/
def prf (mac : Bytes → Bytes → Bytes) (key data : Bytes) (maxValue : Nat) (fuel : Nat) : Outcome (Option Nat) :=
  if key.length * 8 < 80 then .abort
  else if bitLength maxValue > 512 then .abort
  else .ok (prfGo mac key maxValue fuel data)

/-- `Context::GenerateRandLessThan`: context.cc:182-186.  `BN_rand_range` draws a number below the bound (here:
the coin reduced modulo the bound) and fails on zero or negative bounds. -/
def randLessThan (coin : Nat) (maxValue : Int) : Outcome Int :=
  if maxValue ≤ 0 then .abort else .ok ((coin : Int) % maxValue)

/-- `Context::GenerateRandBetween`: context.cc:188-191. -/
def randBetween (coin : Nat) (start stop : Int) : Outcome Int :=
  if start < stop then do
    let r ← randLessThan coin (stop - start)
    pure (r + start)
  else .abort

/-- `Context::RelativelyPrimeRandomLessThan`: context.cc:201-207, one coin per loop round; `none` when the
coins are used up without success (the loop is still running). -/
def relPrimeGo (num : Nat) : List Nat → Outcome (Option Nat)
  | [] => .ok none
  | c :: cs => do
    let r ← randLessThan c num
    if Nat.gcd r.toNat num > 1 then relPrimeGo num cs else pure (some r.toNat)

/-- `ECGroup::GeneratePrivateKey`: ec_group.cc:136-138. -/
def generatePrivateKey (coin : Nat) (order : Nat) : Outcome Int := randBetween coin 1 order

/-- `ECGroup::CheckPrivateKey`: ec_group.cc:140-146. -/
def checkPrivateKey (key : Int) (order : Nat) : Outcome Unit :=
  if 0 ≥ key ∨ key ≥ order then .err "The given key is out of bounds, needs to be in [1, order) instead." else .ok ()

end Upsi.Curve
