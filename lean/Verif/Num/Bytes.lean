import Verif.Base
/-
Model of the byte conversions of `upsi/crypto/big_num.cc` (BoringSSL big integers are `Int`) and of
`upsi/util/gc_util.cc`.  A C++ `std::string` of bytes is a `List UInt8`.
-/
namespace Upsi.Num
open Upsi

/-- `BN_num_bytes` + `BN_bn2bin`: the minimal big-endian encoding (big_num.cc:97-104). -/
def natBytes (n : Nat) : List UInt8 :=
  if h : n = 0 then [] else natBytes (n / 256) ++ [UInt8.ofNat (n % 256)]
termination_by n
decreasing_by exact Nat.div_lt_self (Nat.pos_of_ne_zero h) (by omega)

/-- `BigNum::ToBytes`: big_num.cc:97-104; `CHECK(IsNonNegative())`. -/
def toBytes (x : Int) : Outcome (List UInt8) :=
  if x < 0 then .abort else .ok (natBytes x.toNat)

/-- `BN_bin2bn` (constructor `BigNum(BN_CTX*, string_view)`, big_num.cc:71-76): big-endian. -/
def ofBytes (bs : List UInt8) : Nat := bs.foldl (fun a b => a * 256 + b.toNat) 0

/-- `BigNum::ToIntValue`: big_num.cc:106-112.  BoringSSL's `BN_get_u64` yields the absolute value
and fails when it has more than 64 bits. -/
def toIntValue (x : Int) : Outcome UInt64 :=
  if x.natAbs < 2 ^ 64 then .ok (UInt64.ofNat x.natAbs) else .err "BigNum has more than 64 bits."

/-- `bytes2uint64`: gc_util.cc:8-15 (64-bit wrapping arithmetic). -/
def bytes2uint64 (str : List UInt8) : UInt64 :=
  (str.drop (str.length - 8)).foldl (fun res b => (res <<< 8) + b.toUInt64) 0

/-- `BigNum2uint64`: gc_util.cc:23-26. -/
def bigNum2uint64 (x : Int) : Outcome UInt64 := do
  let b ← toBytes x
  pure (bytes2uint64 b)

/-- `for (int j = n-1; j >= 0; --j) push((tmp >> j) & 1)`: gc_util.cc:33 and 37. -/
def bitsOf (tmp : UInt8) (n : Nat) : List Bool :=
  (List.range n).reverse.map (fun j => tmp.toNat.testBit j)

/-- `bytes2bool`: gc_util.cc:28-39.  The `assert` at line 30 is compiled out by `-c opt`; an index
`len - cnt_byte - 1` or `len - cnt_byte` below zero is an out-of-bounds read. -/
def bytes2bool (str : List UInt8) (cnt : Nat) : Outcome (List Bool) :=
  let len := str.length
  let cntByte := cnt / 8
  let rem := cnt % 8
  if len < cntByte then .ub
  else if rem = 0 then .ok ((str.drop (len - cntByte)).flatMap (fun t => bitsOf t 8))
  else if len < cntByte + 1 then .ub
  else match str[len - cntByte - 1]? with
    | none => .ub
    | some tmp => .ok (bitsOf tmp rem ++ (str.drop (len - cntByte)).flatMap (fun t => bitsOf t 8))

/-- `BigNum2bool`: gc_util.cc:41-46.  `ro` is `RandomOracleSha256(·, 2^(cnt+1))` (context.cc:95-126),
an arbitrary function into `[0, 2^(cnt+1))`. -/
def bigNum2bool (ro : List UInt8 → Nat) (x : Int) (cnt : Nat) : Outcome (List Bool) := do
  let b ← toBytes x
  bytes2bool (natBytes (ro b)) cnt

/-- `PadBytes`: gc_util.cc:63-66. -/
def padBytes (str : List UInt8) (len : Nat) : List UInt8 :=
  List.replicate (len - str.length) 0 ++ str

/-- `BigNum2block` followed by reading the blocks as memory: gc_util.cc:48-55.  A block is 16 bytes,
`cnt` consecutive blocks are `16 * cnt` bytes: exactly the *first* `16*cnt` bytes of the padded
string. -/
def bigNum2block (x : Int) (cnt : Nat) : Outcome (List UInt8) := do
  let b ← toBytes x
  pure ((padBytes b (16 * cnt)).take (16 * cnt))

/-- `block2BigNum`: gc_util.cc:57-61. -/
def block2BigNum (bl : List UInt8) (cnt : Nat) : Nat := ofBytes (bl.take (16 * cnt))

/-- `BigNum::GetLastNBits` on non-negative numbers: big_num.cc:137-144 (`BN_mask_bits`). -/
def getLastNBits (x n : Nat) : Nat := x % 2 ^ n

/-- `BigNum::Div`: big_num.cc:174-184; `CHECK`s that the division is exact, a zero divisor is a
failed `CRYPTO_CHECK`. -/
def div (x y : Int) : Outcome Int :=
  if y = 0 then .abort else if x.tmod y = 0 then .ok (x.tdiv y) else .abort

/-- `BigNum::Mod`: big_num.cc:207-211 (`BN_nnmod`: non-negative remainder; zero modulus fails the
`CRYPTO_CHECK`). -/
def mod (x m : Int) : Outcome Int := if m = 0 then .abort else .ok (x % m)

/-- `BigNum::ModNegate`: big_num.cc:265-270. -/
def modNegate (x m : Int) : Outcome Int := do
  if x = 0 then pure x else
    let r ← mod x m
    pure (m - r)

end Upsi.Num
