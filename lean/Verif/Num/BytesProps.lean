import Verif.Num.Bytes
import Mathlib.Tactic.Ring
import Mathlib.Data.List.Induction
import Mathlib.Tactic.NormNum
/- Property theorems C30-C34. -/
namespace Upsi.Num
open Upsi

/-! ### lemmas -/

theorem ofBytes_append (a b : List UInt8) : ofBytes (a ++ b) = ofBytes a * 256 ^ b.length + ofBytes b := by
  have key : ∀ (b : List UInt8) (x : Nat), b.foldl (fun a b => a * 256 + b.toNat) x =
      x * 256 ^ b.length + ofBytes b := by
    intro b
    induction b with
    | nil => intro x; simp [ofBytes]
    | cons c b ih =>
      intro x
      simp only [ofBytes, List.foldl_cons, List.length_cons]
      rw [ih, ih (0 * 256 + c.toNat), Nat.pow_succ]
      ring
  simp only [ofBytes, List.foldl_append]
  rw [key]; rfl

theorem ofBytes_cons (c : UInt8) (b : List UInt8) : ofBytes (c :: b) = c.toNat * 256 ^ b.length + ofBytes b := by
  have := ofBytes_append [c] b
  simpa [ofBytes] using this

theorem ofBytes_lt (b : List UInt8) : ofBytes b < 256 ^ b.length := by
  induction b with
  | nil => simp [ofBytes]
  | cons c b ih =>
    rw [ofBytes_cons, List.length_cons, Nat.pow_succ]
    have hc : c.toNat < 256 := c.toNat_lt
    have : c.toNat * 256 ^ b.length ≤ 255 * 256 ^ b.length := Nat.mul_le_mul_right _ (by omega)
    omega

theorem ofBytes_natBytes (n : Nat) : ofBytes (natBytes n) = n := by
  induction n using natBytes.induct with
  | case1 => simp [natBytes, ofBytes]
  | case2 n h ih =>
    rw [natBytes, dif_neg h, ofBytes_append, ih]
    simp [ofBytes]
    omega

theorem natBytes_head (n : Nat) : ∀ c r, natBytes n = c :: r → c ≠ 0 := by
  induction n using natBytes.induct with
  | case1 => intro c r h; simp [natBytes] at h
  | case2 n h ih =>
    intro c r hc
    rw [natBytes, dif_neg h] at hc
    cases hq : natBytes (n / 256) with
    | nil =>
      rw [hq] at hc
      simp only [List.nil_append, List.cons.injEq] at hc
      have h0 : n / 256 = 0 := by
        have := ofBytes_natBytes (n / 256)
        rw [hq] at this; exact this.symm
      intro hz
      rw [← hc.1] at hz
      have := congrArg UInt8.toNat hz
      simp at this
      omega
    | cons c' r' =>
      rw [hq] at hc
      simp only [List.cons_append, List.cons.injEq] at hc
      rw [← hc.1]
      exact ih c' r' hq

theorem natBytes_length_le (n k : Nat) : (natBytes n).length ≤ k ↔ n < 256 ^ k := by
  constructor
  · intro h
    have := ofBytes_lt (natBytes n)
    rw [ofBytes_natBytes] at this
    exact Nat.lt_of_lt_of_le this (Nat.pow_le_pow_right (by omega) h)
  · intro h
    cases hq : natBytes n with
    | nil => simp
    | cons c r =>
      have hc := natBytes_head n c r hq
      have hv := ofBytes_natBytes n
      rw [hq, ofBytes_cons] at hv
      have hc' : 1 ≤ c.toNat := by
        rw [Nat.one_le_iff_ne_zero]
        intro h0
        apply hc
        exact UInt8.toNat_inj.1 (by simpa using h0)
      have : 256 ^ r.length ≤ n := by
        have : 1 * 256 ^ r.length ≤ c.toNat * 256 ^ r.length := Nat.mul_le_mul_right _ hc'
        omega
      have hlt : 256 ^ r.length < 256 ^ k := by omega
      have := (Nat.pow_lt_pow_iff_right (by omega : 1 < 256)).1 hlt
      simp only [List.length_cons]; omega

/-! ### C30 -/

/-- **C30** Decoding the encoding returns the number; the encoding is canonical (no leading zero
byte, empty exactly for zero, of the minimal length). -/
theorem C30_bytes_roundtrip (x : Int) (hx : 0 ≤ x) :
    ∃ b, toBytes x = .ok b ∧ (ofBytes b : Int) = x ∧ (b = [] ↔ x = 0) ∧
      (∀ c r, b = c :: r → c ≠ 0) ∧ (∀ k, b.length ≤ k ↔ x < 256 ^ k) := by
  refine ⟨natBytes x.toNat, by rw [toBytes, if_neg (by omega)], ?_, ?_, natBytes_head _, ?_⟩
  · rw [ofBytes_natBytes]; omega
  · constructor
    · intro h
      have := ofBytes_natBytes x.toNat
      rw [h] at this
      simp [ofBytes] at this
      omega
    · rintro rfl; simp [natBytes]
  · intro k
    rw [natBytes_length_le]
    constructor
    · intro h; have : (x.toNat : Int) < ((256 ^ k : Nat) : Int) := by exact_mod_cast h
      rw [Int.toNat_of_nonneg hx] at this; exact_mod_cast this
    · intro h
      have : (x.toNat : Int) < ((256 ^ k : Nat) : Int) := by rw [Int.toNat_of_nonneg hx]; exact_mod_cast h
      exact_mod_cast this

/-- **C30** (injectivity) Distinct numbers have distinct encodings. -/
theorem C30_bytes_injective (x y : Int) (b : List UInt8) (h1 : toBytes x = .ok b)
    (h2 : toBytes y = .ok b) : x = y := by
  unfold toBytes at h1 h2
  split at h1
  · simp at h1
  · split at h2
    · simp at h2
    · simp only [Outcome.ok.injEq] at h1 h2
      have a := ofBytes_natBytes x.toNat
      have b' := ofBytes_natBytes y.toNat
      rw [h1] at a; rw [h2] at b'
      omega

/-- **C30** A negative number aborts the process. -/
theorem C30_negative_aborts (x : Int) : toBytes x = .abort ↔ x < 0 := by
  unfold toBytes; split <;> simp_all

/-- Any byte string without a leading zero is the encoding of its value (the encoding is onto the
canonical strings). -/
theorem C30_canonical (b : List UInt8) (h : ∀ c r, b = c :: r → c ≠ 0) : natBytes (ofBytes b) = b := by
  induction b using List.reverseRecOn with
  | nil => simp [ofBytes, natBytes]
  | append_singleton l a ih =>
    have hl : ∀ c r, l = c :: r → c ≠ 0 := by
      intro c r hc; exact h c (r ++ [a]) (by simp [hc])
    have hv : ofBytes (l ++ [a]) = ofBytes l * 256 + a.toNat := by
      rw [ofBytes_append]; simp [ofBytes]
    have ha := a.toNat_lt
    have hne : ofBytes (l ++ [a]) ≠ 0 := by
      rw [hv]
      cases l with
      | nil =>
        have := h a [] rfl
        have : a.toNat ≠ 0 := fun h0 => this (UInt8.toNat_inj.1 (by simpa using h0))
        omega
      | cons c r =>
        have hc := h c (r ++ [a]) rfl
        have : c.toNat ≠ 0 := fun h0 => hc (UInt8.toNat_inj.1 (by simpa using h0))
        rw [ofBytes_cons]
        have : 0 < c.toNat * 256 ^ r.length := Nat.mul_pos (by omega) (Nat.pow_pos (by omega))
        omega
    rw [natBytes, dif_neg hne, hv]
    have e1 : (ofBytes l * 256 + a.toNat) / 256 = ofBytes l := by omega
    have e2 : (ofBytes l * 256 + a.toNat) % 256 = a.toNat := by omega
    rw [e1, e2, ih hl, UInt8.ofNat_toNat]

example : toBytes 258 = .ok [1, 2] := by
  simp [toBytes, natBytes]
example : ofBytes [1, 2] = 258 := by decide

/-! ### C31 -/

/-- **C31** On non-negative numbers the conversion is exact or an error: never truncated. -/
theorem C31_to_int (x : Int) (hx : 0 ≤ x) :
    (x < 2 ^ 64 → ∃ v, toIntValue x = .ok v ∧ (v.toNat : Int) = x) ∧
    (2 ^ 64 ≤ x → toIntValue x = .err "BigNum has more than 64 bits.") := by
  constructor
  · intro h
    refine ⟨UInt64.ofNat x.natAbs, ?_, ?_⟩
    · rw [toIntValue, if_pos (by omega)]
    · rw [UInt64.toNat_ofNat']
      rw [Nat.mod_eq_of_lt (by omega)]; omega
  · intro h
    rw [toIntValue, if_neg (by omega)]

/-- **C31** (negative numbers) The sign is silently dropped. -/
theorem C31_negative_loses_sign (x : Int) (h1 : x < 0) (h2 : -2 ^ 64 < x) :
    ∃ v, toIntValue x = .ok v ∧ (v.toNat : Int) = -x := by
  refine ⟨UInt64.ofNat x.natAbs, ?_, ?_⟩
  · rw [toIntValue, if_pos (by omega)]
  · rw [UInt64.toNat_ofNat', Nat.mod_eq_of_lt (by omega)]; omega

example : toIntValue 18446744073709551615 = .ok 18446744073709551615 := by decide
example : toIntValue 18446744073709551616 = .err "BigNum has more than 64 bits." := by decide
example : toIntValue (-5) = .ok 5 := by decide

/-! ### C32 -/

theorem foldl_u64 (l : List UInt8) : ∀ (r : UInt64) (n : Nat), r.toNat = n % 2 ^ 64 →
    (l.foldl (fun (res : UInt64) (b : UInt8) => (res <<< 8) + b.toUInt64) r).toNat =
      (l.foldl (fun a b => a * 256 + b.toNat) n) % 2 ^ 64 := by
  induction l with
  | nil => intro r n h; exact h
  | cons b l ih =>
    intro r n h
    simp only [List.foldl_cons]
    apply ih
    rw [UInt64.toNat_add, UInt64.toNat_shiftLeft, h]
    have : (8 : UInt64).toNat % 64 = 8 := by decide
    rw [this, Nat.shiftLeft_eq]
    have hb : b.toUInt64.toNat = b.toNat := by simp
    rw [hb]
    omega

theorem ofBytes_drop_mod (l : List UInt8) (k : Nat) : ofBytes (l.drop (l.length - k)) = ofBytes l % 256 ^ k ∨
    (l.length ≤ k ∧ l.drop (l.length - k) = l) := by
  by_cases h : l.length ≤ k
  · right; exact ⟨h, by rw [Nat.sub_eq_zero_of_le h]; rfl⟩
  · left
    have hs := List.take_append_drop (l.length - k) l
    have hv := ofBytes_append (l.take (l.length - k)) (l.drop (l.length - k))
    rw [hs] at hv
    have hlen : (l.drop (l.length - k)).length = k := by simp; omega
    rw [hlen] at hv
    have hlt := ofBytes_lt (l.drop (l.length - k))
    rw [hlen] at hlt
    rw [hv, Nat.mul_comm, Nat.mul_add_mod, Nat.mod_eq_of_lt hlt]

/-- **C32** `bytes2uint64` is the value modulo 2^64, for every byte length. -/
theorem C32_low64 (str : List UInt8) : (bytes2uint64 str).toNat = ofBytes str % 2 ^ 64 := by
  unfold bytes2uint64
  rw [foldl_u64 _ 0 0 rfl]
  show ofBytes (str.drop (str.length - 8)) % 2 ^ 64 = _
  rcases ofBytes_drop_mod str 8 with h | ⟨_, h⟩
  · rw [h]; norm_num
  · rw [h]

/-- **C32** for a big integer: `BigNum2uint64 x = x mod 2^64` when `x ≥ 0`, abort otherwise. -/
theorem C32_bignum (x : Int) :
    (x < 0 → bigNum2uint64 x = .abort) ∧
    (0 ≤ x → ∃ v, bigNum2uint64 x = .ok v ∧ (v.toNat : Int) = x % 2 ^ 64) := by
  constructor
  · intro h; simp [bigNum2uint64, toBytes, h]
  · intro h
    refine ⟨bytes2uint64 (natBytes x.toNat), by simp [bigNum2uint64, toBytes, Int.not_lt.2 h], ?_⟩
    rw [C32_low64, ofBytes_natBytes]
    omega

example : bytes2uint64 [1, 0] = 256 := by decide
example : bytes2uint64 [9, 0, 0, 0, 0, 0, 0, 0, 7] = 7 := by decide

/-! ### C33 -/

theorem ofBytes_zeros (k : Nat) : ofBytes (List.replicate k 0) = 0 := by
  induction k with
  | zero => rfl
  | succ k ih => rw [List.replicate_succ, ofBytes_cons, ih]; simp

theorem ofBytes_padBytes (str : List UInt8) (k : Nat) : ofBytes (padBytes str k) = ofBytes str := by
  rw [padBytes, ofBytes_append, ofBytes_zeros]; simp

/-- **C33** Packing a number below `2^(128*cnt)` into `cnt` blocks and unpacking returns it. -/
theorem C33_block_roundtrip (x : Int) (cnt : Nat) (h0 : 0 ≤ x) (h1 : x < 2 ^ (128 * cnt)) :
    ∃ bl, bigNum2block x cnt = .ok bl ∧ bl.length = 16 * cnt ∧ (block2BigNum bl cnt : Int) = x := by
  have hp : (2 : Int) ^ (128 * cnt) = ((256 ^ (16 * cnt) : Nat) : Int) := by
    push_cast
    rw [show (256 : Int) = 2 ^ 8 by norm_num, ← pow_mul]
    congr 1; ring
  have hlt : x.toNat < 256 ^ (16 * cnt) := by
    rw [hp] at h1; omega
  have hlen : (natBytes x.toNat).length ≤ 16 * cnt := (natBytes_length_le _ _).2 hlt
  have hpad : (padBytes (natBytes x.toNat) (16 * cnt)).length = 16 * cnt := by
    simp [padBytes]; omega
  refine ⟨padBytes (natBytes x.toNat) (16 * cnt), ?_, hpad, ?_⟩
  · simp only [bigNum2block, toBytes, if_neg (Int.not_lt.2 h0), Outcome.bind_ok, Outcome.pure_eq]
    rw [List.take_of_length_le (by omega)]
  · rw [block2BigNum, List.take_of_length_le (by omega), ofBytes_padBytes, ofBytes_natBytes]
    omega

/-- **C33** (what happens to a too large number) The blocks hold the *most significant* bytes: the
value read back is `x` divided by `256^(surplus bytes)`, not `x mod 2^(128*cnt)`. -/
theorem C33_block_overflow (x : Int) (cnt : Nat) (h1 : 2 ^ (128 * cnt) ≤ x) :
    ∃ bl b, toBytes x = .ok b ∧ 16 * cnt < b.length ∧ bigNum2block x cnt = .ok bl ∧
      (block2BigNum bl cnt : Int) = x / 256 ^ (b.length - 16 * cnt) := by
  have hpos : (0 : Int) < 2 ^ (128 * cnt) := by positivity
  have h0 : 0 ≤ x := by omega
  have hp : (2 : Int) ^ (128 * cnt) = ((256 ^ (16 * cnt) : Nat) : Int) := by
    push_cast
    rw [show (256 : Int) = 2 ^ 8 by norm_num, ← pow_mul]
    congr 1; ring
  have hlen : 16 * cnt < (natBytes x.toNat).length := by
    by_contra hle
    have := (natBytes_length_le x.toNat (16 * cnt)).1 (by omega)
    rw [hp] at h1; omega
  refine ⟨(natBytes x.toNat).take (16 * cnt), natBytes x.toNat, ?_, hlen, ?_, ?_⟩
  · simp only [toBytes, if_neg (Int.not_lt.2 h0)]
  · simp only [bigNum2block, toBytes, if_neg (Int.not_lt.2 h0), Outcome.bind_ok, Outcome.pure_eq]
    rw [padBytes, Nat.sub_eq_zero_of_le (by omega)]
    rfl
  · rw [block2BigNum, List.take_take, Nat.min_self]
    have hs := List.take_append_drop (16 * cnt) (natBytes x.toNat)
    have hv := ofBytes_append ((natBytes x.toNat).take (16 * cnt)) ((natBytes x.toNat).drop (16 * cnt))
    rw [hs, ofBytes_natBytes] at hv
    have hl := ofBytes_lt ((natBytes x.toNat).drop (16 * cnt))
    rw [List.length_drop] at hv hl
    have hdiv : x.toNat / 256 ^ ((natBytes x.toNat).length - 16 * cnt) =
        ofBytes ((natBytes x.toNat).take (16 * cnt)) := by
      apply Nat.div_eq_of_lt_le
      · omega
      · rw [Nat.succ_mul]; omega
    rw [← hdiv]
    have hx : x = (x.toNat : Int) := by omega
    conv_rhs => rw [hx]
    push_cast
    rfl

example : (0 : Int) ≤ 77 ∧ (77 : Int) < 2 ^ (128 * 1) := by norm_num

/-! ### C34 -/

/-- Specification: the low `cnt` bits of `v`, most significant first. -/
def lowBits (v cnt : Nat) : List Bool := (List.range cnt).map (fun i => v.testBit (cnt - 1 - i))

theorem bitsOf_eq (t : UInt8) (n : Nat) : bitsOf t n = lowBits t.toNat n := by
  unfold bitsOf lowBits
  apply List.ext_getElem
  · simp
  · intro i h1 h2
    simp only [List.length_map, List.length_reverse, List.length_range] at h1
    simp [List.getElem_reverse]

theorem lowBits_append (v w a b : Nat) (hw : w < 2 ^ b) :
    lowBits v a ++ lowBits w b = lowBits (v * 2 ^ b + w) (a + b) := by
  unfold lowBits
  apply List.ext_getElem
  · simp
  · intro i h1 h2
    simp only [List.length_append, List.length_map, List.length_range] at h1
    simp only [List.getElem_map, List.getElem_range]
    have htb : ∀ j, (v * 2 ^ b + w).testBit j = if j < b then w.testBit j else v.testBit (j - b) := by
      intro j
      rw [Nat.mul_comm, Nat.testBit_two_pow_mul_add v hw]
    by_cases hi : i < a
    · rw [List.getElem_append_left (by simpa using hi)]
      simp only [List.getElem_map, List.getElem_range]
      rw [htb, if_neg (by omega)]
      congr 1; omega
    · rw [List.getElem_append_right (by simpa using hi)]
      simp only [List.getElem_map, List.getElem_range, List.length_map, List.length_range]
      rw [htb, if_pos (by omega)]
      congr 1; omega

theorem lowBits_bytes (l : List UInt8) : l.flatMap (fun t => bitsOf t 8) = lowBits (ofBytes l) (8 * l.length) := by
  induction l with
  | nil => rfl
  | cons c l ih =>
    have hlt := ofBytes_lt l
    have hp : (256 : Nat) ^ l.length = 2 ^ (8 * l.length) := by
      rw [Nat.pow_mul]
    rw [List.flatMap_cons, ih, bitsOf_eq, lowBits_append _ _ _ _ (by rw [← hp]; exact hlt), ofBytes_cons, hp]
    congr 1
    simp; omega

theorem lowBits_mod (v cnt k : Nat) (h : cnt ≤ k) : lowBits (v % 2 ^ k) cnt = lowBits v cnt := by
  unfold lowBits
  apply List.map_congr_left
  intro i hi
  rw [List.mem_range] at hi
  rw [Nat.testBit_mod_two_pow]
  simp; omega

theorem lowBits_congr {v w cnt k : Nat} (h : cnt ≤ k) (hvw : v % 2 ^ k = w % 2 ^ k) :
    lowBits v cnt = lowBits w cnt := by
  rw [← lowBits_mod v cnt k h, ← lowBits_mod w cnt k h, hvw]

/-- **C34** `bytes2bool` is in bounds exactly when the string has at least `cnt` bits, and then it
produces the low `cnt` bits of the number, most significant first. -/
theorem C34_bits (str : List UInt8) (cnt : Nat) :
    (8 * str.length < cnt → bytes2bool str cnt = .ub) ∧
    (cnt ≤ 8 * str.length → bytes2bool str cnt = .ok (lowBits (ofBytes str) cnt)) := by
  constructor
  · intro h
    unfold bytes2bool
    by_cases h1 : str.length < cnt / 8
    · simp [h1]
    · have : cnt % 8 ≠ 0 := by omega
      have : str.length < cnt / 8 + 1 := by omega
      simp [h1, *]
  · intro h
    unfold bytes2bool
    rw [if_neg (by omega)]
    by_cases hr : cnt % 8 = 0
    · rw [if_pos hr, lowBits_bytes]
      have hl : (str.drop (str.length - cnt / 8)).length = cnt / 8 := by simp; omega
      rw [hl, show 8 * (cnt / 8) = cnt by omega]
      congr 1
      rcases ofBytes_drop_mod str (cnt / 8) with h | ⟨_, h⟩
      · rw [h]
        have hp : (256 : Nat) ^ (cnt / 8) = 2 ^ cnt := by
          rw [show cnt = 8 * (cnt / 8) by omega, Nat.pow_mul]
          congr 1; omega
        rw [hp, lowBits_mod _ _ _ (Nat.le_refl _)]
      · rw [h]
    · rw [if_neg hr, if_neg (by omega)]
      have hi : str.length - cnt / 8 - 1 < str.length := by omega
      rw [List.getElem?_eq_getElem hi]
      simp only
      rw [lowBits_bytes, bitsOf_eq]
      have hl : (str.drop (str.length - cnt / 8)).length = cnt / 8 := by simp; omega
      rw [hl]
      have hlt := ofBytes_lt (str.drop (str.length - cnt / 8))
      rw [hl, show (256 : Nat) ^ (cnt / 8) = 2 ^ (8 * (cnt / 8)) by rw [Nat.pow_mul]] at hlt
      rw [lowBits_append _ _ _ _ hlt, show cnt % 8 + 8 * (cnt / 8) = cnt by omega]
      congr 1
      have hd : str.drop (str.length - (cnt / 8 + 1)) =
          str[str.length - cnt / 8 - 1] :: str.drop (str.length - cnt / 8) := by
        have := List.drop_eq_getElem_cons (l := str) (i := str.length - cnt / 8 - 1) hi
        rw [show str.length - (cnt / 8 + 1) = str.length - cnt / 8 - 1 by omega, this]
        congr 2; omega
      have hv : str[str.length - cnt / 8 - 1].toNat * 2 ^ (8 * (cnt / 8)) +
          ofBytes (str.drop (str.length - cnt / 8)) = ofBytes (str.drop (str.length - (cnt / 8 + 1))) := by
        rw [hd, ofBytes_cons, hl, Nat.pow_mul]
      rw [hv]
      rcases ofBytes_drop_mod str (cnt / 8 + 1) with h | ⟨_, h⟩
      · rw [h, show (256 : Nat) ^ (cnt / 8 + 1) = 2 ^ (8 * (cnt / 8 + 1)) by rw [Nat.pow_mul]]
        exact lowBits_mod _ _ _ (by omega)
      · rw [h]

/-- **C34** (the caller) `BigNum2bool` is undefined behaviour exactly when the random
oracle value is below `2^(8*ceil(cnt/8) - 8)`; e.g. with the default `GC_SIZE = 72` when the value
(drawn from `[0, 2^73)`) is below `2^64`. -/
theorem C34_caller (ro : List UInt8 → Nat) (x : Int) (hx : 0 ≤ x) (b : List UInt8)
    (hb : toBytes x = .ok b) :
    (ro b < 2 ^ 64 → bigNum2bool ro x 72 = .ub) ∧
    (2 ^ 64 ≤ ro b → bigNum2bool ro x 72 = .ok (lowBits (ro b) 72)) := by
  have hlen := natBytes_length_le (ro b) 8
  have e : (256 : Nat) ^ 8 = 2 ^ 64 := by norm_num
  rw [e] at hlen
  constructor
  · intro h
    simp only [bigNum2bool, hb, Outcome.bind_ok]
    exact (C34_bits _ 72).1 (by have := hlen.2 h; omega)
  · intro h
    simp only [bigNum2bool, hb, Outcome.bind_ok]
    rw [(C34_bits _ 72).2 (by
      have : ¬ (natBytes (ro b)).length ≤ 8 := fun hle => by have := hlen.1 hle; omega
      omega), ofBytes_natBytes]

example : bytes2bool [5, 3] 10 = .ok [false, true, false, false, false, false, false, false, true, true] := by
  decide
example : bytes2bool [5] 10 = .ub := by decide

/-! ### modular helpers -/

/-- `ModNegate` returns the additive inverse, in `[0, m)` except that it returns `m` itself when `x`
is a non-zero multiple of `m`. -/
theorem modNegate_spec (x m : Int) (hm : 0 < m) : ∃ r, modNegate x m = .ok r ∧ (r + x) % m = 0 ∧ 0 ≤ r ∧
    (r < m ∨ (r = m ∧ x % m = 0 ∧ x ≠ 0)) := by
  unfold modNegate
  by_cases h : x = 0
  · exact ⟨x, by simp [h], by simp [h], by omega, Or.inl (by omega)⟩
  · have h1 := Int.emod_nonneg x (by omega : m ≠ 0)
    have h2 := Int.emod_lt_of_pos x hm
    refine ⟨m - x % m, by simp [h, mod, show m ≠ 0 by omega], ?_, by omega, ?_⟩
    · have : m - x % m + x = m * (1 + x / m) := by
        have := Int.mul_ediv_add_emod x m
        rw [Int.mul_add]; omega
      rw [this, Int.mul_emod_right]
    · by_cases h0 : x % m = 0
      · right; omega
      · left; omega

end Upsi.Num
