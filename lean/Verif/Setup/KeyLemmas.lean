import Verif.Setup.Keys
import Verif.Rec.Props
import Verif.Num.BytesProps
/- Lemmas for key setup: wire round trip, file names, file contents. -/
namespace Upsi.Setup
open Upsi Upsi.Rec Upsi.ElGamal Upsi.Paillier Upsi.Num

/-! ### wire format -/

theorem readVar_write : ∀ (k n : Nat) (t : Bytes), 0 < k → n < 128 ^ k → readVar k (writeVarint n ++ t) = some (n, t) := by
  intro k
  induction k with
  | zero => intro n t h; omega
  | succ k ih =>
    intro n t _ hn
    rw [writeVarint]
    by_cases h : n < 128
    · have e : (UInt8.ofNat n).toNat = n := by rw [UInt8.toNat_ofNat']; omega
      rw [if_pos h]
      simp [readVar, e, h]
    · rw [if_neg h]
      have hk : 0 < k := by
        rcases Nat.eq_zero_or_pos k with rfl | hk
        · simp at hn; omega
        · exact hk
      have e : (UInt8.ofNat (n % 128 + 128)).toNat = n % 128 + 128 := by rw [UInt8.toNat_ofNat']; omega
      rw [List.cons_append, readVar, if_neg (by rw [e]; omega), ih (n / 128) t hk (by rw [pow_succ] at hn; omega)]
      simp only [e, Option.some.injEq, Prod.mk.injEq, and_true]
      omega

/-- Fields that can be put on the wire. -/
def FieldOK : Nat × WVal → Prop
  | (k, .varint n) => k < 2 ^ 28 ∧ n < 2 ^ 64
  | (k, .len b) => k < 2 ^ 28 ∧ b.length < 2 ^ 31

theorem encField_ne_nil (f : Nat × WVal) : encField f ≠ [] := by
  rcases f with ⟨k, v⟩
  cases v <;> simp [encField, varint_ne_nil]

theorem parse_enc : ∀ (l : List (Nat × WVal)) (n : Nat), (∀ f ∈ l, FieldOK f) → l.length ≤ n →
    parseFields n (encFields l) = l := by
  intro l
  induction l with
  | nil =>
    intro n _ _
    cases n with
    | zero => rfl
    | succ n => rfl
  | cons f l ih =>
    intro n hf hn
    cases n with
    | zero => simp at hn
    | succ n =>
      have hl := ih n (fun g hg => hf g (List.mem_cons_of_mem _ hg)) (by simpa using hn)
      have h0 := hf f List.mem_cons_self
      rcases f with ⟨k, v⟩
      cases v with
      | varint v =>
        obtain ⟨h1, h2⟩ : k < 2 ^ 28 ∧ v < 2 ^ 64 := h0
        rw [encFields, List.flatMap_cons, encField, List.append_assoc, parseFields,
          readVar_write 5 _ _ (by norm_num) (by norm_num; omega)]
        simp only [Nat.mul_mod_right, if_true]
        rw [readVar_write 10 _ _ (by norm_num) (lt_trans h2 (by norm_num))]
        simp only
        rw [show l.flatMap encField = encFields l from rfl, hl, Nat.mul_div_cancel_left _ (by norm_num),
          Nat.mod_eq_of_lt h2]
      | len b =>
        obtain ⟨h1, h2⟩ : k < 2 ^ 28 ∧ b.length < 2 ^ 31 := h0
        rw [encFields, List.flatMap_cons, encField, List.append_assoc, List.append_assoc, parseFields,
          readVar_write 5 _ _ (by norm_num) (by norm_num; omega)]
        simp only
        rw [if_neg (by omega), if_pos (by omega),
          readVar_write 5 _ _ (by norm_num) (by norm_num; omega)]
        simp only
        rw [if_neg (by simp), List.take_left, List.drop_left, show l.flatMap encField = encFields l from rfl, hl]
        congr 2
        omega

theorem length_le_enc (l : List (Nat × WVal)) : l.length ≤ (encFields l).length := by
  induction l with
  | nil => simp
  | cons f l ih =>
    have := List.length_pos_of_ne_nil (encField_ne_nil f)
    rw [encFields, List.flatMap_cons, List.length_append, List.length_cons]
    have : (l.flatMap encField).length = (encFields l).length := rfl
    omega

theorem parseMsg_enc {l : List (Nat × WVal)} (h : ∀ f ∈ l, FieldOK f) : parseMsg (encFields l) = l :=
  parse_enc l _ h (length_le_enc l)

theorem len_enc_le {l : List (Nat × WVal)} {k : Nat} {b : Bytes} (h : (k, WVal.len b) ∈ l) :
    b.length ≤ (encFields l).length := by
  induction l with
  | nil => simp at h
  | cons f l ih =>
    rw [encFields, List.flatMap_cons, List.length_append]
    have e : (l.flatMap encField).length = (encFields l).length := rfl
    rcases List.mem_cons.1 h with rfl | h
    · simp only [encField, List.length_append]; omega
    · have := ih h; omega

theorem PkProto.parse_ser (m : PkProto) (h : m.ser.length < 2 ^ 31) : PkProto.parse m.ser = m := by
  have h1 : m.g.length ≤ m.ser.length := len_enc_le (k := 2) (by simp)
  have h2 : m.y.length ≤ m.ser.length := len_enc_le (k := 3) (by simp)
  have : parseMsg m.ser = [(2, .len m.g), (3, .len m.y)] := by
    refine parseMsg_enc ?_
    intro f hf
    simp only [List.mem_cons, List.not_mem_nil, or_false] at hf
    rcases hf with rfl | rfl
    · exact ⟨by norm_num, by omega⟩
    · exact ⟨by norm_num, by omega⟩
  rw [PkProto.parse, this]
  simp [getBytes]

theorem SkProto.parse_ser (m : SkProto) (h : m.ser.length < 2 ^ 31) : SkProto.parse m.ser = m := by
  have h1 : m.x.length ≤ m.ser.length := len_enc_le (k := 1) (by simp)
  have : parseMsg m.ser = [(1, .len m.x)] := by
    refine parseMsg_enc ?_
    intro f hf
    simp only [List.mem_cons, List.not_mem_nil, or_false] at hf
    subst hf
    exact ⟨by norm_num, by omega⟩
  rw [SkProto.parse, this]
  simp [getBytes]

theorem TkProto.parse_ser (m : TkProto) (h : m.ser.length < 2 ^ 31) : TkProto.parse m.ser = m := by
  have h1 : m.n.length ≤ m.ser.length := len_enc_le (k := 1) (by simp)
  have h2 : m.share.length ≤ m.ser.length := len_enc_le (k := 2) (by simp)
  have : parseMsg m.ser = [(1, .len m.n), (2, .len m.share)] := by
    refine parseMsg_enc ?_
    intro f hf
    simp only [List.mem_cons, List.not_mem_nil, or_false] at hf
    rcases hf with rfl | rfl
    · exact ⟨by norm_num, by omega⟩
    · exact ⟨by norm_num, by omega⟩
  rw [TkProto.parse, this]
  simp [getBytes]

theorem PubProto.parse_ser (m : PubProto) (hs : m.s < 2 ^ 31) (h : m.ser.length < 2 ^ 31) : PubProto.parse m.ser = m := by
  have h1 : m.n.length ≤ m.ser.length := len_enc_le (k := 1) (by simp)
  have : parseMsg m.ser = [(1, .len m.n), (2, .varint m.s)] := by
    refine parseMsg_enc ?_
    intro f hf
    simp only [List.mem_cons, List.not_mem_nil, or_false] at hf
    rcases hf with rfl | rfl
    · exact ⟨by norm_num, by omega⟩
    · exact ⟨by norm_num, by omega⟩
  rw [PubProto.parse, this]
  have e : getInt32 2 [(1, WVal.len m.n), (2, WVal.varint m.s)] = m.s := by simp [getInt32, int32]; omega
  rw [e]
  simp [getBytes]

theorem PrivProto.parse_ser (m : PrivProto) (hs : m.s < 2 ^ 31) (h : m.ser.length < 2 ^ 31) :
    PrivProto.parse m.ser = m := by
  have h1 : m.p.length ≤ m.ser.length := len_enc_le (k := 1) (by simp)
  have h2 : m.q.length ≤ m.ser.length := len_enc_le (k := 2) (by simp)
  have : parseMsg m.ser = [(1, .len m.p), (2, .len m.q), (3, .varint m.s)] := by
    refine parseMsg_enc ?_
    intro f hf
    simp only [List.mem_cons, List.not_mem_nil, or_false] at hf
    rcases hf with rfl | rfl | rfl
    · exact ⟨by norm_num, by omega⟩
    · exact ⟨by norm_num, by omega⟩
    · exact ⟨by norm_num, by omega⟩
  rw [PrivProto.parse, this]
  have e : getInt32 3 [(1, WVal.len m.p), (2, WVal.len m.q), (3, WVal.varint m.s)] = m.s := by
    simp [getInt32, int32]; omega
  rw [e]
  simp [getBytes]

/-! ### file names -/

theorem squeeze_head (c : Char) (hc : c ≠ '/') (t : List Char) : squeeze (c :: t) = c :: squeeze t := by
  rw [squeeze, if_neg (fun h => hc h.1)]

theorem squeeze_append (a : List Char) (c : Char) (hc : c ≠ '/') (t : List Char) :
    squeeze (a ++ c :: t) = squeeze a ++ squeeze (c :: t) := by
  induction a with
  | nil => rfl
  | cons x a ih =>
    rw [List.cons_append, squeeze, ih, show squeeze (x :: a) = if x = '/' ∧ (squeeze a).head? = some '/' then squeeze a
      else x :: squeeze a from by rw [squeeze]]
    cases ha : squeeze a with
    | nil => rw [squeeze_head c hc, if_neg (by simp [hc]), if_neg (by simp)]; rfl
    | cons y ys =>
      by_cases h : x = '/' ∧ y = '/'
      · rw [if_pos (by simpa using h), if_pos (by simpa using h)]
      · rw [if_neg (by simpa using h), if_neg (by simpa using h)]; rfl

theorem ofList_inj {a b : List Char} (h : String.ofList a = String.ofList b) : a = b := by
  have := congrArg String.toList h
  simpa using this

/-- The canonical name of a file below the output directory. -/
theorem canon_out (out d f : String) (h : (d.toList ++ f.toList).head? = some 'p') :
    canon (out ++ d ++ f) = String.ofList (squeeze out.toList ++ squeeze (d.toList ++ f.toList)) := by
  rw [canon, String.toList_append, String.toList_append, List.append_assoc]
  cases hl : d.toList ++ f.toList with
  | nil => rw [hl] at h; simp at h
  | cons c t =>
    rw [hl] at h
    simp only [List.head?_cons, Option.some.injEq] at h
    subst h
    rw [squeeze_append _ _ (by decide)]

/-- Two names below the output directory denote the same file exactly when they agree up to repeated slashes. -/
theorem canon_out_iff (out d f d' f' : String) (h : (d.toList ++ f.toList).head? = some 'p')
    (h' : (d'.toList ++ f'.toList).head? = some 'p') :
    canon (out ++ d ++ f) = canon (out ++ d' ++ f') ↔ squeeze (d.toList ++ f.toList) = squeeze (d'.toList ++ f'.toList) := by
  rw [canon_out out d f h, canon_out out d' f' h']
  constructor
  · intro h; exact List.append_cancel_left (ofList_inj h)
  · intro h; rw [h]

example (out : String) : canon (out ++ "p0/" ++ "/elgamal.pub") = canon (out ++ "p0" ++ "/elgamal.pub") :=
  (canon_out_iff _ _ _ _ _ (by decide) (by decide)).2 (by decide)
example (out : String) : canon (out ++ "p0/" ++ "/elgamal.pub") ≠ canon (out ++ "p1" ++ "/elgamal.pub") :=
  fun h => absurd ((canon_out_iff _ _ _ _ _ (by decide) (by decide)).1 h) (by decide)

/-! ### file contents -/

theorem writeKey_ok {M : Type} {ser : M → Bytes} {m : M} {name : String} {fs fs' : FS}
    (h : writeKey ser m name fs = .ok fs') :
    (ser m).length < 2 ^ 31 ∧ fs.writable (canon name) = true ∧
      fs' = fs.set (canon name) (writeVarint (ser m).length ++ ser m) := by
  unfold writeKey writeProtoToFile writeRecordsToFile at h
  split at h
  · rename_i hw
    simp only [List.map_cons, List.map_nil, encodeAll, encodeRecord] at h
    split at h
    · rename_i hl
      simp only [Outcome.bind_ok, Outcome.pure_eq, List.append_nil, Outcome.ok.injEq] at h
      exact ⟨hl, hw, h.symm⟩
    · simp at h
  · simp at h

theorem writeKey_succeeds {M : Type} {ser : M → Bytes} {m : M} {name : String} {fs : FS} (hl : (ser m).length < 2 ^ 31)
    (hw : fs.writable (canon name) = true) :
    writeKey ser m name fs = .ok (fs.set (canon name) (writeVarint (ser m).length ++ ser m)) := by
  have : encodeRecord (ser m) = .ok (writeVarint (ser m).length ++ ser m) := by rw [encodeRecord, if_pos hl]
  simp [writeKey, writeProtoToFile, writeRecordsToFile, hw, encodeAll, this]

theorem readKey_same {M N : Type} {ser : M → Bytes} {parse : Bytes → N} {m : M} {name name' : String} {fs : FS}
    (hl : (ser m).length < 2 ^ 31) (h : canon name' = canon name) :
    readKey parse name' (fs.set (canon name) (writeVarint (ser m).length ++ ser m)) = .ok (parse (ser m)) := by
  have := readRecord_encode (r := ser m) (t := []) hl
  rw [List.append_nil] at this
  simp [readKey, readProtoFromFile, openRead, FS.set, h, this]

theorem readKey_other {N : Type} {parse : Bytes → N} {n name : String} {b : Bytes} {fs : FS}
    (h : canon n ≠ canon name) : readKey parse n (fs.set (canon name) b) = readKey parse n fs := by
  simp [readKey, readProtoFromFile, openRead, FS.set, h]

theorem set_writable (fs : FS) (n : String) (b : Bytes) : (fs.set n b).writable = fs.writable := rfl

theorem valueOf_ok {A : Type} (a : A) : valueOf (.ok a) = .ok a := rfl

theorem toBytes_ok {x : Int} (h : 0 ≤ x) : toBytes x = .ok (natBytes x.toNat) := by
  rw [toBytes, if_neg (by omega)]

theorem ofBytes_toBytes {x : Int} {b : Bytes} (h : toBytes x = .ok b) : ((ofBytes b : Nat) : Int) = x := by
  unfold toBytes at h
  split at h
  · simp at h
  · simp only [Outcome.ok.injEq] at h
    subst h
    rw [ofBytes_natBytes]
    omega

end Upsi.Setup
