import Verif.Wire.Model
import Verif.Setup.KeyLemmas
/- Lemmas on the wire format of messages. -/
namespace Upsi.Wire
open Upsi Upsi.Rec Upsi.ElGamal Upsi.Tree Upsi.Proto Upsi.Setup

/-- Field numbers and numeric values that fit; the lengths follow from the length of the whole message. -/
def Small : Nat × WVal → Prop
  | (k, .varint n) => k < 2 ^ 28 ∧ n < 2 ^ 64
  | (k, .len _) => k < 2 ^ 28

theorem parse_small {l : List (Nat × WVal)} (hs : ∀ f ∈ l, Small f) (h : (encFields l).length < 2 ^ 31) :
    parseMsg (encFields l) = l := by
  refine parseMsg_enc ?_
  intro f hf
  rcases f with ⟨k, v⟩
  have := hs _ hf
  cases v with
  | varint n => exact this
  | len b => exact ⟨this, lt_of_le_of_lt (len_enc_le hf) h⟩

theorem encFields_append (a b : List (Nat × WVal)) : encFields (a ++ b) = encFields a ++ encFields b := by
  simp [encFields]

/-! ### picking fields -/

theorem getRep_append (k : Nat) (a b : List (Nat × WVal)) : getRep k (a ++ b) = getRep k a ++ getRep k b := by
  simp [getRep]

theorem getRep_rep (k : Nat) (l : List Bytes) : getRep k (repField k l) = l := by
  induction l with
  | nil => rfl
  | cons b l ih =>
    simp only [getRep, repField, List.map_cons, List.filterMap_cons, if_true] at ih ⊢
    rw [ih]

theorem getRep_rep_ne {k j : Nat} (h : j ≠ k) (l : List Bytes) : getRep k (repField j l) = [] := by
  induction l with
  | nil => rfl
  | cons b l ih =>
    simp only [getRep, repField, List.map_cons, List.filterMap_cons, if_neg h] at ih ⊢
    rw [ih]

theorem getRep_opt (k : Nat) (o : Option Bytes) : getRep k (optField k o) = o.toList := by
  cases o <;> simp [getRep, optField]

theorem getRep_opt_ne {k j : Nat} (h : j ≠ k) (o : Option Bytes) : getRep k (optField j o) = [] := by
  cases o <;> simp [getRep, optField, h]

theorem getOpt_of {k : Nat} {l : List (Nat × WVal)} {o : Option Bytes} (h : getRep k l = o.toList) : getOpt k l = o := by
  unfold getOpt
  rw [h]
  cases o <;> simp

theorem small_rep {k : Nat} (hk : k < 2 ^ 28) (l : List Bytes) : ∀ f ∈ repField k l, Small f := by
  intro f hf
  simp only [repField, List.mem_map] at hf
  obtain ⟨b, _, rfl⟩ := hf
  exact hk

theorem small_opt {k : Nat} (hk : k < 2 ^ 28) (o : Option Bytes) : ∀ f ∈ optField k o, Small f := by
  cases o with
  | none => simp [optField]
  | some b => intro f hf; simp only [optField, List.mem_singleton] at hf; subst hf; exact hk

theorem small_append {a b : List (Nat × WVal)} (ha : ∀ f ∈ a, Small f) (hb : ∀ f ∈ b, Small f) : ∀ f ∈ a ++ b, Small f := by
  intro f hf
  rcases List.mem_append.1 hf with h | h
  · exact ha f h
  · exact hb f h

theorem small_one {k : Nat} (hk : k < 2 ^ 28) (b : Bytes) : ∀ f ∈ [(k, WVal.len b)], Small f := by
  intro f hf
  simp only [List.mem_singleton] at hf
  subst hf; exact hk

/-- A part of a repeated field is no longer than the message. -/
theorem mem_rep_le {k : Nat} {l : List Bytes} {a c : List (Nat × WVal)} {b : Bytes} (h : b ∈ l) :
    b.length ≤ (encFields (a ++ repField k l ++ c)).length := by
  refine len_enc_le (k := k) ?_
  simp only [List.mem_append, repField, List.mem_map]
  exact Or.inl (Or.inr ⟨b, h, rfl⟩)

/-- Encoding and parsing the parts of a repeated field. -/
theorem map_roundtrip {M : Type} {ser : M → Bytes} {parse : Bytes → M} {l : List M}
    (h : ∀ m ∈ l, parse (ser m) = m) : (l.map ser).map parse = l := by
  rw [List.map_map]
  conv => rhs; rw [← List.map_id l]
  exact List.map_congr_left (fun m hm => h m hm)

/-! ### the data types -/

theorem ct_roundtrip (x : CtProto) (h : (serCt x).length < 2 ^ 31) : parseCt (serCt x) = x := by
  have : parseMsg (serCt x) = [(1, .len x.u), (2, .len x.e)] := parse_small (by simp [Small]) h
  rw [parseCt, this]
  simp [getBytes]

theorem sub_le (k : Nat) (b : Bytes) : b.length ≤ (encFields [(k, WVal.len b)]).length := len_enc_le (k := k) (by simp)

theorem elem_roundtrip (x : EncElem) (h : (serElem x).length < 2 ^ 31) : parseElem (serElem x) = x := by
  have main : ∀ (k : Nat) (b : Bytes), k ∈ [1, 2, 3, 4, 5] → (encFields [(k, WVal.len b)]).length < 2 ^ 31 →
      getOneof [1, 2, 3, 4, 5] (parseMsg (encFields [(k, .len b)])) = some (k, b) := by
    intro k b hk hl
    have hk' : k < 2 ^ 28 := by simp only [List.mem_cons, List.not_mem_nil, or_false] at hk; omega
    rw [parse_small (small_one hk' b) hl]
    simp only [getOneof, List.foldl_cons, List.foldl_nil, oneofStep, if_pos hk]
  cases x with
  | notSet => rfl
  | noPayload a =>
    simp only [serElem] at h ⊢
    rw [parseElem, main 1 _ (by simp) h]
    have h1 := lt_of_le_of_lt (sub_le 1 _) h
    have h2 := lt_of_le_of_lt (sub_le 1 _) h1
    simp only [if_true]
    rw [parse_small (small_one (by norm_num) _) h1]
    simp [ctOf, getOpt, getRep, ct_roundtrip a h2]
  | paillier a p =>
    simp only [serElem] at h ⊢
    rw [parseElem, main 2 _ (by simp) h]
    have h1 := lt_of_le_of_lt (sub_le 2 _) h
    have h2 : (serCt a).length < 2 ^ 31 := lt_of_le_of_lt (len_enc_le (k := 1) (by simp)) h1
    simp only [if_true]
    rw [parse_small (by simp [Small]) h1]
    simp [ctOf, getOpt, getRep, getBytes, ct_roundtrip a h2]
  | elgamal a p =>
    simp only [serElem] at h ⊢
    rw [parseElem, main 3 _ (by simp) h]
    have h1 := lt_of_le_of_lt (sub_le 3 _) h
    have h2 : (serCt a).length < 2 ^ 31 := lt_of_le_of_lt (len_enc_le (k := 1) (by simp)) h1
    have h3 : (serCt p).length < 2 ^ 31 := lt_of_le_of_lt (len_enc_le (k := 2) (by simp)) h1
    simp only [if_true]
    rw [parse_small (by simp [Small]) h1]
    simp [ctOf, getOpt, getRep, ct_roundtrip a h2, ct_roundtrip p h3]
  | deletion a p =>
    simp only [serElem] at h ⊢
    rw [parseElem, main 4 _ (by simp) h]
    have h1 := lt_of_le_of_lt (sub_le 4 _) h
    simp only [if_true]
    rw [parse_small (by simp [Small]) h1]
    simp [getBytes]
  | onlyPaillier a =>
    simp only [serElem] at h ⊢
    rw [parseElem, main 5 _ (by simp) h]
    have h1 := lt_of_le_of_lt (sub_le 5 _) h
    simp only [if_true]
    rw [parse_small (by simp [Small]) h1]
    simp [getBytes]

/-- The shape shared by messages with one repeated field. -/
theorem rep_roundtrip {M : Type} {ser : M → Bytes} {parse : Bytes → M} {k : Nat} (hk : k < 2 ^ 28)
    (hp : ∀ m, (ser m).length < 2 ^ 31 → parse (ser m) = m) (l : List M)
    (h : (encFields (repField k (l.map ser))).length < 2 ^ 31) :
    (getRep k (parseMsg (encFields (repField k (l.map ser))))).map parse = l := by
  rw [parse_small (small_rep hk _) h, getRep_rep]
  refine map_roundtrip (fun m hm => hp m ?_)
  have := mem_rep_le (k := k) (a := []) (c := []) (List.mem_map_of_mem (f := ser) hm)
  simp only [List.nil_append, List.append_nil] at this
  omega

theorem set_roundtrip (l : List EncElem) (h : (serSet l).length < 2 ^ 31) : parseSet (serSet l) = l :=
  rep_roundtrip (by norm_num) elem_roundtrip l h

theorem vec_roundtrip (l : List (List EncElem)) (h : (serVec l).length < 2 ^ 31) : parseVec (serVec l) = l :=
  rep_roundtrip (by norm_num) set_roundtrip l h

theorem treeNode_roundtrip (l : List EncElem) (h : (serTreeNode l).length < 2 ^ 31) : parseTreeNode (serTreeNode l) = l :=
  rep_roundtrip (by norm_num) elem_roundtrip l h

theorem hash_roundtrip (h : List Bool) : parseHash (serHash h) = h := by
  induction h with
  | nil => rfl
  | cons x h ih =>
    simp only [serHash, parseHash, List.map_cons] at ih ⊢
    rw [ih]
    cases x <;> rfl

theorem updates_roundtrip (m : Msg EncElem) (h : (serUpdates m).length < 2 ^ 31) : parseUpdates (serUpdates m) = m := by
  rcases m with ⟨hs, ns⟩
  simp only [serUpdates] at h
  simp only [serUpdates, parseUpdates]
  rw [parse_small (small_append (small_rep (by norm_num) _) (small_rep (by norm_num) _)) h, getRep_append, getRep_append,
    getRep_rep, getRep_rep_ne (by norm_num), getRep_rep_ne (by norm_num), getRep_rep, List.append_nil, List.nil_append,
    map_roundtrip (fun x _ => hash_roundtrip x), map_roundtrip (fun n hn => treeNode_roundtrip n ?_)]
  have := mem_rep_le (k := 2) (a := repField 1 (hs.map serHash)) (c := []) (List.mem_map_of_mem (f := serTreeNode) hn)
  simp only [List.append_nil] at this
  omega

/-! ### tree files -/

theorem enc32_small {n : Nat} (h : n < 2 ^ 31) : enc32 n = n := by
  simp only [enc32, int32]; omega

theorem enc32_lt (n : Nat) : enc32 n < 2 ^ 64 := by
  simp only [enc32, int32]; omega

theorem pelem_roundtrip (x : PElem) (h : (serPElem x).length < 2 ^ 31) : parsePElem (serPElem x) = x := by
  have : parseMsg (serPElem x) = [(1, .len x.element), (2, .len x.payload)] := parse_small (by simp [Small]) h
  rw [parsePElem, this]
  simp [getBytes]

theorem kv_roundtrip (x : Bytes × Bytes) (h : (serKV x).length < 2 ^ 31) : parseKV (serKV x) = x := by
  have : parseMsg (serKV x) = [(1, .len x.1), (2, .len x.2)] := parse_small (by simp [Small]) h
  rw [parseKV, this]
  simp [getBytes]

theorem getInt32_append (k : Nat) (a b : List (Nat × WVal)) (h : ∀ n v, (n, WVal.varint v) ∈ a → n ≠ k) :
    getInt32 k (a ++ b) = getInt32 k b := by
  simp only [getInt32, List.foldl_append]
  congr 2
  induction a with
  | nil => rfl
  | cons f a ih =>
    rw [List.foldl_cons]
    rcases f with ⟨n, v⟩
    cases v with
    | varint v =>
      have : n ≠ k := h n v List.mem_cons_self
      simp only [if_neg this]
      exact ih (fun n v hm => h n v (List.mem_cons_of_mem _ hm))
    | len b => exact ih (fun n v hm => h n v (List.mem_cons_of_mem _ hm))

theorem rep_no_varint {k n v : Nat} {l : List Bytes} (h : (n, WVal.varint v) ∈ repField k l) : False := by
  simp [repField] at h

theorem getRep_sizes (k s n a d : Nat) : getRep k (sizeFields s n a d) = [] := by
  simp [getRep, sizeFields]

theorem small_sizes (s n a d : Nat) : ∀ f ∈ sizeFields s n a d, Small f := by
  intro f hf
  simp only [sizeFields, List.mem_cons, List.not_mem_nil, or_false] at hf
  rcases hf with rfl | rfl | rfl | rfl <;> exact ⟨by norm_num, enc32_lt _⟩

theorem int32_small {n : Nat} (h : n < 2 ^ 31) : int32 ((n : Nat) : Int) = n := by
  simp only [int32]; omega

theorem pnode_roundtrip (x : PNode) (hn : x.nodeSize < 2 ^ 31) (h : (serPNode x).length < 2 ^ 31) : parsePNode (serPNode x) = x := by
  rcases x with ⟨n, es⟩
  simp only [serPNode] at h
  simp only [serPNode, parsePNode]
  rw [parse_small (small_append (small_rep (by norm_num) _) (by simpa [Small] using enc32_lt n)) h, getRep_append, getRep_rep,
    getInt32_append _ _ _ (fun _ _ hm => (rep_no_varint hm).elim)]
  have e1 : getRep 1 [(2, WVal.varint (enc32 n))] = [] := by simp [getRep]
  rw [e1, List.append_nil, map_roundtrip (fun m hm => pelem_roundtrip m ?_)]
  · have : getInt32 2 [(2, WVal.varint (enc32 n))] = n := by
      simp only [getInt32, List.foldl_cons, List.foldl_nil, if_true, enc32_small hn, int32_small hn]
    rw [this]
    rfl
  · have := mem_rep_le (k := 1) (a := []) (c := [(2, WVal.varint (enc32 n))]) (List.mem_map_of_mem (f := serPElem) hm)
    simp only [List.nil_append] at this
    omega

theorem sizes_read (s n a d : Nat) (h1 : s < 2 ^ 31) (h2 : n < 2 ^ 31) (h3 : a < 2 ^ 31) (h4 : d < 2 ^ 31) :
    getInt32 2 (sizeFields s n a d) = s ∧ getInt32 3 (sizeFields s n a d) = n ∧ getInt32 4 (sizeFields s n a d) = a ∧
      getInt32 5 (sizeFields s n a d) = d := by
  simp only [getInt32, sizeFields, enc32_small h1, enc32_small h2, enc32_small h3, enc32_small h4, List.foldl_cons, List.foldl_nil]
  refine ⟨?_, ?_, ?_, ?_⟩ <;> simp <;> exact int32_small ‹_›

end Upsi.Wire
