import Verif.Wire.Props
/- Property theorems C72: reading concatenated messages, and numbers on the wire. -/
namespace Upsi.Wire
open Upsi Upsi.Rec Upsi.ElGamal Upsi.Tree Upsi.Proto Upsi.Setup

/-! ### specification -/

/-- Merging two optional parts: a part that is present only once is kept. -/
def mergeOpt {α : Type} (f : α → α → α) : Option α → Option α → Option α
  | some a, some b => some (f a b)
  | some a, none => some a
  | none, o => o

/-- `MergeFrom` of two messages I (or II): all lists are appended. -/
def PMsg.merge (a b : PMsg) : PMsg :=
  ⟨mergeOpt (fun x y => ⟨x.hashes ++ y.hashes, x.nodes ++ y.nodes⟩) a.updates b.updates,
   mergeOpt (· ++ ·) a.candidates b.candidates, mergeOpt (· ++ ·) a.vct b.vct⟩

/-! ### proofs -/

theorem parse_two {a b : List (Nat × WVal)} (ha : ∀ f ∈ a, Small f) (hb : ∀ f ∈ b, Small f)
    (h : (encFields a ++ encFields b).length < 2 ^ 31) : parseMsg (encFields a ++ encFields b) = a ++ b := by
  rw [← encFields_append] at h ⊢
  exact parse_small (small_append ha hb) h

theorem rep_concat {M : Type} {ser : M → Bytes} {parse : Bytes → M} {k : Nat} (hk : k < 2 ^ 28)
    (hp : ∀ m, (ser m).length < 2 ^ 31 → parse (ser m) = m) (l l' : List M)
    (h : (encFields (repField k (l.map ser)) ++ encFields (repField k (l'.map ser))).length < 2 ^ 31) :
    (getRep k (parseMsg (encFields (repField k (l.map ser)) ++ encFields (repField k (l'.map ser))))).map parse = l ++ l' := by
  have e : encFields (repField k (l.map ser)) ++ encFields (repField k (l'.map ser)) =
      encFields (repField k ((l ++ l').map ser)) := by rw [← encFields_append]; simp [repField]
  rw [e] at h ⊢
  exact rep_roundtrip hk hp _ h

theorem set_concat (l l' : List EncElem) (h : (serSet l ++ serSet l').length < 2 ^ 31) :
    parseSet (serSet l ++ serSet l') = l ++ l' := rep_concat (by norm_num) elem_roundtrip l l' h

theorem vec_concat (l l' : List (List EncElem)) (h : (serVec l ++ serVec l').length < 2 ^ 31) :
    parseVec (serVec l ++ serVec l') = l ++ l' := rep_concat (by norm_num) set_roundtrip l l' h

theorem updates_concat (m m' : Msg EncElem) (h : (serUpdates m ++ serUpdates m').length < 2 ^ 31) :
    parseUpdates (serUpdates m ++ serUpdates m') = ⟨m.hashes ++ m'.hashes, m.nodes ++ m'.nodes⟩ := by
  rcases m with ⟨hs, ns⟩
  rcases m' with ⟨hs', ns'⟩
  have hn : ∀ n ∈ ns ++ ns', (serTreeNode n).length < 2 ^ 31 := by
    intro n hn
    rw [List.length_append] at h
    rcases List.mem_append.1 hn with hn | hn
    · have := mem_rep_le (k := 2) (a := repField 1 (hs.map serHash)) (c := []) (List.mem_map_of_mem (f := serTreeNode) hn)
      simp only [List.append_nil] at this
      simp only [serUpdates] at h; omega
    · have := mem_rep_le (k := 2) (a := repField 1 (hs'.map serHash)) (c := []) (List.mem_map_of_mem (f := serTreeNode) hn)
      simp only [List.append_nil] at this
      simp only [serUpdates] at h; omega
  simp only [serUpdates] at h
  simp only [serUpdates, parseUpdates]
  have hs1 : ∀ (a : List Bytes) (b : List Bytes), ∀ f ∈ repField 1 a ++ repField 2 b, Small f := fun a b =>
    small_append (small_rep (by norm_num) _) (small_rep (by norm_num) _)
  rw [parse_two (hs1 _ _) (hs1 _ _) h]
  simp only [getRep_append, getRep_rep, getRep_rep_ne (show (1 : Nat) ≠ 2 by norm_num), getRep_rep_ne (show (2 : Nat) ≠ 1 by norm_num),
    List.append_nil, List.nil_append, ← List.map_append]
  rw [map_roundtrip (fun x _ => hash_roundtrip x), map_roundtrip (fun n h => treeNode_roundtrip n (hn n h))]

theorem opt_concat {M : Type} {ser : M → Bytes} {parse : Bytes → M} {f : M → M → M} {k : Nat} {o o' : Option M} {l : List (Nat × WVal)}
    (hl : getRep k l = (o.map ser).toList ++ (o'.map ser).toList) (h1 : ∀ m, o = some m ∨ o' = some m → parse (ser m) = m)
    (h2 : ∀ m m', o = some m → o' = some m' → parse (ser m ++ ser m') = f m m') :
    (getOpt k l).map parse = mergeOpt f o o' := by
  unfold getOpt
  rw [hl]
  cases o <;> cases o' <;> simp [mergeOpt, h1, h2]

theorem field_le {k : Nat} {b : Bytes} {a c : List (Nat × WVal)} (h : (k, WVal.len b) ∈ a ++ c) :
    b.length ≤ (encFields a ++ encFields c).length := by
  rw [← encFields_append]; exact len_enc_le h

theorem two_le {k : Nat} {b b' : Bytes} {a c : List (Nat × WVal)} (h : (k, WVal.len b) ∈ a) (h' : (k, WVal.len b') ∈ c) :
    b.length + b'.length ≤ (encFields a ++ encFields c).length := by
  rw [List.length_append]
  exact Nat.add_le_add (len_enc_le h) (len_enc_le h')

theorem pmsg_concat (a b : PMsg) (h : (serPMsg a ++ serPMsg b).length < 2 ^ 31) : parsePMsg (serPMsg a ++ serPMsg b) = a.merge b := by
  rcases a with ⟨u, c, v⟩
  rcases b with ⟨u', c', v'⟩
  have hs1 : ∀ a b c : Option Bytes, ∀ f ∈ optField 1 a ++ optField 2 b ++ optField 3 c, Small f := fun a b c =>
    small_append (small_append (small_opt (by norm_num) _) (small_opt (by norm_num) _)) (small_opt (by norm_num) _)
  simp only [serPMsg] at h
  simp only [serPMsg, parsePMsg, PMsg.merge]
  rw [parse_two (hs1 _ _ _) (hs1 _ _ _) h]
  have n12 : (1 : Nat) ≠ 2 := by norm_num
  have n13 : (1 : Nat) ≠ 3 := by norm_num
  have n23 : (2 : Nat) ≠ 3 := by norm_num
  congr 1
  · refine opt_concat (ser := serUpdates) (o := u) (o' := u') (by simp only [getRep_append, getRep_opt, getRep_opt_ne n12.symm, getRep_opt_ne n13.symm, List.append_nil]) ?_ ?_
    · rintro m (rfl | rfl) <;> exact updates_roundtrip m (lt_of_le_of_lt (field_le (k := 1) (by simp [optField])) h)
    · rintro m m' rfl rfl
      refine updates_concat m m' (lt_of_le_of_lt ?_ h)
      rw [List.length_append]
      exact two_le (k := 1) (by simp [optField]) (by simp [optField])
  · refine opt_concat (ser := serSet) (o := c) (o' := c') (by simp only [getRep_append, getRep_opt, getRep_opt_ne n12, getRep_opt_ne n23.symm, List.append_nil, List.nil_append]) ?_ ?_
    · rintro m (rfl | rfl) <;> exact set_roundtrip m (lt_of_le_of_lt (field_le (k := 2) (by simp [optField])) h)
    · rintro m m' rfl rfl
      refine set_concat m m' (lt_of_le_of_lt ?_ h)
      rw [List.length_append]
      exact two_le (k := 2) (by simp [optField]) (by simp [optField])
  · refine opt_concat (ser := serVec) (o := v) (o' := v') (by simp only [getRep_append, getRep_opt, getRep_opt_ne n13, getRep_opt_ne n23, List.nil_append]) ?_ ?_
    · rintro m (rfl | rfl) <;> exact vec_roundtrip m (lt_of_le_of_lt (field_le (k := 3) (by simp [optField])) h)
    · rintro m m' rfl rfl
      refine vec_concat m m' (lt_of_le_of_lt ?_ h)
      rw [List.length_append]
      exact two_le (k := 3) (by simp [optField]) (by simp [optField])

theorem oneof_two {ks : List Nat} {k : Nat} {b b' : Bytes} (hk : k ∈ ks) (hk' : k < 2 ^ 28)
    (h : (encFields [(k, WVal.len b)] ++ encFields [(k, WVal.len b')]).length < 2 ^ 31) :
    getOneof ks (parseMsg (encFields [(k, .len b)] ++ encFields [(k, .len b')])) = some (k, b ++ b') := by
  rw [parse_two (small_one hk' _) (small_one hk' _) h]
  simp only [getOneof, List.cons_append, List.nil_append, List.foldl_cons, List.foldl_nil, oneofStep, if_pos hk, if_true]

/-- **C72** (concatenation) Two messages I of a client in one string of bytes are read as one message whose updates and
candidates are those of the first followed by those of the second; likewise two messages II of a server. -/
theorem C72_concat (a b : PMsg) :
    ((serClient (.p0 (.i a)) ++ serClient (.p0 (.i b))).length < 2 ^ 31 →
      parseClient (serClient (.p0 (.i a)) ++ serClient (.p0 (.i b))) = .p0 (.i (a.merge b))) ∧
    ((serServer (.p1 (.ii a)) ++ serServer (.p1 (.ii b))).length < 2 ^ 31 →
      parseServer (serServer (.p1 (.ii a)) ++ serServer (.p1 (.ii b))) = .p1 (.ii (a.merge b))) := by
  have key : ∀ {x y : Bytes} {k : Nat}, (encFields [(k, WVal.len x)] ++ encFields [(k, WVal.len y)]).length < 2 ^ 31 →
      (x ++ y).length < 2 ^ 31 := fun {_ _ k} h => by
    rw [List.length_append]
    exact lt_of_le_of_lt (two_le (k := k) (by simp) (by simp)) h
  constructor
  · intro h
    simp only [serClient] at h ⊢
    have h1 := key h
    rw [parseClient, oneof_two (by simp) (by norm_num) h]
    simp only [serP0, if_true] at h1 ⊢
    have h2 := key h1
    rw [parseP0, oneof_two (by simp) (by norm_num) h1]
    simp only [if_true, pmsg_concat a b h2]
  · intro h
    simp only [serServer] at h ⊢
    have h1 := key h
    rw [parseServer, oneof_two (by simp) (by norm_num) h]
    simp only [serP1, if_true] at h1 ⊢
    have h2 := key h1
    rw [parseP1, oneof_two (by simp) (by norm_num) h1]
    simp only [if_true, pmsg_concat a b h2]

theorem writeVarint_ten {n : Nat} (h1 : 2 ^ 63 ≤ n) (h2 : n < 2 ^ 64) : (writeVarint n).length = 10 := by
  have step : ∀ m, 128 ≤ m → (writeVarint m).length = (writeVarint (m / 128)).length + 1 := by
    intro m hm
    rw [writeVarint, if_neg (by omega)]; simp
  rw [step n (by omega), step _ (by omega), step _ (by omega), step _ (by omega), step _ (by omega), step _ (by omega),
    step _ (by omega), step _ (by omega), step _ (by omega)]
  rw [writeVarint, if_pos (by omega)]; rfl

/-- **C72** (numbers) An `int32` field is read back as the 32-bit value of the number written, also if that is negative; a
negative value takes ten bytes. -/
theorem C72_int32 (n : Nat) : int32 ((enc32 n : Nat) : Int) = int32 n ∧
    (2 ^ 31 ≤ n → n < 2 ^ 32 → int32 n = n - 2 ^ 32 ∧ (writeVarint (enc32 n)).length = 10) := by
  refine ⟨by simp only [enc32, int32]; omega, fun h1 h2 => ⟨by simp only [int32]; omega, ?_⟩⟩
  exact writeVarint_ten (by simp only [enc32, int32]; omega) (enc32_lt n)

/-- Both parts of two messages that are merged. -/
example : parseClient (serClient toyMsg ++ serClient toyMsg) ≠ toyMsg := by
  have h : (serClient toyMsg ++ serClient toyMsg).length < 2 ^ 31 := by decide +kernel
  unfold toyMsg at h ⊢
  rw [(C72_concat _ _).1 h]
  decide

end Upsi.Wire
