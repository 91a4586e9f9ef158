import Verif.Wire.Lemmas
import Verif.Setup.KeyProps
/- Property theorems C72: messages and tree files survive their encoding to bytes. -/
namespace Upsi.Wire
open Upsi Upsi.Rec Upsi.ElGamal Upsi.Tree Upsi.Proto Upsi.Setup

theorem opt_roundtrip {M : Type} {ser : M → Bytes} {parse : Bytes → M} {o : Option M}
    (h : ∀ m, o = some m → parse (ser m) = m) : (o.map ser).map parse = o := by
  cases o with
  | none => rfl
  | some m => simp [h m rfl]

/-- An optional part is no longer than the message. -/
theorem opt_le {k : Nat} {o : Option Bytes} {a c : List (Nat × WVal)} {b : Bytes} (h : o = some b) :
    b.length ≤ (encFields (a ++ optField k o ++ c)).length := by
  refine len_enc_le (k := k) ?_
  subst h
  simp [optField]

theorem pmsg_roundtrip (m : PMsg) (h : (serPMsg m).length < 2 ^ 31) : parsePMsg (serPMsg m) = m := by
  rcases m with ⟨u, c, v⟩
  simp only [serPMsg] at h
  have hu : ∀ x, u = some x → (serUpdates x).length < 2 ^ 31 := fun x hx => by
    refine lt_of_le_of_lt ?_ h
    have := opt_le (k := 1) (o := u.map serUpdates) (a := []) (c := optField 2 (c.map serSet) ++ optField 3 (v.map serVec))
      (b := serUpdates x) (by simp [hx])
    rw [List.nil_append, ← List.append_assoc] at this
    exact this
  have hc : ∀ x, c = some x → (serSet x).length < 2 ^ 31 := fun x hx =>
    lt_of_le_of_lt (opt_le (b := serSet x) (by simp [hx])) h
  have hv : ∀ x, v = some x → (serVec x).length < 2 ^ 31 := fun x hx => by
    refine lt_of_le_of_lt ?_ h
    have := opt_le (k := 3) (o := v.map serVec) (a := optField 1 (u.map serUpdates) ++ optField 2 (c.map serSet)) (c := [])
      (b := serVec x) (by simp [hx])
    rw [List.append_nil] at this
    exact this
  simp only [serPMsg, parsePMsg]
  rw [parse_small (small_append (small_append (small_opt (by norm_num) _) (small_opt (by norm_num) _)) (small_opt (by norm_num) _)) h]
  have e1 : getOpt 1 (optField 1 (u.map serUpdates) ++ optField 2 (c.map serSet) ++ optField 3 (v.map serVec)) = u.map serUpdates :=
    getOpt_of (by rw [getRep_append, getRep_append, getRep_opt, getRep_opt_ne (by norm_num), getRep_opt_ne (by norm_num)]; simp)
  have e2 : getOpt 2 (optField 1 (u.map serUpdates) ++ optField 2 (c.map serSet) ++ optField 3 (v.map serVec)) = c.map serSet :=
    getOpt_of (by rw [getRep_append, getRep_append, getRep_opt, getRep_opt_ne (by norm_num), getRep_opt_ne (by norm_num)]; simp)
  have e3 : getOpt 3 (optField 1 (u.map serUpdates) ++ optField 2 (c.map serSet) ++ optField 3 (v.map serVec)) = v.map serVec :=
    getOpt_of (by rw [getRep_append, getRep_append, getRep_opt, getRep_opt_ne (by norm_num), getRep_opt_ne (by norm_num)]; simp)
  rw [e1, e2, e3, opt_roundtrip (fun x hx => updates_roundtrip x (hu x hx)), opt_roundtrip (fun x hx => set_roundtrip x (hc x hx)),
    opt_roundtrip (fun x hx => vec_roundtrip x (hv x hx))]

theorem sum_roundtrip (m : Option CtProto) (h : (serSum m).length < 2 ^ 31) : parseSum (serSum m) = m := by
  simp only [serSum] at h
  simp only [serSum, parseSum]
  rw [parse_small (small_opt (by norm_num) _) h, getOpt_of (getRep_opt 1 _), opt_roundtrip (fun x hx => ct_roundtrip x ?_)]
  have := opt_le (k := 1) (o := m.map serCt) (a := []) (c := []) (b := serCt x) (by simp [hx])
  simp only [List.nil_append, List.append_nil] at this
  omega

theorem shares_roundtrip (l : List Bytes) (h : (serShares l).length < 2 ^ 31) : parseShares (serShares l) = l := by
  refine rep_roundtrip (ser := fun c => encFields [(1, .len c)]) (parse := fun m => getBytes 1 (parseMsg m)) (by norm_num) ?_ l h
  intro m hm
  rw [parse_small (small_one (by norm_num) _) hm]
  simp [getBytes]

/-- Reading a `oneof` of which one member was written. -/
theorem oneof_one {ks : List Nat} {k : Nat} {b : Bytes} (hk : k ∈ ks) (hk' : k < 2 ^ 28)
    (h : (encFields [(k, WVal.len b)]).length < 2 ^ 31) : getOneof ks (parseMsg (encFields [(k, .len b)])) = some (k, b) := by
  rw [parse_small (small_one hk' b) h]
  simp only [getOneof, List.foldl_cons, List.foldl_nil, oneofStep, if_pos hk]

theorem p0_roundtrip (m : P0Msg) (h : (serP0 m).length < 2 ^ 31) : parseP0 (serP0 m) = m := by
  cases m with
  | notSet => rfl
  | i m =>
    simp only [serP0] at h
    rw [serP0, parseP0, oneof_one (by simp) (by norm_num) h]
    simp [pmsg_roundtrip m (lt_of_le_of_lt (sub_le 1 _) h)]
  | iiiSum m =>
    simp only [serP0] at h
    rw [serP0, parseP0, oneof_one (by simp) (by norm_num) h]
    simp [sum_roundtrip m (lt_of_le_of_lt (sub_le 2 _) h)]
  | iiiSS l =>
    simp only [serP0] at h
    rw [serP0, parseP0, oneof_one (by simp) (by norm_num) h]
    simp [shares_roundtrip l (lt_of_le_of_lt (sub_le 3 _) h)]

theorem p1_roundtrip (m : P1Msg) (h : (serP1 m).length < 2 ^ 31) : parseP1 (serP1 m) = m := by
  cases m with
  | notSet => rfl
  | ii m =>
    simp only [serP1] at h
    rw [serP1, parseP1, oneof_one (by simp) (by norm_num) h]
    simp [pmsg_roundtrip m (lt_of_le_of_lt (sub_le 1 _) h)]
  | iv m =>
    simp only [serP1] at h
    rw [serP1, parseP1, oneof_one (by simp) (by norm_num) h]
    simp [sum_roundtrip m (lt_of_le_of_lt (sub_le 2 _) h)]

theorem og_roundtrip (m : OgMsg) (h : (serOg m).length < 2 ^ 31) : parseOg (serOg m) = m := by
  cases m with
  | notSet => rfl
  | i u c =>
    simp only [serOg] at h
    rw [serOg, parseOg, oneof_one (by simp) (by norm_num) h]
    have h1 := lt_of_le_of_lt (sub_le 1 _) h
    simp only [if_true]
    rw [parse_small (small_append (small_opt (by norm_num) _) (small_rep (by norm_num) _)) h1]
    have e1 : getOpt 1 (optField 1 (u.map serUpdates) ++ repField 2 c) = u.map serUpdates :=
      getOpt_of (by rw [getRep_append, getRep_opt, getRep_rep_ne (by norm_num)]; simp)
    have e2 : getRep 2 (optField 1 (u.map serUpdates) ++ repField 2 c) = c := by
      rw [getRep_append, getRep_opt_ne (by norm_num), getRep_rep, List.nil_append]
    rw [e1, e2, opt_roundtrip (fun x hx => updates_roundtrip x ?_)]
    have := opt_le (k := 1) (o := u.map serUpdates) (a := []) (c := repField 2 c) (b := serUpdates x) (by simp [hx])
    rw [List.nil_append] at this
    omega
  | ii a c =>
    simp only [serOg] at h
    rw [serOg, parseOg, oneof_one (by simp) (by norm_num) h]
    have h1 := lt_of_le_of_lt (sub_le 2 _) h
    simp only [show ¬ (2 : Nat) = 1 by decide, if_true, if_false]
    rw [parse_small (small_append (small_opt (by norm_num) _) (small_rep (by norm_num) _)) h1]
    have e1 : getOpt 1 (optField 1 (a.map serCt) ++ repField 2 (c.map serSet)) = a.map serCt :=
      getOpt_of (by rw [getRep_append, getRep_opt, getRep_rep_ne (by norm_num)]; simp)
    have e2 : getRep 2 (optField 1 (a.map serCt) ++ repField 2 (c.map serSet)) = c.map serSet := by
      rw [getRep_append, getRep_opt_ne (by norm_num), getRep_rep, List.nil_append]
    rw [e1, e2, opt_roundtrip (fun x hx => ct_roundtrip x ?_), map_roundtrip (fun x hx => set_roundtrip x ?_)]
    · have := mem_rep_le (k := 2) (a := optField 1 (a.map serCt)) (c := []) (List.mem_map_of_mem (f := serSet) hx)
      rw [List.append_nil] at this
      omega
    · have := opt_le (k := 1) (o := a.map serCt) (a := []) (c := repField 2 (c.map serSet)) (b := serCt x) (by simp [hx])
      rw [List.nil_append] at this
      omega
  | iii c =>
    simp only [serOg] at h
    rw [serOg, parseOg, oneof_one (by simp) (by norm_num) h]
    have h1 := lt_of_le_of_lt (sub_le 3 _) h
    simp only [show ¬ (3 : Nat) = 1 by decide, show ¬ (3 : Nat) = 2 by decide, if_true, if_false]
    rw [rep_roundtrip (by norm_num) set_roundtrip c h1]
  | iv c =>
    simp only [serOg] at h
    rw [serOg, parseOg, oneof_one (by simp) (by norm_num) h]
    have h1 := lt_of_le_of_lt (sub_le 4 _) h
    simp only [show ¬ (4 : Nat) = 1 by decide, show ¬ (4 : Nat) = 2 by decide, show ¬ (4 : Nat) = 3 by decide, if_true, if_false]
    rw [parse_small (small_rep (by norm_num) _) h1, getRep_rep]
  | v c =>
    simp only [serOg] at h
    rw [serOg, parseOg, oneof_one (by simp) (by norm_num) h]
    have h1 := lt_of_le_of_lt (sub_le 5 _) h
    simp only [show ¬ (5 : Nat) = 1 by decide, show ¬ (5 : Nat) = 2 by decide, show ¬ (5 : Nat) = 3 by decide,
      show ¬ (5 : Nat) = 4 by decide, if_true, if_false]
    rw [parse_small (small_rep (by norm_num) _) h1, getRep_rep]

/-- **C72** (messages from the client) Whatever a client puts into a message – of any of the protocols, with any number of
tree nodes, elements and ciphertexts of any length – the server reads back exactly that, provided the encoding is below the
2 GiB limit of the format. -/
theorem C72_client (m : CMsg) (h : (serClient m).length < 2 ^ 31) : parseClient (serClient m) = m := by
  cases m with
  | notSet => rfl
  | p0 m =>
    simp only [serClient] at h
    rw [serClient, parseClient, oneof_one (by simp) (by norm_num) h]
    simp [p0_roundtrip m (lt_of_le_of_lt (sub_le 1 _) h)]
  | og m =>
    simp only [serClient] at h
    rw [serClient, parseClient, oneof_one (by simp) (by norm_num) h]
    simp [og_roundtrip m (lt_of_le_of_lt (sub_le 2 _) h)]

/-- **C72** (messages from the server) -/
theorem C72_server (m : SMsg) (h : (serServer m).length < 2 ^ 31) : parseServer (serServer m) = m := by
  cases m with
  | notSet => rfl
  | p1 m =>
    simp only [serServer] at h
    rw [serServer, parseServer, oneof_one (by simp) (by norm_num) h]
    simp [p1_roundtrip m (lt_of_le_of_lt (sub_le 1 _) h)]
  | og m =>
    simp only [serServer] at h
    rw [serServer, parseServer, oneof_one (by simp) (by norm_num) h]
    simp [og_roundtrip m (lt_of_le_of_lt (sub_le 2 _) h)]

/-- **C72** Different messages have different bytes. -/
theorem C72_injective {m m' : CMsg} (h : (serClient m).length < 2 ^ 31) (e : serClient m = serClient m') : m = m' := by
  rw [← C72_client m h, e, C72_client m' (e ▸ h)]

/-- **C72** Different messages of the server have different bytes. -/
theorem C72_injective_server {m m' : SMsg} (h : (serServer m).length < 2 ^ 31) (e : serServer m = serServer m') : m = m' := by
  rw [← C72_server m h, e, C72_server m' (e ▸ h)]

/-- **C72** An empty message, and one with unknown fields only, is read as a message of no kind (which the parties refuse, C50);
a later member of a `oneof` replaces an earlier one of another kind. -/
theorem C72_unset (l : List (Nat × WVal)) (h : ∀ f ∈ l, 2 < f.1) (h' : ∀ f ∈ l, FieldOK f) :
    parseClient (encFields l) = .notSet ∧ parseServer (encFields l) = .notSet := by
  have : getOneof [1, 2] l = none := by
    unfold getOneof
    induction l with
    | nil => rfl
    | cons f l ih =>
      rw [List.foldl_cons]
      have e : oneofStep [1, 2] none f = none := by
        rcases f with ⟨k, v⟩
        have hk : 2 < k := h (k, v) List.mem_cons_self
        cases v with
        | varint v => rfl
        | len b =>
          simp only [oneofStep]
          rw [if_neg (by simp only [List.mem_cons, List.not_mem_nil, or_false]; omega)]
      rw [e]
      exact ih (fun f hf => h f (List.mem_cons_of_mem _ hf)) (fun f hf => h' f (List.mem_cons_of_mem _ hf))
  constructor
  · rw [parseClient, parseMsg_enc h', this]
  · rw [parseServer, parseMsg_enc h', this]

/-- **C72** The last member of a `oneof` wins. -/
theorem C72_last_wins (m : P0Msg) (r : P1Msg) (o : OgMsg) :
    ((serClient (.p0 m) ++ serClient (.og o)).length < 2 ^ 31 → parseClient (serClient (.p0 m) ++ serClient (.og o)) = .og o) ∧
    ((serClient (.og o) ++ serClient (.p0 m)).length < 2 ^ 31 → parseClient (serClient (.og o) ++ serClient (.p0 m)) = .p0 m) ∧
    ((serServer (.p1 r) ++ serServer (.og o)).length < 2 ^ 31 → parseServer (serServer (.p1 r) ++ serServer (.og o)) = .og o) ∧
    ((serServer (.og o) ++ serServer (.p1 r)).length < 2 ^ 31 → parseServer (serServer (.og o) ++ serServer (.p1 r)) = .p1 r) := by
  refine ⟨fun h => ?_, fun h => ?_, fun h => ?_, fun h => ?_⟩ <;> simp only [serClient, serServer, ← encFields_append] at h ⊢
  · have h2 : (serOg o).length < 2 ^ 31 := lt_of_le_of_lt (len_enc_le (k := 2) (by simp)) h
    rw [parseClient, parse_small (small_append (small_one (by norm_num) _) (small_one (by norm_num) _)) h]
    simp [getOneof, oneofStep, og_roundtrip o h2]
  · have h2 : (serP0 m).length < 2 ^ 31 := lt_of_le_of_lt (len_enc_le (k := 1) (by simp)) h
    rw [parseClient, parse_small (small_append (small_one (by norm_num) _) (small_one (by norm_num) _)) h]
    simp [getOneof, oneofStep, p0_roundtrip m h2]
  · have h2 : (serOg o).length < 2 ^ 31 := lt_of_le_of_lt (len_enc_le (k := 2) (by simp)) h
    rw [parseServer, parse_small (small_append (small_one (by norm_num) _) (small_one (by norm_num) _)) h]
    simp [getOneof, oneofStep, og_roundtrip o h2]
  · have h2 : (serP1 r).length < 2 ^ 31 := lt_of_le_of_lt (len_enc_le (k := 1) (by simp)) h
    rw [parseServer, parse_small (small_append (small_one (by norm_num) _) (small_one (by norm_num) _)) h]
    simp [getOneof, oneofStep, p1_roundtrip r h2]

/-! ### tree files -/

/-- The numbers of a tree fit the `int32` fields of the file. -/
def SizesFit (stash node actual depth : Nat) : Prop := stash < 2 ^ 31 ∧ node < 2 ^ 31 ∧ actual < 2 ^ 31 ∧ depth < 2 ^ 31

/-- **C72** (plaintext tree files) -/
theorem C72_plain_tree (t : PTree) (hs : SizesFit t.stashSize t.nodeSize t.actualSize t.depth)
    (hn : ∀ n ∈ t.nodes, n.nodeSize < 2 ^ 31) (h : (serPTree t).length < 2 ^ 31) : parsePTree (serPTree t) = t := by
  rcases t with ⟨s, n, a, d, ns⟩
  obtain ⟨h1, h2, h3, h4⟩ := hs
  simp only [serPTree] at h
  simp only [serPTree, parsePTree]
  rw [parse_small (small_append (small_rep (by norm_num) _) (small_sizes _ _ _ _)) h]
  obtain ⟨e2, e3, e4, e5⟩ := sizes_read s n a d h1 h2 h3 h4
  rw [getInt32_append _ _ _ (fun _ _ hm => (rep_no_varint hm).elim), getInt32_append _ _ _ (fun _ _ hm => (rep_no_varint hm).elim),
    getInt32_append _ _ _ (fun _ _ hm => (rep_no_varint hm).elim), getInt32_append _ _ _ (fun _ _ hm => (rep_no_varint hm).elim),
    e2, e3, e4, e5, getRep_append, getRep_rep, getRep_sizes, List.append_nil,
    map_roundtrip (fun x hx => pnode_roundtrip x (hn x hx) ?_)]
  · rfl
  · have := mem_rep_le (k := 1) (a := []) (c := sizeFields s n a d) (List.mem_map_of_mem (f := serPNode) hx)
    rw [List.nil_append] at this
    exact lt_of_le_of_lt this h

/-- **C72** (encrypted tree files) -/
theorem C72_encrypted_tree (t : ETree) (hs : SizesFit t.stashSize t.nodeSize t.actualSize t.depth)
    (h : (serETree t).length < 2 ^ 31) : parseETree (serETree t) = t := by
  rcases t with ⟨s, n, a, d, ns⟩
  obtain ⟨h1, h2, h3, h4⟩ := hs
  simp only [serETree] at h
  simp only [serETree, parseETree]
  rw [parse_small (small_append (small_rep (by norm_num) _) (small_sizes _ _ _ _)) h]
  obtain ⟨e2, e3, e4, e5⟩ := sizes_read s n a d h1 h2 h3 h4
  rw [getInt32_append _ _ _ (fun _ _ hm => (rep_no_varint hm).elim), getInt32_append _ _ _ (fun _ _ hm => (rep_no_varint hm).elim),
    getInt32_append _ _ _ (fun _ _ hm => (rep_no_varint hm).elim), getInt32_append _ _ _ (fun _ _ hm => (rep_no_varint hm).elim),
    e2, e3, e4, e5, getRep_append, getRep_rep, getRep_sizes, List.append_nil,
    map_roundtrip (fun x hx => treeNode_roundtrip x ?_)]
  · rfl
  · have := mem_rep_le (k := 1) (a := []) (c := sizeFields s n a d) (List.mem_map_of_mem (f := serTreeNode) hx)
    rw [List.nil_append] at this
    exact lt_of_le_of_lt this h

/-- **C72** (tag files of the original protocol) -/
theorem C72_oprf (l : List (Bytes × Bytes)) (h : (serOPRF l).length < 2 ^ 31) : parseOPRF (serOPRF l) = l :=
  rep_roundtrip (by norm_num) kv_roundtrip l h

/-- **C72** A tree written to a file by the setup program is what a party reads from that file. -/
theorem C72_tree_file (t : ETree) (p : PTree) (hs : SizesFit t.stashSize t.nodeSize t.actualSize t.depth)
    (hp : SizesFit p.stashSize p.nodeSize p.actualSize p.depth) (hn : ∀ n ∈ p.nodes, n.nodeSize < 2 ^ 31)
    (name : String) (fs fs' : FS) :
    (writeKey serETree t name fs = .ok fs' → readKey parseETree name fs' = .ok t) ∧
    (writeKey serPTree p name fs = .ok fs' → readKey parsePTree name fs' = .ok p) :=
  ⟨fun h => (write_spec (m' := t) (fun hl => C72_encrypted_tree t hs hl) h).1 name rfl,
    fun h => (write_spec (m' := p) (fun hl => C72_plain_tree p hp hn hl) h).1 name rfl⟩

/-! ### instances -/

/-- A message I with a tree update of two nodes and two candidates. -/
def toyMsg : CMsg :=
  .p0 (.i ⟨some ⟨[[true, false], [false, false]], [[.noPayload ⟨[2, 7], [3]⟩], [.elgamal ⟨[], [1]⟩ ⟨[0, 0], [9]⟩, .notSet]]⟩,
    some [.paillier ⟨[4], [5]⟩ [6, 6], .deletion [1] []], none⟩)

/-- Bytes as the C++ program produces them. -/
example : serElem (.noPayload ⟨[2, 7], [3]⟩) = [10, 9, 10, 7, 10, 2, 2, 7, 18, 1, 3] := by decide +kernel
example : (serClient toyMsg).length < 2 ^ 31 ∧ parseClient (serClient toyMsg) = toyMsg := by
  have h : (serClient toyMsg).length < 2 ^ 31 := by decide +kernel
  exact ⟨h, C72_client _ h⟩

/-- A size that does not fit `int32` is not read back. -/
theorem C72_overflow : ∃ t : ETree, (serETree t).length < 2 ^ 31 ∧ parseETree (serETree t) ≠ t :=
  ⟨⟨2 ^ 32 + 5, 4, 0, 0, []⟩, by decide +kernel, by decide +kernel⟩

example : SizesFit 89 4 1000 9 := by unfold SizesFit; omega

end Upsi.Wire
