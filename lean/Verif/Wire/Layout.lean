import Verif.Wire.Props
/-
C72: the bytes of every message are those that the .proto files prescribe.  The field numbers are looked up by name in a copy
of these files.
-/
namespace Upsi.Wire
open Upsi Upsi.Rec Upsi.ElGamal Upsi.Tree Upsi.Proto Upsi.Setup

/-! ### specification -/

/-- The messages of network/upsi.proto:16-206, crypto/elgamal.proto:43-85 and crypto/paillier.proto:21-46 with the names and numbers of their fields. -/
def protoFiles : List (String × List (String × Nat)) :=
  [("ElGamalCiphertext", [("u", 1), ("e", 2)]),
   ("ElGamalPublicKey", [("p", 1), ("g", 2), ("y", 3)]),
   ("ElGamalSecretKey", [("x", 1)]),
   ("PaillierPublicKey", [("n", 1), ("s", 2)]),
   ("PaillierPrivateKey", [("p", 1), ("q", 2), ("s", 3)]),
   ("ThresholdPaillierKey", [("n", 1), ("share", 2)]),
   ("EncryptedElement", [("no_payload", 1), ("paillier", 2), ("elgamal", 3), ("deletion", 4), ("only_paillier", 5)]),
   ("EncryptedElement.NoPayload", [("element", 1)]),
   ("EncryptedElement.PaillierPayload", [("element", 1), ("payload", 2)]),
   ("EncryptedElement.ElGamalPayload", [("element", 1), ("payload", 2)]),
   ("EncryptedElement.DeletionElement", [("element", 1), ("payload", 2)]),
   ("EncryptedElement.OnlyPaillier", [("element", 1)]),
   ("EncryptedSet", [("elements", 1)]),
   ("EncryptedSetVector", [("elements", 1)]),
   ("TreeNode", [("elements", 2)]),
   ("TreeUpdates", [("hashes", 1), ("nodes", 2)]),
   ("PaillierCiphertext", [("ciphertext", 1)]),
   ("PlaintextElement", [("element", 1), ("payload", 2)]),
   ("PlaintextNode", [("elements", 1), ("node_size", 2)]),
   ("PlaintextTree", [("nodes", 1), ("stash_size", 2), ("node_size", 3), ("actual_size", 4), ("depth", 5)]),
   ("EncryptedTree", [("nodes", 1), ("stash_size", 2), ("node_size", 3), ("actual_size", 4), ("depth", 5)]),
   ("OPRF_KV", [("element", 1), ("output", 2)]),
   ("OPRF", [("kv", 1)]),
   ("OriginalMessage", [("message_i", 1), ("message_ii", 2), ("message_iii", 3), ("message_iv", 4), ("message_v", 5)]),
   ("OriginalMessage.MessageI", [("updates", 1), ("ciphertexts", 2)]),
   ("OriginalMessage.MessageII", [("alpha", 1), ("candidates", 2)]),
   ("OriginalMessage.MessageIII", [("candidates", 1)]),
   ("OriginalMessage.MessageIV", [("ciphertexts", 1)]),
   ("OriginalMessage.MessageV", [("ciphertexts", 1)]),
   ("PartyZeroMessage", [("message_i", 1), ("message_iii_sum", 2), ("message_iii_ss", 3)]),
   ("PartyZeroMessage.MessageI", [("updates", 1), ("candidates", 2), ("candidates_vct", 3)]),
   ("PartyZeroMessage.MessageIII_SUM", [("sum", 1)]),
   ("PartyZeroMessage.MessageIII_SS", [("payloads", 1)]),
   ("ClientMessage", [("party_zero_msg", 1), ("og_msg", 2)]),
   ("PartyOneMessage", [("message_ii", 1), ("message_iv", 2)]),
   ("PartyOneMessage.MessageII", [("updates", 1), ("candidates", 2), ("candidates_vct", 3)]),
   ("PartyOneMessage.MessageIV", [("sum", 1)]),
   ("ServerMessage", [("party_one_msg", 1), ("og_msg", 2)])]

/-- The number of a field. -/
def fieldNo (msg field : String) : Nat := (((protoFiles.find? (fun m => m.1 == msg)).bind fun m => m.2.find? (fun f => f.1 == field)).map Prod.snd).getD 0

/-- A `bytes` or message field: the tag with wire type 2 (one byte, as all numbers are below 16), the length, the contents. -/
def field (msg name : String) (body : Bytes) : Bytes := UInt8.ofNat (8 * fieldNo msg name + 2) :: (writeVarint body.length ++ body)

/-- A repeated `bytes` or message field: one after the other. -/
def fields (msg name : String) (bodies : List Bytes) : Bytes := (bodies.map (field msg name)).flatten

/-- An optional field: nothing when absent. -/
def field? (msg name : String) (body : Option Bytes) : Bytes := fields msg name body.toList

/-- An `int32` field with a non-negative value: the tag with wire type 0, the number. -/
def number (msg name : String) (n : Nat) : Bytes := UInt8.ofNat (8 * fieldNo msg name) :: writeVarint n

/-! ### proofs -/

theorem varint_one {n : Nat} (h : n < 128) : writeVarint n = [UInt8.ofNat n] := by
  rw [writeVarint, if_pos h]

theorem enc_field {msg name : String} {k : Nat} (hk : fieldNo msg name = k) (h : k < 15) (b : Bytes) :
    encField (k, .len b) = field msg name b := by
  rw [encField, field, hk, varint_one (by omega)]; rfl

theorem enc_fields {msg name : String} {k : Nat} (hk : fieldNo msg name = k) (h : k < 15) (l : List Bytes) :
    encFields (repField k l) = fields msg name l := by
  induction l with
  | nil => rfl
  | cons b l ih =>
    rw [fields, List.map_cons, List.flatten_cons, ← fields, ← ih, ← enc_field hk h]; rfl

theorem enc_opt {msg name : String} {k : Nat} (hk : fieldNo msg name = k) (h : k < 15) (o : Option Bytes) :
    encFields (optField k o) = field? msg name o := by
  cases o with
  | none => rfl
  | some b => exact enc_fields hk h [b]

theorem enc_one {msg name : String} {k : Nat} (hk : fieldNo msg name = k) (h : k < 15) (b : Bytes) :
    encFields [(k, .len b)] = field msg name b := by
  rw [← enc_field hk h]; exact List.append_nil _

theorem enc_two {msg a b : String} {k l : Nat} (hk : fieldNo msg a = k) (h : k < 15) (hl : fieldNo msg b = l) (h' : l < 15) (x y : Bytes) :
    encFields [(k, .len x), (l, .len y)] = field msg a x ++ field msg b y := by
  rw [← enc_field hk h, ← enc_field hl h']; simp [encFields]

theorem enc_number {msg name : String} {k : Nat} (hk : fieldNo msg name = k) (h : k < 15) {n : Nat} (hn : n < 2 ^ 31) :
    encField (k, .varint (enc32 n)) = number msg name n := by
  have : enc32 n = n := by simp only [enc32, int32]; omega
  rw [encField, number, hk, varint_one (by omega), this]; rfl

/-! ### theorems -/

/-- **C72** The bytes of elements, sets, tree updates, tree files and tag files are those of the schema. -/
theorem C72_layout_data :
    (∀ x : CtProto, serCt x = field "ElGamalCiphertext" "u" x.u ++ field "ElGamalCiphertext" "e" x.e) ∧
    (∀ a, serElem (.noPayload a) = field "EncryptedElement" "no_payload" (field "EncryptedElement.NoPayload" "element" (serCt a))) ∧
    (∀ a p, serElem (.paillier a p) = field "EncryptedElement" "paillier"
      (field "EncryptedElement.PaillierPayload" "element" (serCt a) ++ field "EncryptedElement.PaillierPayload" "payload" p)) ∧
    (∀ a p, serElem (.elgamal a p) = field "EncryptedElement" "elgamal"
      (field "EncryptedElement.ElGamalPayload" "element" (serCt a) ++ field "EncryptedElement.ElGamalPayload" "payload" (serCt p))) ∧
    (∀ a p, serElem (.deletion a p) = field "EncryptedElement" "deletion"
      (field "EncryptedElement.DeletionElement" "element" a ++ field "EncryptedElement.DeletionElement" "payload" p)) ∧
    (∀ a, serElem (.onlyPaillier a) = field "EncryptedElement" "only_paillier" (field "EncryptedElement.OnlyPaillier" "element" a)) ∧
    serElem .notSet = [] ∧
    (∀ l, serSet l = fields "EncryptedSet" "elements" (l.map serElem)) ∧
    (∀ l, serVec l = fields "EncryptedSetVector" "elements" (l.map serSet)) ∧
    (∀ l, serTreeNode l = fields "TreeNode" "elements" (l.map serElem)) ∧
    (∀ h, serHash h = h.map (fun b => if b then '1'.toUInt8 else '0'.toUInt8)) ∧
    (∀ m, serUpdates m = fields "TreeUpdates" "hashes" (m.hashes.map serHash) ++ fields "TreeUpdates" "nodes" (m.nodes.map serTreeNode)) ∧
    (∀ x, serPElem x = field "PlaintextElement" "element" x.element ++ field "PlaintextElement" "payload" x.payload) ∧
    (∀ n : PNode, n.nodeSize < 2 ^ 31 → serPNode n =
      fields "PlaintextNode" "elements" (n.elements.map serPElem) ++ number "PlaintextNode" "node_size" n.nodeSize) ∧
    (∀ t : PTree, SizesFit t.stashSize t.nodeSize t.actualSize t.depth → serPTree t =
      fields "PlaintextTree" "nodes" (t.nodes.map serPNode) ++ number "PlaintextTree" "stash_size" t.stashSize ++
        number "PlaintextTree" "node_size" t.nodeSize ++ number "PlaintextTree" "actual_size" t.actualSize ++ number "PlaintextTree" "depth" t.depth) ∧
    (∀ t : ETree, SizesFit t.stashSize t.nodeSize t.actualSize t.depth → serETree t =
      fields "EncryptedTree" "nodes" (t.nodes.map serTreeNode) ++ number "EncryptedTree" "stash_size" t.stashSize ++
        number "EncryptedTree" "node_size" t.nodeSize ++ number "EncryptedTree" "actual_size" t.actualSize ++ number "EncryptedTree" "depth" t.depth) ∧
    (∀ l, serOPRF l = fields "OPRF" "kv" (l.map fun x => field "OPRF_KV" "element" x.1 ++ field "OPRF_KV" "output" x.2)) := by
  refine ⟨fun x => ?_, fun a => ?_, fun a p => ?_, fun a p => ?_, fun a p => ?_, fun a => ?_, rfl, fun l => ?_, fun l => ?_, fun l => ?_, fun h => ?_,
    fun m => ?_, fun x => ?_, fun n hn => ?_, fun t ht => ?_, fun t ht => ?_, fun l => ?_⟩
  · exact enc_two (by decide +kernel) (by decide) (by decide +kernel) (by decide) _ _
  · rw [serElem, enc_one (msg := "EncryptedElement") (name := "no_payload") (by decide +kernel) (by decide),
      enc_one (msg := "EncryptedElement.NoPayload") (name := "element") (by decide +kernel) (by decide)]
  · rw [serElem, enc_one (msg := "EncryptedElement") (name := "paillier") (by decide +kernel) (by decide),
      enc_two (msg := "EncryptedElement.PaillierPayload") (a := "element") (b := "payload") (by decide +kernel) (by decide) (by decide +kernel) (by decide)]
  · rw [serElem, enc_one (msg := "EncryptedElement") (name := "elgamal") (by decide +kernel) (by decide),
      enc_two (msg := "EncryptedElement.ElGamalPayload") (a := "element") (b := "payload") (by decide +kernel) (by decide) (by decide +kernel) (by decide)]
  · rw [serElem, enc_one (msg := "EncryptedElement") (name := "deletion") (by decide +kernel) (by decide),
      enc_two (msg := "EncryptedElement.DeletionElement") (a := "element") (b := "payload") (by decide +kernel) (by decide) (by decide +kernel) (by decide)]
  · rw [serElem, enc_one (msg := "EncryptedElement") (name := "only_paillier") (by decide +kernel) (by decide),
      enc_one (msg := "EncryptedElement.OnlyPaillier") (name := "element") (by decide +kernel) (by decide)]
  · exact enc_fields (by decide +kernel) (by decide) _
  · exact enc_fields (by decide +kernel) (by decide) _
  · exact enc_fields (by decide +kernel) (by decide) _
  · exact List.map_congr_left fun b _ => by cases b <;> decide
  · rw [serUpdates, encFields_append, enc_fields (msg := "TreeUpdates") (name := "hashes") (by decide +kernel) (by decide),
      enc_fields (msg := "TreeUpdates") (name := "nodes") (by decide +kernel) (by decide)]
  · exact enc_two (by decide +kernel) (by decide) (by decide +kernel) (by decide) _ _
  · rw [serPNode, encFields_append, enc_fields (msg := "PlaintextNode") (name := "elements") (by decide +kernel) (by decide),
      ← enc_number (msg := "PlaintextNode") (name := "node_size") (k := 2) (by decide +kernel) (by decide) hn]
    simp [encFields]
  · obtain ⟨h1, h2, h3, h4⟩ := ht
    rw [serPTree, encFields_append, enc_fields (msg := "PlaintextTree") (name := "nodes") (by decide +kernel) (by decide),
      ← enc_number (msg := "PlaintextTree") (name := "stash_size") (k := 2) (by decide +kernel) (by decide) h1,
      ← enc_number (msg := "PlaintextTree") (name := "node_size") (k := 3) (by decide +kernel) (by decide) h2,
      ← enc_number (msg := "PlaintextTree") (name := "actual_size") (k := 4) (by decide +kernel) (by decide) h3,
      ← enc_number (msg := "PlaintextTree") (name := "depth") (k := 5) (by decide +kernel) (by decide) h4]
    simp [encFields, sizeFields]
  · obtain ⟨h1, h2, h3, h4⟩ := ht
    rw [serETree, encFields_append, enc_fields (msg := "EncryptedTree") (name := "nodes") (by decide +kernel) (by decide),
      ← enc_number (msg := "EncryptedTree") (name := "stash_size") (k := 2) (by decide +kernel) (by decide) h1,
      ← enc_number (msg := "EncryptedTree") (name := "node_size") (k := 3) (by decide +kernel) (by decide) h2,
      ← enc_number (msg := "EncryptedTree") (name := "actual_size") (k := 4) (by decide +kernel) (by decide) h3,
      ← enc_number (msg := "EncryptedTree") (name := "depth") (k := 5) (by decide +kernel) (by decide) h4]
    simp [encFields, sizeFields]
  · rw [serOPRF, enc_fields (msg := "OPRF") (name := "kv") (by decide +kernel) (by decide)]
    congr 1
    exact List.map_congr_left fun x _ => enc_two (by decide +kernel) (by decide) (by decide +kernel) (by decide) _ _

/-- The fields of `MessageI` and `MessageII` by the schema. -/
def messageBody (msg : String) (m : PMsg) : Bytes :=
  field? msg "updates" (m.updates.map serUpdates) ++ field? msg "candidates" (m.candidates.map serSet) ++ field? msg "candidates_vct" (m.vct.map serVec)

/-- The bytes of a request by the schema. -/
def clientBytes : CMsg → Bytes
  | .notSet => []
  | .p0 m => field "ClientMessage" "party_zero_msg" <| match m with
    | .notSet => []
    | .i m => field "PartyZeroMessage" "message_i" (messageBody "PartyZeroMessage.MessageI" m)
    | .iiiSum s => field "PartyZeroMessage" "message_iii_sum" (field? "PartyZeroMessage.MessageIII_SUM" "sum" (s.map serCt))
    | .iiiSS l => field "PartyZeroMessage" "message_iii_ss"
        (fields "PartyZeroMessage.MessageIII_SS" "payloads" (l.map (field "PaillierCiphertext" "ciphertext")))
  | .og m => field "ClientMessage" "og_msg" (serOg m)

/-- The bytes of a response by the schema. -/
def serverBytes : SMsg → Bytes
  | .notSet => []
  | .p1 m => field "ServerMessage" "party_one_msg" <| match m with
    | .notSet => []
    | .ii m => field "PartyOneMessage" "message_ii" (messageBody "PartyOneMessage.MessageII" m)
    | .iv s => field "PartyOneMessage" "message_iv" (field? "PartyOneMessage.MessageIV" "sum" (s.map serCt))
  | .og m => field "ServerMessage" "og_msg" (serOg m)

/-- The bytes of a message of the original protocol by the schema. -/
def originalBytes : OgMsg → Bytes
  | .notSet => []
  | .i u c => field "OriginalMessage" "message_i"
      (field? "OriginalMessage.MessageI" "updates" (u.map serUpdates) ++ fields "OriginalMessage.MessageI" "ciphertexts" c)
  | .ii a c => field "OriginalMessage" "message_ii"
      (field? "OriginalMessage.MessageII" "alpha" (a.map serCt) ++ fields "OriginalMessage.MessageII" "candidates" (c.map serSet))
  | .iii c => field "OriginalMessage" "message_iii" (fields "OriginalMessage.MessageIII" "candidates" (c.map serSet))
  | .iv c => field "OriginalMessage" "message_iv" (fields "OriginalMessage.MessageIV" "ciphertexts" c)
  | .v c => field "OriginalMessage" "message_v" (fields "OriginalMessage.MessageV" "ciphertexts" c)

theorem serPMsg_body {msg : String} (h1 : fieldNo msg "updates" = 1) (h2 : fieldNo msg "candidates" = 2) (h3 : fieldNo msg "candidates_vct" = 3)
    (m : PMsg) : serPMsg m = messageBody msg m := by
  rw [serPMsg, encFields_append, encFields_append, enc_opt h1 (by decide), enc_opt h2 (by decide), enc_opt h3 (by decide), messageBody]

/-- **C72** The bytes of requests, responses and messages of the original protocol are those of the schema. -/
theorem C72_layout_messages : (∀ m, serClient m = clientBytes m) ∧ (∀ m, serServer m = serverBytes m) ∧ (∀ m, serOg m = originalBytes m) := by
  refine ⟨fun m => ?_, fun m => ?_, fun m => ?_⟩
  · cases m with
    | notSet => rfl
    | og m => exact enc_one (by decide +kernel) (by decide) _
    | p0 m =>
      refine (enc_one (msg := "ClientMessage") (name := "party_zero_msg") (by decide +kernel) (by decide) _).trans (congrArg _ ?_)
      cases m with
      | notSet => rfl
      | i m =>
        refine (enc_one (msg := "PartyZeroMessage") (name := "message_i") (by decide +kernel) (by decide) _).trans (congrArg _ ?_)
        exact serPMsg_body (by decide +kernel) (by decide +kernel) (by decide +kernel) m
      | iiiSum s =>
        refine (enc_one (msg := "PartyZeroMessage") (name := "message_iii_sum") (by decide +kernel) (by decide) _).trans (congrArg _ ?_)
        exact enc_opt (by decide +kernel) (by decide) _
      | iiiSS l =>
        refine (enc_one (msg := "PartyZeroMessage") (name := "message_iii_ss") (by decide +kernel) (by decide) _).trans (congrArg _ ?_)
        refine (enc_fields (msg := "PartyZeroMessage.MessageIII_SS") (name := "payloads") (by decide +kernel) (by decide) _).trans (congrArg _ ?_)
        exact List.map_congr_left fun x _ => enc_one (by decide +kernel) (by decide) _
  · cases m with
    | notSet => rfl
    | og m => exact enc_one (by decide +kernel) (by decide) _
    | p1 m =>
      refine (enc_one (msg := "ServerMessage") (name := "party_one_msg") (by decide +kernel) (by decide) _).trans (congrArg _ ?_)
      cases m with
      | notSet => rfl
      | ii m =>
        refine (enc_one (msg := "PartyOneMessage") (name := "message_ii") (by decide +kernel) (by decide) _).trans (congrArg _ ?_)
        exact serPMsg_body (by decide +kernel) (by decide +kernel) (by decide +kernel) m
      | iv s =>
        refine (enc_one (msg := "PartyOneMessage") (name := "message_iv") (by decide +kernel) (by decide) _).trans (congrArg _ ?_)
        exact enc_opt (by decide +kernel) (by decide) _
  · cases m with
    | notSet => rfl
    | i u c =>
      refine (enc_one (msg := "OriginalMessage") (name := "message_i") (by decide +kernel) (by decide) _).trans (congrArg _ ?_)
      rw [encFields_append, enc_opt (msg := "OriginalMessage.MessageI") (name := "updates") (by decide +kernel) (by decide),
        enc_fields (msg := "OriginalMessage.MessageI") (name := "ciphertexts") (by decide +kernel) (by decide)]
    | ii a c =>
      refine (enc_one (msg := "OriginalMessage") (name := "message_ii") (by decide +kernel) (by decide) _).trans (congrArg _ ?_)
      rw [encFields_append, enc_opt (msg := "OriginalMessage.MessageII") (name := "alpha") (by decide +kernel) (by decide),
        enc_fields (msg := "OriginalMessage.MessageII") (name := "candidates") (by decide +kernel) (by decide)]
    | iii c =>
      refine (enc_one (msg := "OriginalMessage") (name := "message_iii") (by decide +kernel) (by decide) _).trans (congrArg _ ?_)
      exact enc_fields (by decide +kernel) (by decide) _
    | iv c =>
      refine (enc_one (msg := "OriginalMessage") (name := "message_iv") (by decide +kernel) (by decide) _).trans (congrArg _ ?_)
      exact enc_fields (by decide +kernel) (by decide) _
    | v c =>
      refine (enc_one (msg := "OriginalMessage") (name := "message_v") (by decide +kernel) (by decide) _).trans (congrArg _ ?_)
      exact enc_fields (by decide +kernel) (by decide) _

/-- **C72** The bytes of the key files are those of the schema. -/
theorem C72_layout_keys :
    (∀ m : PkProto, m.ser = field "ElGamalPublicKey" "g" m.g ++ field "ElGamalPublicKey" "y" m.y) ∧
    (∀ m : SkProto, m.ser = field "ElGamalSecretKey" "x" m.x) ∧
    (∀ m : TkProto, m.ser = field "ThresholdPaillierKey" "n" m.n ++ field "ThresholdPaillierKey" "share" m.share) ∧
    (∀ m : PubProto, m.ser = field "PaillierPublicKey" "n" m.n ++ number "PaillierPublicKey" "s" m.s) ∧
    (∀ m : PrivProto, m.ser = field "PaillierPrivateKey" "p" m.p ++ field "PaillierPrivateKey" "q" m.q ++ number "PaillierPrivateKey" "s" m.s) := by
  refine ⟨fun m => ?_, fun m => ?_, fun m => ?_, fun m => ?_, fun m => ?_⟩
  · exact enc_two (by decide +kernel) (by decide) (by decide +kernel) (by decide) _ _
  · exact enc_one (by decide +kernel) (by decide) _
  · exact enc_two (by decide +kernel) (by decide) (by decide +kernel) (by decide) _ _
  · rw [← enc_field (msg := "PaillierPublicKey") (name := "n") (k := 1) (by decide +kernel) (by decide),
      number, show fieldNo "PaillierPublicKey" "s" = 2 by decide +kernel]
    simp [PubProto.ser, encFields, encField, varint_one]
  · rw [← enc_field (msg := "PaillierPrivateKey") (name := "p") (k := 1) (by decide +kernel) (by decide),
      ← enc_field (msg := "PaillierPrivateKey") (name := "q") (k := 2) (by decide +kernel) (by decide),
      number, show fieldNo "PaillierPrivateKey" "s" = 3 by decide +kernel]
    simp [PrivProto.ser, encFields, encField, varint_one]

/- A message IV with one ciphertext of three bytes: 22 05 0a 03 01 02 03, in a request of the original protocol. -/
example : serClient (.og (.iv [[1, 2, 3]])) = [0x12, 7, 0x22, 5, 0x0a, 3, 1, 2, 3] := by decide +kernel

end Upsi.Wire
