import Verif.Proto.Wire
import Verif.Tree.Update
import Verif.Tree.Deletion
import Verif.Paillier.Model
/-
Model of the protocols with deletions: the parts that upsi/deletion/party.h and
upsi/deletion-psi/party.h share (path combination, garbled circuit + oblivious transfer), and the
message round they both use.

The garbled circuit and the oblivious transfer of EMP are ideal: the circuit compares the two bit
strings it is given and hands out XOR shares of the result, the transfer hands the receiver the block
selected by its bit.  `ro` is SHA-256 used as a random oracle.
-/
namespace Upsi.Proto
open Upsi Upsi.Tree Upsi.Num Upsi.Paillier

/-- `SerializeNode(CryptoNode<PaillierPair>*, TreeNode*)` after `EncryptNode`, one entry:
crypto_node.cc:149-166, 229-237.  The tape holds the coins `rp, rq` of the two encryptions. -/
def encPair (mont : Int → Option Mont) (sk : Private) (t : Nat → Int) (e : EP) : Outcome EncElem := do
  let a ← sk.encrypt mont e.1 (t 0) (t 1)
  let value := if e.2 < 0 then sk.ns + e.2 else e.2
  let b ← sk.encrypt mont value (t 2) (t 3)
  let wa ← toBytes a
  let wb ← toBytes b
  pure (.deletion wa wb)

/-- `DeserializeNode<PaillierPair>`, one entry: crypto_node.cc:342-359. -/
def deserPair : EncElem → Outcome (Int × Int)
  | .deletion a b => .ok ((ofBytes a : Int), (ofBytes b : Int))
  | _ => .err "[CryptoNode] expected node to be a deletion ciphertext"

/-- Serialization of a candidate: deletion/party_zero.cc:104-107, party_one.cc:70-73,
deletion-psi/party_zero.cc:160-163, party_one.cc:111-114. -/
def serOnly (x : Int) : Outcome EncElem := do
  let w ← toBytes x
  pure (.onlyPaillier w)

/-- `DeserializeCiphertexts<BigNum>`, one element: utils.cc:121-139. -/
def deserOnly : EncElem → Outcome Int
  | .onlyPaillier w => .ok (ofBytes w : Int)
  | _ => .err "[Utils] attempting to parse message without El Gamal payload"

/-- Coins of `CombinePathInitiator` for one element. -/
structure PathCoins where
  alpha : Nat → Int
  coin : Nat → Int

/-- What `CombinePathInitiator` produces for one path entry: `x` goes to `gc_x`, `z` to `gc_z`, `msg` is
sent to the peer. -/
structure Item where
  x : Int
  z : Int
  msg : Int

/-- `CombinePathInitiator`: deletion/party.h:132-160, deletion-psi/party.h:137-169. -/
def combineInit (mont : Int → Option Mont) (hashOf : Nat → List Bool) (pk : Public)
    (other : Tree (Int × Int)) (e : EP) (ρ : PathCoins) : Outcome (List Item) := do
  let path ← getPath other (hashOf e.1)
  let value := if e.2 < 0 then e.2 + pk.n else e.2
  forIdx (fun j (c : Int × Int) => do
    let a ← pk.encrypt mont (ρ.alpha j - e.1) (ρ.coin j)
    let tmp ← pk.add a c.1
    let z ← if e.2 ≠ 1 then pk.multiply c.2 value else pure c.2
    pure ⟨ρ.alpha j, z, tmp⟩) 0 path

/-- `CombinePathResponder`, the candidates of one element: deletion/party.h:162-169,
deletion-psi/party.h:171-183. -/
def combineResp (sk : Private) (ws : List EncElem) : Outcome (List Int) := do
  let cs ← forIdx (fun _ w => deserOnly w) 0 ws
  forIdx (fun _ c => sk.decrypt c) 0 cs

/-! ### one message round -/

/-- Coins of one round. -/
structure RoundCoins where
  hsh0 : List (List Bool)
  pads0 : Nat → Nat → EP
  enc0 : Nat → Nat → Nat → Int
  path0 : Nat → PathCoins
  hsh1 : List (List Bool)
  pads1 : Nat → Nat → EP
  enc1 : Nat → Nat → Nat → Int
  path1 : Nat → PathCoins

/-- The trees of one party (`HasTree<ElementAndPayload, PaillierPair>`, roles.h:62-110); `lost` is
ghost: the entries dropped from `my` by stash overflow. -/
structure DSt where
  my : Tree EP
  other : Tree (Int × Int)
  lost : List EP

/-- Freshly constructed trees: roles.h:74-76. -/
def DSt.init (stash node : Nat) : DSt := ⟨Tree.empty stash node, Tree.empty stash node, []⟩

/-- The key objects of one party: its own private key and the peer's public key
(deletion/party.h:40-52). -/
structure DKeys where
  sk : Private
  pk : Public

/-- Message I or II: tree updates and, per new element, the candidates.  In deletion-psi the candidates
are grouped (`candidates_vct`); in deletion they form one flat list which all loops visit in the same
order, so the grouped list stands for its concatenation. -/
structure DelMsg where
  updates : Msg EncElem
  candidates : List (List EncElem)

/-- Loop over the new elements: `CombinePathInitiator` and serialization of its result:
deletion/party_zero.cc:99-109, party_one.cc:65-75; deletion-psi/party_zero.cc:152-165,
party_one.cc:103-116. -/
def candidatesOf (mont : Int → Option Mont) (hashOf : Nat → List Bool) (pk : Public)
    (other : Tree (Int × Int)) (es : List EP) (path : Nat → PathCoins) :
    Outcome (List (List Item) × List (List EncElem)) := do
  let gs ← forIdx (fun i e => combineInit mont hashOf pk other e (path i)) 0 es
  let ws ← forIdx (fun _ (g : List Item) => forIdx (fun _ it => serOnly it.msg) 0 g) 0 gs
  pure (gs, ws)

/-- `GenerateMessageI`: deletion/party_zero.cc:91-113, deletion-psi/party_zero.cc:139-168.  The tree
update comes first; the paths are read from the copy of the peer's tree of the previous round. -/
def delGenI (mont : Int → Option Mont) (hashOf : Nat → List Bool) (k : DKeys) (s : DSt) (es : List EP)
    (ρ : RoundCoins) : Outcome (DSt × DelMsg × List (List Item)) := do
  let u ← sendUpdate (fun e : EP => hashOf e.1) mergeBucket (fun i j => encPair mont k.sk (ρ.enc0 i j))
    ρ.pads0 s.my es ρ.hsh0
  let (gs, ws) ← candidatesOf mont hashOf k.pk s.other es ρ.path0
  pure (⟨u.tree, s.other, s.lost ++ u.lost⟩, ⟨u.msg, ws⟩, gs)

/-- `GenerateMessageII`: deletion/party_one.cc:43-80, deletion-psi/party_one.cc:78-122.  Returns also
the entries appended to `gc_y` and to `gc_x`, `gc_z`. -/
def delGenII (mont : Int → Option Mont) (hashOf : Nat → List Bool) (k : DKeys) (s : DSt) (m : DelMsg)
    (es : List EP) (ρ : RoundCoins) : Outcome (DSt × DelMsg × List (List Int) × List (List Item)) := do
  let other ← recvUpdate deserPair s.other m.updates
  let ys ← forIdx (fun _ ws => combineResp k.sk ws) 0 m.candidates
  let u ← sendUpdate (fun e : EP => hashOf e.1) mergeBucket (fun i j => encPair mont k.sk (ρ.enc1 i j))
    ρ.pads1 s.my es ρ.hsh1
  let (gs, ws) ← candidatesOf mont hashOf k.pk other es ρ.path1
  pure (⟨u.tree, other, s.lost ++ u.lost⟩, ⟨u.msg, ws⟩, ys, gs)

/-- `ProcessMessageII`: deletion/party_zero.cc:72-89, deletion-psi/party_zero.cc:117-137. -/
def delRecvII (k : DKeys) (s : DSt) (m : DelMsg) : Outcome (DSt × List (List Int)) := do
  let other ← recvUpdate deserPair s.other m.updates
  let ys ← forIdx (fun _ ws => combineResp k.sk ws) 0 m.candidates
  pure (⟨s.my, other, s.lost⟩, ys)

/-- The circuit inputs of one round: for the elements of each party, the initiator's items (`gc_x`,
`gc_z`) and the responder's values (`gc_y`). -/
structure RoundOut where
  items0 : List (List Item)
  resp1 : List (List Int)
  items1 : List (List Item)
  resp0 : List (List Int)

/-- Messages I and II of one round. -/
def roundDel (mont : Int → Option Mont) (hashOf : Nat → List Bool) (k0 k1 : DKeys) (s0 s1 : DSt)
    (xs ys : List EP) (ρ : RoundCoins) : Outcome (DSt × DSt × RoundOut) := do
  let (s0', m1, g0) ← delGenI mont hashOf k0 s0 xs ρ
  let (s1', m2, r1, g1) ← delGenII mont hashOf k1 s1 m1 ys ρ
  let (s0'', r0) ← delRecvII k0 s0' m2
  pure (s0'', s1', ⟨g0, r1, g1, r0⟩)

/-! ### garbled circuit and oblivious transfer -/

/-- Coins of the circuit phase: `bit` is ALICE's `rand() & 1` (party one), `beta` and `coin` the
sender's. -/
structure GcCoins where
  bit : Nat → Bool
  beta : Nat → Int
  coin : Nat → Int

/-- `cnt_block = (len * 2 + 15) >> 4` with `len = cur_n.ToBytes().length()`: deletion/party.h:209-217. -/
def cntBlock (n : Int) : Outcome Nat := do
  let b ← toBytes n
  pure ((b.length * 2 + 15) / 16)

/-- One comparison and transfer: deletion/party.h:181-257, deletion-psi/party.h:193-306.
`aliceSends` tells which party (ALICE = party one) is the sender; both bit strings are the hashes of the
inputs; ALICE's share is her random bit, BOB's is `(eq ^ (bit ^ 1))`; the sender offers
`z + (n - beta)` and `n - beta`, ordered by its share; the receiver decrypts the chosen block.
Returns what sender and receiver add to their sums. -/
def gcItem (ro : List UInt8 → Nat) (mont : Int → Option Mont) (pk : Public) (sk : Private)
    (aliceSends : Bool) (blocks : Nat) (ρ : GcCoins) (i : Nat) (x z y : Int) : Outcome (Int × Int) := do
  let bx ← bigNum2bool ro x 72
  let bY ← bigNum2bool ro y 72
  let eq := decide (bx = bY)
  let bitA := ρ.bit i
  let bitB := Bool.xor eq (Bool.xor bitA true)
  let bitS := if aliceSends then bitA else bitB
  let bitR := if aliceSends then bitB else bitA
  let enc ← pk.encrypt mont (pk.n - ρ.beta i) (ρ.coin i)
  let ifEq ← pk.add z enc
  let b0 ← bigNum2block (if bitS then enc else ifEq) blocks
  let b1 ← bigNum2block (if bitS then ifEq else enc) blocks
  let d ← sk.decrypt (block2BigNum (if bitR then b1 else b0) blocks)
  pure (ρ.beta i, d)

/-- The loops over all items, with the sums `rs` of sender and receiver: deletion/party.h:223-262.
Lists of different lengths on the two sides desynchronise the circuit (`ub`). -/
def gcLoop (ro : List UInt8 → Nat) (mont : Int → Option Mont) (pk : Public) (sk : Private)
    (aliceSends : Bool) (blocks : Nat) (ρ : GcCoins) :
    Nat → List Item → List Int → Int → Int → Outcome (Int × Int)
  | _, [], [], a, b => .ok (a, b)
  | i, it :: its, y :: ys, a, b => do
    let (u, v) ← gcItem ro mont pk sk aliceSends blocks ρ i it.x it.z y
    gcLoop ro mont pk sk aliceSends blocks ρ (i + 1) its ys (a + u) (b + v)
  | _, _, _, _, _ => .ub

/-- The final reduction of a share: deletion/party.h:264-276, deletion-psi/party.h:266-274, 290-298. -/
def shareWord (n sum : Int) : Outcome UInt64 := do
  let rs ← mod sum n
  if rs * 2 > n then
    let v ← bigNum2uint64 (n - rs)
    pure (-v)
  else bigNum2uint64 rs

/-- A finished circuit phase: the words the sender and the receiver hold.  The other fields are ghost:
the modulus, the two integer sums and the pairs of numbers the circuit compared. -/
structure Phase where
  sender : UInt64
  receiver : UInt64
  modulus : Int
  sumS : Int
  sumR : Int
  compared : List (Int × Int)

/-- `GarbledCircuit(is_sender)` of both parties: deletion/party.h:171-278 (for deletion-psi: one group
of party.h:185-304). -/
def gcPhase (ro : List UInt8 → Nat) (mont : Int → Option Mont) (pk : Public) (sk : Private)
    (aliceSends : Bool) (ρ : GcCoins) (its : List Item) (ys : List Int) : Outcome Phase := do
  let bs ← cntBlock pk.n
  let br ← cntBlock sk.ns
  if bs ≠ br then .ub
  else
    let (a, b) ← gcLoop ro mont pk sk aliceSends bs ρ 0 its ys 0 0
    let s ← shareWord pk.n a
    let r ← shareWord sk.ns b
    pure ⟨s, r, pk.n, a, b, List.zip (its.map Item.x) ys⟩

end Upsi.Proto
