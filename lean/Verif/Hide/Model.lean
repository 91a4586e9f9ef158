import Verif.Hide.Uniform
import Verif.Proto.Progress
import Verif.Tree.Props2
/-
What party one, following an arbitrary strategy, sees of party zero in the addition-only protocols: the messages I of
all days (C79).  The names `talk`, `accepts`, `copyAfter`, `lenAt` and `usedSlots` are used in the statements, the rest
in the proofs only (and in the description of the distinguishers).
-/
namespace Upsi.Hide
open Upsi Upsi.ElGamal Upsi.Tree Upsi.Num Upsi.Proto Upsi.View Upsi.Tree.Props

variable {G : Type} [AddCommGroup G] [DecidableEq G] {P γ κ : Type}

/-- What the other party sees: the messages sent, and how the program ended. -/
abbrev Transcript := List ProtoMsg × Outcome Unit

/-- Go on after a step that may have ended the program. -/
def after {α : Type} (sent : List ProtoMsg) (o : Outcome α) (f : α → Transcript) : Transcript :=
  match o with
  | .ok a => f a
  | .err e => (sent, .err e)
  | .abort => (sent, .abort)
  | .ub => (sent, .ub)

/-- Party zero over several days against a party one that answers the messages sent so far by `A` (`none`: it answers no
more): party_zero.cc:28-41 with 123-274 (message I) and 282-291, 309-314 (reading message II).  In the cardinality protocol
what follows (counting, party_zero.cc:316-324) neither fails nor sends anything.  The elements and coins of party one in
the days are not used. -/
def talk (F : Func G P γ κ) (c : Codec G) (hashOf : Nat → List Bool) (pk : PK G) (A : List ProtoMsg → Option ProtoMsg) :
    List ProtoMsg → St0 G P → List (DayIn G P κ) → Transcript
  | sent, _, [] => (sent, .ok ())
  | sent, s, d :: ds =>
    after sent (genI F hashOf pk s d.xs d.coins) fun (s', m) =>
      match A (sent ++ [m]) with
      | none => (sent ++ [m], .ok ())
      | some r => after (sent ++ [m]) (recvII F c s' r) fun (s'', _) => talk F c hashOf pk A (sent ++ [m]) s'' ds

/-- `recvII` as far as it changes the copy of party one's tree: party_zero.cc:282-291, 309-314. -/
def recvC (F : Func G P γ κ) (c : Codec G) (other : Upsi.Tree.Tree (Ct G)) (m : ProtoMsg) : Outcome (Upsi.Tree.Tree (Ct G)) := do
  let other' ← recvUpdate (deserTreeCt c) other m.updates
  let _ ← forIdx (fun _ w => F.deser w) 0 m.candidates
  pure other'

/-- Party zero's copy of party one's tree after the messages `ms`, if party one answered all of them properly. -/
def copyAfter (F : Func G P γ κ) (c : Codec G) (A : List ProtoMsg → Option ProtoMsg) :
    List ProtoMsg → Upsi.Tree.Tree (Ct G) → List ProtoMsg → Option (Upsi.Tree.Tree (Ct G))
  | _, o, [] => some o
  | sent, o, m :: ms =>
    match A (sent ++ [m]) with
    | none => none
    | some r =>
      match recvC F c o r with
      | .ok o' => copyAfter F c A (sent ++ [m]) o' ms
      | _ => none

/-- The number of entries found on the path of a hash. -/
def lenAt {α : Type} (o : Upsi.Tree.Tree α) (h : List Bool) : Nat :=
  match getPath o h with
  | .ok p => p.length
  | _ => 0

/-- The places of a history in which party zero draws a coin to encrypt or to re-randomise: coin `k` of entry `j` of node
`i` of the tree update of day `d`, coin `k` of element `i` of day `d`, candidate `j` of element `i` of day `d`. -/
inductive Slot where
  | tree (d i j k : Nat)
  | elem (d i k : Nat)
  | cand (d i j : Nat)
  deriving DecidableEq

/-- The same place one day later. -/
def Slot.next : Slot → Slot
  | .tree d i j k => .tree (d + 1) i j k
  | .elem d i k => .elem (d + 1) i k
  | .cand d i j => .cand (d + 1) i j

/-- A history with other encryption coins (days counted from the first one). -/
def drawDays (coin : Slot → Int) : List (DayIn G P κ) → List (DayIn G P κ)
  | [] => []
  | d :: ds =>
    { d with coins := { d.coins with
        enc0 := fun i j k => coin (.tree 0 i j k)
        x0 := fun i k => coin (.elem 0 i k)
        rr := fun i j => coin (.cand 0 i j) } } :: drawDays (fun s => coin s.next) ds

/-- The path identifiers of a day, and the sizes of the nodes of its tree update. -/
structure PubDay where
  hsh : List (List Bool)
  sizes : List Nat

/-- The node sizes of the tree updates, from the path identifiers and the sizes of the tree (C06): stash size, node size,
depth and number of elements before the first day. -/
def pubDays (stash node : Nat) : Nat → Nat → List (List (List Bool)) → List PubDay
  | _, _, [] => []
  | d, n, b :: bs =>
    let d' := max d (Nat.log2 (n + b.length))
    ⟨b, (updateAddrs d' b).map (fun u => if u = 0 then stash else node)⟩ :: pubDays stash node d' (n + b.length) bs

/-- The places used in a history with `T` coins per entry and at most `B` candidates per element. -/
def usedSlots (T B : Nat) : Nat → List PubDay → List Slot
  | _, [] => []
  | d, p :: ps =>
    ((List.range p.sizes.length).flatMap fun i => (List.range (p.sizes.getD i 0)).flatMap fun j => (List.range T).map (Slot.tree d i j)) ++
    (((List.range p.hsh.length).flatMap fun i => (List.range T).map (Slot.elem d i)) ++
    (((List.range p.hsh.length).flatMap fun i => (List.range B).map (Slot.cand d i)) ++ usedSlots T B (d + 1) ps))

/-- The places used by party zero in state `s` for the identifiers `bs` of the coming days. -/
def slotsOf (T B : Nat) (s : St0 G P) (bs : List (List (List Bool))) : List Slot :=
  usedSlots T B 0 (pubDays s.my.stashSize s.my.nodeSize s.my.depth s.my.actualSize bs)

/-- What the ciphertexts of an entry are made of: the plaintexts, and how ciphertexts become an entry of a node and the
payload of a candidate.  `T` is the number of ciphertexts. -/
structure Plain (F : Func G P γ κ) (g : G) (T : Nat) where
  plain : P → Nat → Int
  entry : (Nat → Ct G) → Outcome EncElem
  pay : (Nat → Ct G) → Outcome κ
  good : P → Prop
  pos : 0 < T
  key : ∀ p, plain p 0 = F.key p
  enc : ∀ pk t p, pk.g = g → F.encTree pk t p = entry (fun k => encrypt pk (t k) (plain p k))
  payload : ∀ pk t p, pk.g = g → good p → F.payload pk t p = pay (fun k => encrypt pk (t k) (plain p k))
  entryT : ∀ c c', (∀ k, k < T → c k = c' k) → entry c = entry c'
  payT : ∀ c c', (∀ k, k < T → c k = c' k) → pay c = pay c'

variable {F : Func G P γ κ} {g : G} {T : Nat}

/-- Message I for elements with hashes `hs`, made of given ciphertexts: of the entries of the tree update, of the
elements, and of zero. -/
def msgC (L : Plain F g T) (other : Upsi.Tree.Tree (Ct G)) (hs : List (List Bool)) (p : PubDay) (ct : Slot → Ct G) : Outcome ProtoMsg := do
  let ns ← forIdx (fun i n => forIdx (fun j (_ : Nat) => L.entry (fun k => ct (.tree 0 i j k))) 0 (List.range n)) 0 p.sizes
  let cs ← forIdx (fun i h => do
    let path ← getPath other h
    let pay ← L.pay (fun k => ct (.elem 0 i k))
    forIdx (fun j y => F.ser (mul (mul y (invert (ct (.elem 0 i 0)))) (ct (.cand 0 i j))) pay) 0 path) 0 hs
  pure ⟨⟨p.hsh, ns⟩, cs.flatten⟩

/-- The conversation with messages made of given ciphertexts; a day is given by the hashes of its elements. -/
def talkC (L : Plain F g T) (c : Codec G) (A : List ProtoMsg → Option ProtoMsg) :
    (Slot → Ct G) → List ProtoMsg → Upsi.Tree.Tree (Ct G) → List (List (List Bool)) → List PubDay → Transcript
  | ct, sent, other, hs :: hss, p :: ps =>
    after sent (msgC L other hs p ct) fun m =>
      match A (sent ++ [m]) with
      | none => (sent ++ [m], .ok ())
      | some r => after (sent ++ [m]) (recvC F c other r) fun other' =>
        talkC L c A (fun s => ct s.next) (sent ++ [m]) other' hss ps
  | _, sent, _, _, _ => (sent, .ok ())

/-- Message I with given candidates: it uses neither elements nor hashes, only the numbers `len` of candidates. -/
def msgB (L : Plain F g T) (len : Nat → Nat) (p : PubDay) (ct : Slot → Ct G) : Outcome ProtoMsg := do
  let ns ← forIdx (fun i n => forIdx (fun j (_ : Nat) => L.entry (fun k => ct (.tree 0 i j k))) 0 (List.range n)) 0 p.sizes
  let cs ← forIdx (fun i (_ : List Bool) => do
    let pay ← L.pay (fun k => ct (.elem 0 i k))
    forIdx (fun j (_ : Nat) => F.ser (ct (.cand 0 i j)) pay) 0 (List.range (len i))) 0 p.hsh
  pure ⟨⟨p.hsh, ns⟩, cs.flatten⟩

/-- The conversation with given candidates: it uses no secret. -/
def talkB (L : Plain F g T) (c : Codec G) (A : List ProtoMsg → Option ProtoMsg) (len : List ProtoMsg → Nat → Nat) :
    (Slot → Ct G) → List ProtoMsg → Upsi.Tree.Tree (Ct G) → List PubDay → Transcript
  | _, sent, _, [] => (sent, .ok ())
  | ct, sent, other, p :: ps =>
    after sent (msgB L (len sent) p ct) fun m =>
      match A (sent ++ [m]) with
      | none => (sent ++ [m], .ok ())
      | some r => after (sent ++ [m]) (recvC F c other r) fun other' =>
        talkB L c A len (fun s => ct s.next) (sent ++ [m]) other' ps

/-- The candidates of a conversation, in the places of the encryptions of zero they are made with. -/
def finals (L : Plain F g T) (c : Codec G) (A : List ProtoMsg → Option ProtoMsg) :
    (Slot → Ct G) → List ProtoMsg → Upsi.Tree.Tree (Ct G) → List (List (List Bool)) → List PubDay → Slot → Ct G
  | ct, sent, other, hs :: hss, p :: ps, sl =>
    let rest (sl' : Slot) : Ct G :=
      match msgC L other hs p ct with
      | .ok m =>
        match A (sent ++ [m]) with
        | none => ct sl
        | some r =>
          match recvC F c other r with
          | .ok other' => finals L c A (fun s => ct s.next) (sent ++ [m]) other' hss ps sl'
          | _ => ct sl
      | _ => ct sl
    match sl with
    | .tree 0 _ _ _ => ct sl
    | .elem 0 _ _ => ct sl
    | .cand 0 i j =>
      match hs[i]? with
      | none => ct sl
      | some h =>
        match getPath other h with
        | .ok path =>
          match path[j]? with
          | none => ct sl
          | some y => mul (mul y (invert (ct (.elem 0 i 0)))) (ct sl)
        | _ => ct sl
    | .tree (d + 1) i j k => rest (.tree d i j k)
    | .elem (d + 1) i k => rest (.elem d i k)
    | .cand (d + 1) i j => rest (.cand d i j)
  | ct, _, _, _, _, sl => ct sl

/-- The plaintexts party zero encrypts in a history, starting from its tree `t`; zero for re-randomisations. -/
def plains (L : Plain F g T) (hashOf : Nat → List Bool) : Upsi.Tree.Tree P → List (DayIn G P κ) → Slot → Int
  | _, [], _ => 0
  | t, d :: ds, s =>
    match insertWith (fun p => hashOf (F.key p)) id t d.xs d.coins.hsh0 with
    | .ok r =>
      match s with
      | .tree 0 i j k =>
        ((r.update[i]?.bind (fun n => (padNode n (d.coins.pads0 i)).elems[j]?)).map (fun p => L.plain p k)).getD 0
      | .elem 0 i k => (d.xs[i]?.map (fun p => L.plain p k)).getD 0
      | .cand 0 _ _ => 0
      | .tree (m + 1) i j k => plains L hashOf r.tree ds (.tree m i j k)
      | .elem (m + 1) i k => plains L hashOf r.tree ds (.elem m i k)
      | .cand (m + 1) i j => plains L hashOf r.tree ds (.cand m i j)
    | _ => 0

/-- The coins of the listed places are drawn, all others are 1. -/
def coinOf {q : Nat} (U : List Slot) (r : Fin U.length → Fin (q - 1)) (s : Slot) : Int :=
  if h : U.idxOf s < U.length then maskOf (r ⟨U.idxOf s, h⟩) else 1

/-- The encryptions of zero of the listed places are given, for the others the coin is 1. -/
def zeroOf (U : List Slot) (pk : PK G) (z : Fin U.length → Ct G) (s : Slot) : Ct G :=
  if h : U.idxOf s < U.length then z ⟨U.idxOf s, h⟩ else ⟨pk.g, pk.y⟩

/-- The joint public key of party zero's share `X` and party one's key `sk1`. -/
def joint (g : G) (sk1 : Int) (X : G) : PK G := ⟨g, X + sk1 • g⟩

/-- The probability that party one, with key `sk1`, strategy `A` and verdict `D` (all of which may depend on the public
share of party zero), says yes after a history, over party zero's key and the coins of the places `U`. -/
def accepts (F : Func G P γ κ) (c : Codec G) (hashOf : Nat → List Bool) (g : G) (q : Nat) (sk1 : Int)
    (A : G → List ProtoMsg → Option ProtoMsg) (D : G → Transcript → Bool) (s : St0 G P) (days : List (DayIn G P κ)) (U : List Slot) : ℚ :=
  prob (fun x : Fin (q - 1) × (Fin U.length → Fin (q - 1)) =>
    D (maskOf x.1 • g) (talk F c hashOf (joint g sk1 (maskOf x.1 • g)) (A (maskOf x.1 • g)) [] s (drawDays (coinOf U x.2) days)))

/-- The hashes of the elements of a history. -/
def hashes (F : Func G P γ κ) (hashOf : Nat → List Bool) (days : List (DayIn G P κ)) : List (List (List Bool)) :=
  days.map (fun d => d.xs.map (fun p => hashOf (F.key p)))

/-- The identifiers of a history. -/
def idsOf (days : List (DayIn G P κ)) : List (List (List Bool)) := days.map (fun d => d.coins.hsh0)

/-- The public data of a history. -/
def pubOf (s : St0 G P) (days : List (DayIn G P κ)) : List PubDay :=
  pubDays s.my.stashSize s.my.nodeSize s.my.depth s.my.actualSize (idsOf days)

/-- The same as an experiment on given encryptions of zero. -/
def experiment (L : Plain F g T) (c : Codec G) (hashOf : Nat → List Bool) (sk1 : Int) (A : G → List ProtoMsg → Option ProtoMsg)
    (D : G → Transcript → Bool) (s : St0 G P) (days : List (DayIn G P κ)) (U : List Slot) (X : G) (z : Fin U.length → Ct G) : Bool :=
  let pk := joint g sk1 X
  let ct := fun sl => Ct.mk (zeroOf U pk z sl).u (plains L hashOf s.my days sl • g + (zeroOf U pk z sl).e)
  D X (talkC L c (A X) ct [] s.other (hashes F hashOf days) (pubOf s days))

end Upsi.Hide
