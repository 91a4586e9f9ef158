import Verif.Hide.Model
import Verif.Hide.Ddh2
import Verif.View.SizeProps
/-
What party zero sees of party one in the cardinality protocol, and an execution on labels instead of ciphertexts
(C80).  `view0`, `redrawOne`, `placesOne`, `placesMask`, `candsOf`, `accepts0` and what they use appear in the statements,
the rest describes the distinguishers of Diffie-Hellman triples.
-/
namespace Upsi.Hide
open Upsi Upsi.ElGamal Upsi.Tree Upsi.Num Upsi.Proto Upsi.View Upsi.Tree.Props

variable {G : Type} [AddCommGroup G] [DecidableEq G]

/-! ### the experiment -/

/-- Both parties of the cardinality protocol over several days, as party zero sees it: the messages II it gets, and how the
conversation ended (party_zero.cc:28-41 with 123-274, 307-326; party_one.cc:198-252).  Counting (party_zero.cc:316-324)
neither fails nor sends anything. -/
def view0 (c : Codec G) (hashOf : Nat → List Bool) (pk : PK G) (sk1 : Int) :
    List ProtoMsg → St0 G Nat → St1 (Ct G) → List (DayIn G Nat Unit) → Transcript
  | got, _, _, [] => (got, .ok ())
  | got, s0, s1, d :: ds =>
    after got (genI (funcCA c) hashOf pk s0 d.xs d.coins) fun (s0', m1) =>
      after got (genII (funcCA c) c hashOf pk sk1 s1 m1 d.ys d.coins) fun (s1', m2) =>
        after (got ++ [m2]) (recvII (funcCA c) c s0' m2) fun (s0'', _) =>
          view0 c hashOf pk sk1 (got ++ [m2]) s0'' s1' ds

/-- A shuffle per day: day `d` has `N d` candidates. -/
def shuffleOf {N : Nat → Nat} {D : Nat} (σ : (d : Fin D) → Equiv.Perm (Fin (N d))) {α : Type} (d : Nat) (l : List α) : List α :=
  if h : d < D then permuteBy (σ ⟨d, h⟩) l else l

/-- A history with other coins of party one (the first day has number `n`): the coins of its tree update and of its
elements, the masks and the shuffles. -/
def redrawOne {N : Nat → Nat} {D : Nat} (coin mask : Slot → Int) (σ : (d : Fin D) → Equiv.Perm (Fin (N d))) :
    Nat → List (DayIn G Nat Unit) → List (DayIn G Nat Unit)
  | _, [] => []
  | n, d :: ds =>
    { d with coins := { d.coins with
        enc1 := fun i j => coin (.tree n i j 0)
        x1 := fun i => coin (.elem n i 0)
        masks := fun k _ => mask (.cand n k 0)
        shuffle := shuffleOf σ n } } :: redrawOne coin mask σ (n + 1) ds

/-- The sizes of the nodes of party one's tree update of day `d`, given its identifiers (C65). -/
def sizesOf (stash node : Nat) (ids : List (List (List Bool))) (d : Nat) : List Nat := updateSizes stash node (ids.take d) (ids.getD d [])

/-- The places in which party one draws a coin to encrypt: entry `j` of node `i` of the update of day `d`, element `i` of
day `d`.  (The first place is not used; it keeps the list from being empty.) -/
def placesOne (stash node : Nat) (ids : List (List (List Bool))) : List Slot :=
  .cand 0 0 0 :: (List.range ids.length).flatMap fun d =>
    ((List.range (sizesOf stash node ids d).length).flatMap fun i => (List.range ((sizesOf stash node ids d).getD i 0)).map fun j => Slot.tree d i j 0) ++
      (List.range (ids.getD d []).length).map fun i => Slot.elem d i 0

/-- The places in which party one draws a mask: candidate `k` of day `d`. -/
def placesMask (N : Nat → Nat) (D : Nat) : List Slot := (List.range D).flatMap fun d => (List.range (N d)).map fun k => .cand d k 0

/-- The number of candidates of day `d` (C65). -/
def candsOf (stash node : Nat) (hashOf : Nat → List Bool) (days : List (DayIn G Nat Unit)) (d : Nat) : Nat :=
  match days[d]? with
  | some day => (sizesSpec stash node ((ids0 days).take d) ((ids1 days).take d) day.coins.hsh0 day.coins.hsh1
      (day.xs.map hashOf) (day.ys.map hashOf)).cands1
  | none => 0

/-- Two days on which party zero does the same (with the same coins), and party one uses the same path identifiers. -/
structure SameZero (d d' : DayIn G Nat Unit) : Prop where
  xs : d.xs = d'.xs
  hsh0 : d.coins.hsh0 = d'.coins.hsh0
  pads0 : d.coins.pads0 = d'.coins.pads0
  enc0 : d.coins.enc0 = d'.coins.enc0
  x0 : d.coins.x0 = d'.coins.x0
  rr : d.coins.rr = d'.coins.rr
  hsh1 : d.coins.hsh1 = d'.coins.hsh1

/-- The batches of a history fit both trees: one identifier of 256 bits per element, fewer than `2^30` elements. -/
structure FitsBoth (days : List (DayIn G Nat Unit)) : Prop where
  id0 : ∀ d ∈ days, Batch.WF (d.xs, d.coins.hsh0)
  id1 : ∀ d ∈ days, Batch.WF (d.ys, d.coins.hsh1)
  size0 : (allX days).length < 2 ^ 30
  size1 : (allY days).length < 2 ^ 30

/-- The probability that party zero (with key `sk0`, whose elements and coins are those of the history) says yes after a
history that starts with empty trees.  What is drawn: party one's key, the coins of the places `U`, the masks and the
shuffles for `N d` candidates on day `d`. -/
def accepts0 (c : Codec G) (hashOf : Nat → List Bool) (g : G) (q : Nat) (sk0 : Int) (D : G → Transcript → Bool) (stash node : Nat)
    (days : List (DayIn G Nat Unit)) (U : List Slot) (N : Nat → Nat) (n : Nat) : ℚ :=
  prob (fun x : Fin (q - 1) × (Fin U.length → Fin (q - 1)) × (Fin (placesMask N n).length → Fin (q - 1)) × ((d : Fin n) → Equiv.Perm (Fin (N d))) =>
    D (maskOf x.1 • g) (view0 c hashOf (joint g sk0 (maskOf x.1 • g)) (maskOf x.1) [] (St0.init stash node) (St1.init stash node)
      (redrawOne (coinOf U x.2.1) (coinOf (placesMask N n) x.2.2.1) x.2.2.2 0 days)))

/-! ### the execution on labels -/

/-- The entries on a path. -/
def pathOf {α : Type} (t : Upsi.Tree.Tree α) (h : List Bool) : List α :=
  match getPath t h with
  | .ok p => p
  | _ => []

/-- A candidate: an encryption of `m` with the coin `eps * r + off`, where `r` is the coin of the place `base`. -/
structure Sym where
  base : Slot
  eps : Int
  off : Int
  m : Int

/-- The trees of both parties: instead of ciphertexts, party zero's copy holds the places of the coins and the plaintexts,
party one's copy the coins and the plaintexts. -/
structure SymSt where
  my0 : Upsi.Tree.Tree Nat
  my1 : Upsi.Tree.Tree Nat
  copy1 : Upsi.Tree.Tree (Slot × Int)
  copy0 : Upsi.Tree.Tree (Int × Int)

/-- Both trees and both copies empty. -/
def SymSt.init (stash node : Nat) : SymSt := ⟨Tree.empty stash node, Tree.empty stash node, Tree.empty stash node, Tree.empty stash node⟩

/-- What a day leads to: the candidates before the shuffle, and party one's tree update. -/
structure SymOut where
  cands : List Sym
  nodes : List (List (Slot × Int))

/-- A day on labels. -/
def symStep (hashOf : Nat → List Bool) (n : Nat) (s : SymSt) (d : DayIn G Nat Unit) : Outcome (SymSt × SymOut) := do
  let u0 ← sendUpdate hashOf id (fun i j x => .ok (d.coins.enc0 i j 0, (x : Int))) d.coins.pads0 s.my0 d.xs d.coins.hsh0
  let copy0 ← recvUpdate .ok s.copy0 u0.msg
  let cs ← forIdx (fun i x => do
    let path ← getPath s.copy1 (hashOf x)
    pure (path.mapIdx fun j l => Sym.mk l.1 1 (d.coins.rr i j - d.coins.x0 i 0) (l.2 - x))) 0 d.xs
  let own ← forIdx (fun i y => do
    let path ← getPath copy0 (hashOf y)
    pure (path.map fun l => Sym.mk (.elem n i 0) (-1) l.1 (l.2 - y))) 0 d.ys
  let u1 ← sendUpdate hashOf id (fun i j y => .ok (Slot.tree n i j 0, (y : Int))) d.coins.pads1 s.my1 d.ys d.coins.hsh1
  let copy1 ← recvUpdate .ok s.copy1 u1.msg
  pure (⟨u0.tree, u1.tree, copy1, copy0⟩, ⟨cs.flatten ++ own.flatten, u1.msg.nodes⟩)

/-- A history on labels. -/
def symRun (hashOf : Nat → List Bool) : Nat → SymSt → List (DayIn G Nat Unit) → List SymOut
  | _, _, [] => []
  | n, s, d :: ds =>
    match symStep hashOf n s d with
    | .ok (s', o) => o :: symRun hashOf (n + 1) s' ds
    | _ => []

/-! ### party zero's view from given ciphertexts -/

/-- Message II of day `n` made of given ciphertexts: of the entries of the tree update, and of the candidates. -/
def msgTwo (c : Codec G) (ct : Slot → Ct G) (n : Nat) (hsh : List (List Bool)) (sizes : List Nat) (N : Nat) : Outcome ProtoMsg := do
  let out ← forIdx (fun k (_ : Nat) => serNoPayload c (ct (.cand n k 0))) 0 (List.range N)
  let ns ← forIdx (fun i m => forIdx (fun j (_ : Nat) => serNoPayload c (ct (.tree n i j 0))) 0 (List.range m)) 0 sizes
  pure ⟨⟨hsh, ns⟩, out⟩

/-- Party zero's code with messages II made of given ciphertexts. -/
def viewC (c : Codec G) (hashOf : Nat → List Bool) (pk : PK G) (sizes : Nat → List Nat) (N : Nat → Nat) (ct : Slot → Ct G) :
    Nat → List ProtoMsg → St0 G Nat → List (DayIn G Nat Unit) → Transcript
  | _, got, _, [] => (got, .ok ())
  | n, got, s0, d :: ds =>
    after got (genI (funcCA c) hashOf pk s0 d.xs d.coins) fun (s0', _) =>
      after got (msgTwo c ct n d.coins.hsh1 (sizes n) (N n)) fun m2 =>
        after (got ++ [m2]) (recvII (funcCA c) c s0' m2) fun (s0'', _) =>
          viewC c hashOf pk sizes N ct (n + 1) (got ++ [m2]) s0'' ds

/-! ### the distinguishers -/

/-- The number of a place in the list (0 for others). -/
def idxIn (U : List Slot) (hU : 0 < U.length) (s : Slot) : Fin U.length :=
  if h : U.idxOf s < U.length then ⟨U.idxOf s, h⟩ else ⟨0, hU⟩

/-- The plaintext in an entry of party one's tree updates. -/
def plainAt (outs : List SymOut) : Slot → Int
  | .tree d i j _ => ((outs[d]?.bind fun o => o.nodes[i]?.bind fun l => l[j]?).map Prod.snd).getD 0
  | _ => 0

/-- The candidate in position `k` of day `d` after the shuffle. -/
def symAt {N : Nat → Nat} {D : Nat} (outs : List SymOut) (σ : (d : Fin D) → Equiv.Perm (Fin (N d))) (d k : Nat) : Sym :=
  ((outs[d]?.bind fun o => (shuffleOf σ d o.cands)[k]?)).getD ⟨.cand 0 0 0, 1, 0, 0⟩

/-- The ciphertexts of messages II, from encryptions of zero and masks. -/
def ctOne {N : Nat → Nat} {D q : Nat} (g : G) (sk0 : Int) (outs : List SymOut) (U : List Slot) (hU : 0 < U.length)
    (α : Fin (placesMask N D).length → Fin (q - 1)) (σ : (d : Fin D) → Equiv.Perm (Fin (N d))) (z : Fin U.length → Ct G) : Slot → Ct G
  | .cand d k _ =>
    let y := symAt outs σ d k
    let u := y.eps • (z (idxIn U hU y.base)).u + y.off • g
    let a := coinOf (placesMask N D) α (.cand d k 0)
    ⟨a • u, a • (y.m • g + sk0 • u)⟩
  | s => ⟨(z (idxIn U hU s)).u, plainAt outs s • g + (z (idxIn U hU s)).e⟩

/-- The experiment as one on encryptions of zero; the masks and shuffles are further coins. -/
def firstGame (c : Codec G) (hashOf : Nat → List Bool) (g : G) (q : Nat) (sk0 : Int) (D : G → Transcript → Bool) (stash node : Nat)
    (days : List (DayIn G Nat Unit)) (U : List Slot) (hU : 0 < U.length) (N : Nat → Nat) (n : Nat)
    (ω : (Fin (placesMask N n).length → Fin (q - 1)) × ((d : Fin n) → Equiv.Perm (Fin (N d)))) (X : G) (z : Fin U.length → Ct G) : Bool :=
  D X (viewC c hashOf (joint g sk0 X) (sizesOf stash node (ids1 days)) N
    (ctOne g sk0 (symRun hashOf 0 (SymSt.init stash node) days) U hU ω.1 ω.2 z) 0 [] (St0.init stash node) days)

/-- The candidates as masked points: their base is one of the coins of the places `U`. -/
def posOf {N : Nat → Nat} {n : Nat} (outs : List SymOut) (U : List Slot) (hU : 0 < U.length) (σ : (d : Fin n) → Equiv.Perm (Fin (N d)))
    (k : Fin (placesMask N n).length) : Pos U.length :=
  match (placesMask N n)[k] with
  | .cand d k _ => let y := symAt outs σ d k; ⟨idxIn U hU y.base, y.eps, y.off, y.m⟩
  | _ => ⟨⟨0, hU⟩, 1, 0, 0⟩

/-- The ciphertexts of messages II, from points and masked pairs. -/
def ctTwo {N : Nat → Nat} {n q : Nat} (g : G) (sk0 : Int) (U : List Slot) (hU : 0 < U.length)
    (t : Fin U.length → Fin q) (w : Fin U.length → G) (p : Fin (placesMask N n).length → G × G) : Slot → Ct G
  | .cand d k _ =>
    if h : (placesMask N n).idxOf (.cand d k 0) < (placesMask N n).length then
      let x := p ⟨_, h⟩
      ⟨x.1, x.2 + sk0 • x.1⟩
    else ⟨0, 0⟩
  | s => ⟨w (idxIn U hU s), ((t (idxIn U hU s) : Nat) : Int) • g + sk0 • w (idxIn U hU s)⟩

/-- The experiment as one on masked pairs, after the encryptions of zero have been replaced; party one's key, the random
members of those pairs and the shuffles are further coins. -/
def secondGame (c : Codec G) (hashOf : Nat → List Bool) (g : G) (q : Nat) (sk0 : Int) (D : G → Transcript → Bool) (stash node : Nat)
    (days : List (DayIn G Nat Unit)) (U : List Slot) (hU : 0 < U.length) (N : Nat → Nat) (n : Nat)
    (ω : Fin (q - 1) × (Fin U.length → Fin q) × ((d : Fin n) → Equiv.Perm (Fin (N d)))) (w : Fin U.length → G)
    (p : Fin (placesMask N n).length → G × G) : Bool :=
  D (maskOf ω.1 • g) (viewC c hashOf (joint g sk0 (maskOf ω.1 • g)) (sizesOf stash node (ids1 days)) N (ctTwo g sk0 U hU ω.2.1 w p) 0 []
    (St0.init stash node) days)

/-- The sum of the advantages of all distinguishers for a history. -/
def hidingBound0 (c : Codec G) (hashOf : Nat → List Bool) (g : G) (q : Nat) (sk0 : Int) (D : G → Transcript → Bool) (stash node : Nat)
    (days : List (DayIn G Nat Unit)) (U : List Slot) (hU : 0 < U.length) (N : Nat → Nat) (n : Nat) : ℚ :=
  ∑ k, ddhAdv g q (reductionWith g q sk0 (firstGame c hashOf g q sk0 D stash node days U hU N n) k) +
  ∑ k, ddhAdv g q (reductionMask g q (fun ω : Fin (q - 1) × (Fin U.length → Fin q) × ((d : Fin n) → Equiv.Perm (Fin (N d))) =>
    posOf (symRun hashOf 0 (SymSt.init stash node) days) U hU ω.2.2) (secondGame c hashOf g q sk0 D stash node days U hU N n) k)

end Upsi.Hide
