import Verif.Hide.OneModel
import Verif.Hide.PsiDdh
/-
What party zero sees of party one in the intersection protocol (C82).  Labels, places and numbers of candidates are those of
the cardinality protocol (`OneModel`), of which the intersection protocol is an extension: every candidate carries an
encryption of an element of party zero as payload.
-/
namespace Upsi.Hide
open Upsi Upsi.ElGamal Upsi.Tree Upsi.Num Upsi.Proto Upsi.View Upsi.Tree.Props

variable {G : Type} [AddCommGroup G] [DecidableEq G]

/-! ### the experiment -/

/-- The day as one of the cardinality protocol: everything but the shuffle (which is drawn, see `redrawPsi`). -/
def cardDay (d : DayIn G Nat (Ct G)) : DayIn G Nat Unit :=
  ⟨d.xs, d.ys, {
    hsh0 := d.coins.hsh0, pads0 := d.coins.pads0, enc0 := d.coins.enc0, x0 := d.coins.x0, rr := d.coins.rr, x1 := d.coins.x1, shuffle := fun l => l
    masks := d.coins.masks, send := d.coins.send, hsh1 := d.coins.hsh1, pads1 := d.coins.pads1, enc1 := d.coins.enc1, last := d.coins.last }⟩

/-- Both parties of the intersection protocol over several days, as party zero sees it: the messages II it gets, and how the
conversation ended (party_zero.cc:28-41 with 123-165, 280-305; party_one.cc:121-191).  Party zero's own loop over the
candidates (party_zero.cc:293-300) is included, as it can end the conversation. -/
def viewPsi (c cu : Codec G) (hashOf : Nat → List Bool) (pk : PK G) (sk0 sk1 : Int) :
    List ProtoMsg → St0 G Nat → Mapping → List (Option Nat) → St1 (Ct G) → List (DayIn G Nat (Ct G)) → Transcript
  | got, _, _, _, _, [] => (got, .ok ())
  | got, s0, mp, out, s1, d :: ds =>
    after got (recordAll cu pk d.xs mp) fun mp' =>
      after got (genI (funcPSI c cu) hashOf pk s0 d.xs d.coins) fun (s0', m1) =>
        after got (genII (funcPSI c cu) c hashOf pk sk1 s1 m1 d.ys d.coins) fun (s1', m2) =>
          after (got ++ [m2]) (recvII (funcPSI c cu) c s0' m2) fun (s0'', cands) =>
            after (got ++ [m2]) (psiLoop cu sk0 mp' cands out) fun out' =>
              viewPsi c cu hashOf pk sk0 sk1 (got ++ [m2]) s0'' mp' out' s1' ds

/-- A history with other coins of party one (the first day has number `n`): the coins of its tree update and of its
elements, both masks of each candidate and the shuffles. -/
def redrawPsi {N : Nat → Nat} {D : Nat} (coin mask : Slot → Int) (σ : (d : Fin D) → Equiv.Perm (Fin (N d))) :
    Nat → List (DayIn G Nat (Ct G)) → List (DayIn G Nat (Ct G))
  | _, [] => []
  | n, d :: ds =>
    { d with coins := { d.coins with
        enc1 := fun i j => coin (.tree n i j 0)
        x1 := fun i => coin (.elem n i 0)
        masks := fun k i => mask (.cand n k i)
        shuffle := shuffleOf σ n } } :: redrawPsi coin mask σ (n + 1) ds

/-- Two masks for each candidate. -/
def maskTwo {q : Nat} (N : Nat → Nat) (n : Nat) (α β : Fin (placesMask N n).length → Fin (q - 1)) : Slot → Int
  | .cand d k 0 => coinOf (placesMask N n) α (.cand d k 0)
  | .cand d k _ => coinOf (placesMask N n) β (.cand d k 0)
  | _ => 0

/-- The probability that party zero (with key `sk0`, whose elements and coins are those of the history) says yes after a
history that starts with empty trees.  What is drawn: party one's key, the coins of the places `U`, two masks for each
candidate, and the shuffles for `N d` candidates on day `d`. -/
def acceptsPsi (c cu : Codec G) (hashOf : Nat → List Bool) (g : G) (q : Nat) (sk0 : Int) (D : G → Transcript → Bool) (stash node : Nat)
    (days : List (DayIn G Nat (Ct G))) (U : List Slot) (N : Nat → Nat) (n : Nat) : ℚ :=
  prob (fun x : Fin (q - 1) × (Fin U.length → Fin (q - 1)) × ((Fin (placesMask N n).length → Fin (q - 1)) × (Fin (placesMask N n).length → Fin (q - 1))) ×
      ((d : Fin n) → Equiv.Perm (Fin (N d))) =>
    D (maskOf x.1 • g) (viewPsi c cu hashOf (joint g sk0 (maskOf x.1 • g)) sk0 (maskOf x.1) [] (St0.init stash node) [] [] (St1.init stash node)
      (redrawPsi (coinOf U x.2.1) (maskTwo N n x.2.2.1.1 x.2.2.1.2) x.2.2.2 0 days)))

/-! ### payloads on labels -/

/-- The candidates of party zero with their payloads (coin and plaintext). -/
def fullI (hashOf : Nat → List Bool) (copy1 : Upsi.Tree.Tree (Slot × Int)) (d : DayIn G Nat Unit) : List (List (Sym × Int × Int)) :=
  d.xs.mapIdx fun i x => (pathOf copy1 (hashOf x)).mapIdx fun j l => (Sym.mk l.1 1 (d.coins.rr i j - d.coins.x0 i 0) (l.2 - x), d.coins.x0 i 0, (x : Int))

/-- The candidates of party one with their payloads. -/
def fullII (hashOf : Nat → List Bool) (n : Nat) (copy0 : Upsi.Tree.Tree (Int × Int)) (d : DayIn G Nat Unit) : List (List (Sym × Int × Int)) :=
  d.ys.mapIdx fun i y => (pathOf copy0 (hashOf y)).map fun l => (Sym.mk (.elem n i 0) (-1) l.1 (l.2 - y), l)

/-- A history on labels: the candidates with their payloads, before the shuffle. -/
def fullRun (hashOf : Nat → List Bool) : Nat → SymSt → List (DayIn G Nat Unit) → List (List (Sym × Int × Int))
  | _, _, [] => []
  | n, s, d :: ds =>
    match symStep hashOf n s d with
    | .ok (s', _) => ((fullI hashOf s.copy1 d).flatten ++ (fullII hashOf n s'.copy0 d).flatten) :: fullRun hashOf (n + 1) s' ds
    | _ => []

/-! ### party zero's view from given ciphertexts -/

/-- Message II of day `n` made of given ciphertexts: of the entries of the tree update, and of the candidates (0) and their
payloads (1). -/
def msgPsi (c : Codec G) (ct : Slot → Ct G) (n : Nat) (hsh : List (List Bool)) (sizes : List Nat) (N : Nat) : Outcome ProtoMsg := do
  let out ← forIdx (fun k (_ : Nat) => serElGamal c (ct (.cand n k 0)) (ct (.cand n k 1))) 0 (List.range N)
  let ns ← forIdx (fun i m => forIdx (fun j (_ : Nat) => serNoPayload c (ct (.tree n i j 0))) 0 (List.range m)) 0 sizes
  pure ⟨⟨hsh, ns⟩, out⟩

/-- Party zero's code with messages II made of given ciphertexts. -/
def viewGiven (c cu : Codec G) (hashOf : Nat → List Bool) (pk : PK G) (sk0 : Int) (sizes : Nat → List Nat) (N : Nat → Nat) (ct : Slot → Ct G) :
    Nat → List ProtoMsg → St0 G Nat → Mapping → List (Option Nat) → List (DayIn G Nat (Ct G)) → Transcript
  | _, got, _, _, _, [] => (got, .ok ())
  | n, got, s0, mp, out, d :: ds =>
    after got (recordAll cu pk d.xs mp) fun mp' =>
      after got (genI (funcPSI c cu) hashOf pk s0 d.xs d.coins) fun (s0', _) =>
        after got (msgPsi c ct n d.coins.hsh1 (sizes n) (N n)) fun m2 =>
          after (got ++ [m2]) (recvII (funcPSI c cu) c s0' m2) fun (s0'', cands) =>
            after (got ++ [m2]) (psiLoop cu sk0 mp' cands out) fun out' =>
              viewGiven c cu hashOf pk sk0 sizes N ct (n + 1) (got ++ [m2]) s0'' mp' out' ds

/-! ### the distinguishers -/

/-- The payload in position `k` of day `d` after the shuffle: coin and plaintext. -/
def payAt {N : Nat → Nat} {D : Nat} (fulls : List (List (Sym × Int × Int))) (σ : (d : Fin D) → Equiv.Perm (Fin (N d))) (d k : Nat) : Int × Int :=
  ((fulls[d]?.bind fun o => (shuffleOf σ d o)[k]?).map Prod.snd).getD (0, 0)

/-- The payloads, by the number of the candidate. -/
def payOf {N : Nat → Nat} {n : Nat} (fulls : List (List (Sym × Int × Int))) (σ : (d : Fin n) → Equiv.Perm (Fin (N d)))
    (k : Fin (placesMask N n).length) : Int × Int :=
  match (placesMask N n)[k] with
  | .cand d k _ => payAt fulls σ d k
  | _ => (0, 0)

/-- A masked payload: `y` (coin and plaintext) encrypted, plus a masked candidate, with party one's share removed. -/
def payCt (g : G) (sk0 : Int) (y : Int × Int) (B E : G) : Ct G := ⟨y.1 • g + B, y.2 • g + sk0 • (y.1 • g + B) + E⟩

/-- The ciphertexts of messages II, from encryptions of zero and masks. -/
def ctPsiOne {N : Nat → Nat} {D q : Nat} (g : G) (sk0 : Int) (outs : List SymOut) (fulls : List (List (Sym × Int × Int))) (U : List Slot) (hU : 0 < U.length)
    (α β : Fin (placesMask N D).length → Fin (q - 1)) (σ : (d : Fin D) → Equiv.Perm (Fin (N d))) (z : Fin U.length → Ct G) : Slot → Ct G
  | .cand d k 0 => ctOne g sk0 outs U hU α σ z (.cand d k 0)
  | .cand d k _ =>
    let y := symAt outs σ d k
    let u := y.eps • (z (idxIn U hU y.base)).u + y.off • g
    let a := coinOf (placesMask N D) α (.cand d k 0)
    let b := coinOf (placesMask N D) β (.cand d k 0)
    payCt g sk0 (payAt fulls σ d k) (b • a • u) (b • a • y.m • g)
  | s => ctOne g sk0 outs U hU α σ z s

/-- The experiment as one on encryptions of zero; the masks and shuffles are further coins. -/
def psiFirst (c cu : Codec G) (hashOf : Nat → List Bool) (g : G) (q : Nat) (sk0 : Int) (D : G → Transcript → Bool) (stash node : Nat)
    (days : List (DayIn G Nat (Ct G))) (U : List Slot) (hU : 0 < U.length) (N : Nat → Nat) (n : Nat)
    (ω : ((Fin (placesMask N n).length → Fin (q - 1)) × (Fin (placesMask N n).length → Fin (q - 1))) × ((d : Fin n) → Equiv.Perm (Fin (N d))))
    (X : G) (z : Fin U.length → Ct G) : Bool :=
  D X (viewGiven c cu hashOf (joint g sk0 X) sk0 (sizesOf stash node (ids1 (days.map cardDay))) N
    (ctPsiOne g sk0 (symRun hashOf 0 (SymSt.init stash node) (days.map cardDay)) (fullRun hashOf 0 (SymSt.init stash node) (days.map cardDay)) U hU
      ω.1.1 ω.1.2 ω.2 z) 0 [] (St0.init stash node) [] [] days)

/-- The ciphertexts of messages II, from points: for each candidate the masked pair and the pair masked again. -/
def ctPsiTwo {N : Nat → Nat} {n q : Nat} (g : G) (sk0 : Int) (U : List Slot) (hU : 0 < U.length) (t : Fin U.length → Fin q) (w : Fin U.length → G)
    (pay : Fin (placesMask N n).length → Int × Int) (f : Fin (placesMask N n).length → (G × G) × G × G) : Slot → Ct G
  | .cand d k i =>
    if h : (placesMask N n).idxOf (.cand d k 0) < (placesMask N n).length then
      let x := f ⟨_, h⟩
      if i = 0 then ⟨x.1.1, x.1.2 + sk0 • x.1.1⟩ else payCt g sk0 (pay ⟨_, h⟩) x.2.1 x.2.2
    else ⟨0, 0⟩
  | s => ⟨w (idxIn U hU s), ((t (idxIn U hU s) : Nat) : Int) • g + sk0 • w (idxIn U hU s)⟩

/-- Party zero's verdict on messages II made of given points. -/
def psiPlay (c cu : Codec G) (hashOf : Nat → List Bool) (g : G) (q : Nat) (sk0 : Int) (D : G → Transcript → Bool) (stash node : Nat)
    (days : List (DayIn G Nat (Ct G))) (U : List Slot) (hU : 0 < U.length) (N : Nat → Nat) (n : Nat) (k1 : Fin (q - 1)) (t : Fin U.length → Fin q)
    (w : Fin U.length → G) (pay : Fin (placesMask N n).length → Int × Int) (f : Fin (placesMask N n).length → (G × G) × G × G) : Bool :=
  D (maskOf k1 • g) (viewGiven c cu hashOf (joint g sk0 (maskOf k1 • g)) sk0 (sizesOf stash node (ids1 (days.map cardDay))) N
    (ctPsiTwo g sk0 U hU t w pay f) 0 [] (St0.init stash node) [] [] days)

/-- The experiment as one on masked pairs, after the encryptions of zero have been replaced; party one's key, the random
members of those pairs, the shuffles and the second masks are further coins. -/
def psiSecond (c cu : Codec G) (hashOf : Nat → List Bool) (g : G) (q : Nat) (sk0 : Int) (D : G → Transcript → Bool) (stash node : Nat)
    (days : List (DayIn G Nat (Ct G))) (U : List Slot) (hU : 0 < U.length) (N : Nat → Nat) (n : Nat)
    (ω : Fin (q - 1) × (Fin U.length → Fin q) × ((d : Fin n) → Equiv.Perm (Fin (N d))) × (Fin (placesMask N n).length → Fin (q - 1)))
    (w : Fin U.length → G) (p : Fin (placesMask N n).length → G × G) : Bool :=
  psiPlay c cu hashOf g q sk0 D stash node days U hU N n ω.1 ω.2.1 w (payOf (fullRun hashOf 0 (SymSt.init stash node) (days.map cardDay)) ω.2.2.1)
    fun j => (p j, maskOf (ω.2.2.2 j) • (p j).1, maskOf (ω.2.2.2 j) • (p j).2)

/-- Which candidates are matches. -/
def matchOf {N : Nat → Nat} {n : Nat} (q : Nat) (outs : List SymOut) (σ : (d : Fin n) → Equiv.Perm (Fin (N d))) (j : Fin (placesMask N n).length) : Bool :=
  match (placesMask N n)[j] with
  | .cand d k _ => decide ((q : Int) ∣ (symAt outs σ d k).m)
  | _ => true

/-- A masked pair and the pair masked again, from a triple `x` and a number `t`. -/
def quad (g : G) (t : Nat) (b : Bool) (x : G × G × G) : (G × G) × G × G :=
  (((t : Int) • g, if b then 0 else x.1), (t : Int) • x.2.1, if b then 0 else x.2.2)

/-- The experiment as one on triples, after the masked pairs have been replaced by random ones. -/
def psiThird (c cu : Codec G) (hashOf : Nat → List Bool) (g : G) (q : Nat) (sk0 : Int) (D : G → Transcript → Bool) (stash node : Nat)
    (days : List (DayIn G Nat (Ct G))) (U : List Slot) (hU : 0 < U.length) (N : Nat → Nat) (n : Nat)
    (ω : Fin (q - 1) × (Fin U.length → Fin q) × ((d : Fin n) → Equiv.Perm (Fin (N d))) × (Fin U.length → Fin (q - 1)) × (Fin (placesMask N n).length → Fin q))
    (x : Fin (placesMask N n).length → G × G × G) : Bool :=
  psiPlay c cu hashOf g q sk0 D stash node days U hU N n ω.1 ω.2.1 (pointsOf g ω.2.2.2.1)
    (payOf (fullRun hashOf 0 (SymSt.init stash node) (days.map cardDay)) ω.2.2.1)
    fun j => quad g (ω.2.2.2.2 j) (matchOf q (symRun hashOf 0 (SymSt.init stash node) (days.map cardDay)) ω.2.2.1 j) (x j)

/-- The sum of the advantages of all distinguishers for a history. -/
def hidingBoundPsi (c cu : Codec G) (hashOf : Nat → List Bool) (g : G) (q : Nat) (sk0 : Int) (D : G → Transcript → Bool) (stash node : Nat)
    (days : List (DayIn G Nat (Ct G))) (U : List Slot) (hU : 0 < U.length) (N : Nat → Nat) (n : Nat) : ℚ :=
  ∑ k, ddhAdv g q (reductionWith g q sk0 (psiFirst c cu hashOf g q sk0 D stash node days U hU N n) k) +
  ∑ k, ddhAdv g q (reductionMask g q (fun ω : Fin (q - 1) × (Fin U.length → Fin q) × ((d : Fin n) → Equiv.Perm (Fin (N d))) × (Fin (placesMask N n).length → Fin (q - 1)) =>
    posOf (symRun hashOf 0 (SymSt.init stash node) (days.map cardDay)) U hU ω.2.2.1) (psiSecond c cu hashOf g q sk0 D stash node days U hU N n) k) +
  ∑ k, ddhAdv g q (reductionTriple g q (psiThird c cu hashOf g q sk0 D stash node days U hU N n) k)

end Upsi.Hide
