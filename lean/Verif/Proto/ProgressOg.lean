import Verif.Proto.Progress
import Verif.Proto.OgExamples
/-
Property theorems C63 for the original protocol: a run between honest parties never crashes; the only error it can end
with is the one raised when a point to be sent is the point at infinity.
-/
namespace Upsi.Proto
open Upsi Upsi.ElGamal Upsi.Tree Upsi.Num

variable {α β G : Type}

theorem forIdx_only_get {f : Nat → α → Outcome β} {E : String → Prop} {Q : β → Prop} (l : List α) :
    ∀ i, (∀ j a, l[j]? = some a → (f (i + j) a).Only E Q) → (forIdx f i l).Only E (fun bs => ∀ b ∈ bs, Q b) := by
  induction l with
  | nil => intro i _ w hw; simp at hw
  | cons a as ih =>
    intro i h
    refine (h 0 a (by simp)).bind fun w _ hw => ?_
    refine (ih (i + 1) (fun j b hb => by have := h (j + 1) b (by simpa using hb); rwa [show i + (j + 1) = i + 1 + j by omega] at this)).bind
      fun ws _ hws => ?_
    intro v hv
    rcases List.mem_cons.1 hv with rfl | hv
    · exact hw
    · exact hws v hv

variable [AddCommGroup G] [DecidableEq G]

theorem ogLookup_only (c cu : Codec G) (a : Int) (m : Mapping) (ws : List (List UInt8))
    (h : ∀ w ∈ ws, ∃ p, createECPoint c w = .ok p) : ∀ out, (ogLookup c cu a m ws out).Only InfErr (fun _ => True) := by
  induction ws with
  | nil => intro out; trivial
  | cons w ws ih =>
    intro out
    obtain ⟨p, hp⟩ := h w (by simp)
    simp only [ogLookup, hp, Outcome.bind_ok]
    refine (pointToBytes_only cu (a • p)).bind fun key _ _ => ?_
    cases m.lookup key with
    | none => exact ih (fun w hw => h w (by simp [hw])) _
    | some x => exact ih (fun w hw => h w (by simp [hw])) _

theorem ogRecord_only (S : Setup G) (c cu : Codec G) (masks : List Int) (xs : List Nat)
    (hm : ∀ k ∈ masks, k = 0 ∨ NonZero S k) (ws : List (List UInt8)) (h : ∀ w ∈ ws, ∃ p, createECPoint c w = .ok p) :
    ∀ i m, i + ws.length ≤ masks.length → i + ws.length ≤ xs.length →
      (ogRecord c cu S.q masks xs i ws m).Only InfErr (fun _ => True) := by
  induction ws with
  | nil => intro i m _ _; trivial
  | cons w ws ih =>
    intro i m h1 h2
    simp only [List.length_cons] at h1 h2
    have e1 : vget masks i = .ok masks[i] := by rw [vget_eq_ok]; exact List.getElem?_eq_getElem (by omega)
    have e2 : vget xs i = .ok xs[i] := by rw [vget_eq_ok]; exact List.getElem?_eq_getElem (by omega)
    simp only [ogRecord, e1, Outcome.bind_ok]
    have ih' := ih (fun w hw => h w (by simp [hw])) (i + 1)
    split
    · exact ih' m (by omega) (by omega)
    · rename_i hk
      obtain ⟨p, hp⟩ := h w (by simp)
      have hnz : NonZero S masks[i] := (hm _ (List.getElem_mem _)).resolve_left hk
      have hg : Int.gcd masks[i] S.q = 1 := by
        rw [Int.gcd_eq_natAbs, Int.natAbs_natCast]
        have : Nat.Coprime S.q masks[i].natAbs := (Nat.Prime.coprime_iff_not_dvd S.hq).2 (fun hd => hnz (by
          exact Int.natCast_dvd.2 hd))
        exact this.symm
      obtain ⟨inv, hinv, _⟩ := modInverse_ok hg
      simp only [hp, hinv, e2, Outcome.bind_ok]
      exact (pointToBytes_only cu _).bind fun key _ _ => ih' _ (by omega) (by omega)

/-- What is tracked besides the invariant. -/
structure OgFits (base : Prop) (stash : Nat) (Y : List Nat) (s : OgSt G) : Prop where
  size : s.p1.tree.stashSize = stash
  loss : base → Y.length ≤ stash → s.p1.lost = []

theorem dayOg_only {S : Setup G} (ha : NonZero S S.sk0) (hb : NonZero S S.sk1) {c cu : Codec G}
    {H : Nat → G} {hashOf : Nat → List Bool} (hh : ∀ e, (hashOf e).length = 256) {B : Nat}
    (hB : B ≤ S.q) {X Y xs ys : List Nat} {s : OgSt G} {ρ : OgCoins G}
    (hI : OgInv S cu H hashOf B X Y s) {base : Prop} {stash : Nat} (hfit : OgFits base stash Y s) (hρ : ρ.WF S B ys)
    (hX : ∀ x ∈ X ++ xs, x < B) (hY : ∀ y ∈ Y ++ ys, y < B) (hdY : (Y ++ ys).Nodup)
    (hsz : (Y ++ ys).length < 2 ^ 30)
    (hH : ∀ x ∈ X ++ Y ++ xs ++ ys, ∀ y ∈ X ++ Y ++ xs ++ ys, H x = H y → x = y) :
    (dayOg S.og c cu H hashOf s xs ys ρ).Only InfErr (fun s' => OgInv S cu H hashOf B (X ++ xs) (Y ++ ys) s' ∧
      OgFits base stash (Y ++ ys) s') := by
  have main : (dayOg S.og c cu H hashOf s xs ys ρ).Only InfErr (fun s' => OgFits base stash (Y ++ ys) s') := by
    have hsz' := hsz
    simp only [List.length_append] at hsz'
    have hh' : ∀ e, 256 ≤ (hashOf e).length := fun e => by rw [hh e]
    have hs1 : ys.length + s.p1.tree.actualSize < 2 ^ 30 := by rw [hI.size]; omega
    unfold dayOg
    -- message I
    have m1 : (ogSendI c H hashOf S.og.pk1 S.og.b s.p1 ys ρ).Only InfErr (fun r =>
        (∀ w ∈ r.2.ciphertexts, ∃ p, createECPoint c w = .ok p) ∧
        ∃ u, sendUpdate hashOf id (fun i j y => serNoPayload c (encrypt S.og.pk1 (ρ.enc i j) y)) ρ.pads s.p1.tree ys ρ.hsh = .ok u ∧
          (∀ n ∈ u.msg.nodes, ∀ w ∈ n, ∃ x, deserTreeCt c w = .ok x) ∧ u.tree.stashSize = stash ∧
          ((Y ++ ys).length ≤ stash → u.lost = []) ∧ r.1 = ⟨u.tree, s.p1.lost ++ u.lost⟩ ∧ r.2.updates = u.msg) := by
      unfold ogSendI
      refine (sendUpdate_only hh (PostOK.id _) hI.wf hρ.hsh hs1 (Q := fun w => ∃ x, deserTreeCt c w = .ok x) (E := InfErr)
        ?_).bind fun u hu hq => ?_
      · intro ri _ i j a _
        exact (serNoPayload_only c _).mono (fun _ h => h) (fun w _ hw => ⟨_, hw.2⟩)
      · obtain ⟨q1, q2, ri, q3, q4⟩ := hq
        refine (forIdx_only (Q := fun w => ∃ p, createECPoint c w = .ok p) ys (fun i y _ =>
          (pointToBytes_only c _).mono (fun _ h => h) (fun w _ hw => ⟨_, hw⟩)) 0).bind fun cs _ hcs => ?_
        refine ⟨hcs, u, hu, q1, q2.trans hfit.size, fun hle => ?_, rfl, rfl⟩
        rw [← q4]
        have := hI.all.length_eq
        simp only [List.length_append] at this hle
        exact insertWith_noloss hh' hI.wf hρ.hsh hs1 (by rw [hfit.size]; omega) q3
    refine m1.bind ?_
    rintro ⟨p1, msg⟩ - ⟨hc, u, hu, q1, q2, q3, rfl, e0⟩
    obtain ⟨cs, rfl⟩ : ∃ cs, msg = ⟨u.msg, cs⟩ := ⟨msg.ciphertexts, by rw [← e0]⟩
    simp only at hc ⊢
    -- party zero's tree copy
    obtain ⟨a1, a2, _, _, tree, ht, _⟩ := Props.recv_total hh (PostOK.id _) hI.wf (mirror_shape hI.mir)
      hρ.hsh hs1 hu (Props.deserNodes_total (deser := deserTreeCt c) _ q1)
    obtain ⟨_, _, a3⟩ := mirror_step (PostOK.id _) hh' hρ.pads hI.wf hI.mir
      hρ.hsh hs1 (fun i j y _ w x hw hx => by
        obtain ⟨p, hp, rfl⟩ := serNoPayload_inv c hw
        rw [serializeCt_deser c hp hx]
        show decrypt S.sk1 _ = _
        simp only [decrypt, encrypt, encryptPoint, Setup.og, OgKeys.pk1]; module) hu ht
    -- message II
    have m2 : (ogSendII c cu hashOf S.og.pk0 S.og.pk1 S.og.a s.p0 ⟨u.msg, cs⟩ xs ρ).Only InfErr (fun r =>
        (∃ al, deserializeCt c r.2.alpha = .ok al) ∧ r.2.candidates.length = xs.length ∧
        ∀ l ∈ r.2.candidates, ∀ w ∈ l, ∃ x, deserNoPayload c w = .ok x) := by
      unfold ogSendII
      rw [ht, Outcome.bind_ok]
      refine (ogLookup_only c cu _ _ cs hc _).bind fun out _ _ => ?_
      refine (serializeCt_only c _).bind fun al _ hal => ?_
      refine (forIdx_only (Q := fun l => ∀ w ∈ l, ∃ x, deserNoPayload c w = .ok x) xs ?_ 0).bind fun cands hcands hq => ?_
      · intro i x _
        obtain ⟨path, hpath, _⟩ := mirror_path a1 a3 (hh x)
        simp only [ogCand, hpath, Outcome.bind_ok]
        exact forIdx_only _ (fun j y _ => (serNoPayload_only c _).mono (fun _ h => h) (fun w _ hw => ⟨_, hw.1⟩)) 0
      · exact ⟨⟨_, hal⟩, (forIdx_get _ _ _ hcands).1, hq⟩
    refine m2.bind ?_
    rintro ⟨p0, msg2⟩ - ⟨⟨al, hal⟩, hlen, hcand⟩
    simp only at hal hlen hcand ⊢
    -- message III
    have m3 : (ogSendIII c S.og.pk0 S.og.b msg2 ρ).Only InfErr (fun r => r.length = xs.length ∧
        ∀ l ∈ r, ∀ w ∈ l, ∃ x, deserNoPayload c w = .ok x) := by
      unfold ogSendIII
      rw [hal, Outcome.bind_ok]
      have hq : (forIdx (ogSet c S.og.pk0 S.og.b (invert al) ρ) 0 msg2.candidates).Only InfErr (fun r =>
          ∀ l ∈ r, ∀ w ∈ l, ∃ x, deserNoPayload c w = .ok x) := by
        refine forIdx_only _ (fun i ws hws => ?_) 0
        obtain ⟨cts, hcts, _⟩ := forIdx_ok (f := fun _ w => deserNoPayload c w) (R := fun _ _ => True) ws
          (fun _ w hw => by obtain ⟨x, hx⟩ := hcand ws hws w hw; exact ⟨x, hx, trivial⟩) 0
        simp only [ogSet, hcts, Outcome.bind_ok]
        exact forIdx_only _ (fun j y _ => (serNoPayload_only c _).mono (fun _ h => h) (fun w _ hw => ⟨_, hw.1⟩)) 0
      exact hq.mono (fun _ h => h) (fun r hr h => ⟨(forIdx_get _ _ _ hr).1.trans hlen, h⟩)
    refine m3.bind fun sets _ hsets => ?_
    obtain ⟨hsl, hsets⟩ := hsets
    -- message IV
    have m4 : (ogSendIV c H S.og.a p0 sets xs ρ).Only InfErr (fun r => r.1.masks.length = xs.length ∧ r.2.length = xs.length ∧
        (∀ k ∈ r.1.masks, k = 0 ∨ NonZero S k) ∧ ∀ w ∈ r.2, ∃ p, createECPoint c w = .ok p) := by
      unfold ogSendIV
      refine (forIdx_only_get (Q := fun r => (r.2.1 = 0 ∨ NonZero S r.2.1) ∧ ∃ p, createECPoint c r.2.2 = .ok p) sets 0
        (fun j ws hj => ?_)).bind fun rs hrs hq => ?_
      · have hjl : j < xs.length := by rw [← hsl]; exact (List.getElem?_eq_some_iff.1 hj).1
        obtain ⟨cts, hcts, _⟩ := forIdx_ok (f := fun _ w => deserNoPayload c w) (R := fun _ _ => True) ws
          (fun _ w hw => by obtain ⟨x, hx⟩ := hsets ws (List.mem_of_getElem? hj) w hw; exact ⟨x, hx, trivial⟩) 0
        have e2 : vget xs (0 + j) = .ok xs[j] := by rw [vget_eq_ok, Nat.zero_add]; exact List.getElem?_eq_getElem hjl
        simp only [ogOpen, hcts, e2, Outcome.bind_ok]
        split
        · exact (pointToBytes_only c _).bind fun w _ hw => ⟨Or.inl rfl, _, hw⟩
        · exact (pointToBytes_only c _).bind fun w _ hw => ⟨Or.inr (hρ.mask _), _, hw⟩
      · have hl := (forIdx_get _ _ _ hrs).1
        refine ⟨by simp [hl, hsl], by simp [hl, hsl], fun k hk => ?_, fun w hw => ?_⟩
        · obtain ⟨r, hr, rfl⟩ := List.mem_map.1 hk
          exact (hq r hr).1
        · obtain ⟨r, hr, rfl⟩ := List.mem_map.1 hw
          exact (hq r hr).2
    refine m4.bind ?_
    rintro ⟨p0', m4⟩ - ⟨l1, l2, hmk, hm4⟩
    simp only at l1 l2 hmk hm4 ⊢
    -- message V
    have m5 : (ogSendV c S.og.b m4).Only InfErr (fun r => r.length = xs.length ∧ ∀ w ∈ r, ∃ p, createECPoint c w = .ok p) := by
      have hq : (ogSendV c S.og.b m4).Only InfErr (fun r => ∀ w ∈ r, ∃ p, createECPoint c w = .ok p) := by
        refine forIdx_only _ (fun i w hw => ?_) 0
        obtain ⟨p, hp⟩ := hm4 w hw
        simp only [hp, Outcome.bind_ok]
        exact (pointToBytes_only c _).mono (fun _ h => h) (fun w _ hw => ⟨_, hw⟩)
      exact hq.mono (fun _ h => h) (fun r hr h => ⟨(forIdx_get _ _ _ hr).1.trans l2, h⟩)
    refine m5.bind fun m5 _ h5 => ?_
    obtain ⟨l5, h5⟩ := h5
    refine Outcome.Only.bind (Q := fun _ => True) ?_ fun p0'' _ _ => ?_
    · unfold ogProcV
      exact (ogRecord_only S c cu p0'.masks xs hmk m5 h5 0 _ (by omega) (by omega)).bind fun _ _ _ => trivial
    · refine ⟨q2, fun hb hle => ?_⟩
      have : s.p1.lost = [] := hfit.loss hb (by simp only [List.length_append] at hle; omega)
      simp only [this, q3 hle, List.nil_append]
  refine main.mono (fun _ h => h) fun s' hs' hf => ⟨?_, hf⟩
  exact (dayOg_spec ha hb hh hB hI hρ hX hY hdY hsz hH hs').1

theorem runOg_only {S : Setup G} {c cu : Codec G}
    {H : Nat → G} {hashOf : Nat → List Bool} (hh : ∀ e, (hashOf e).length = 256) {B stash : Nat} {base : Prop}
    (ds : List (OgDay G)) : ∀ (X Y : List Nat) (s : OgSt G),
    OgInv S cu H hashOf B X Y s → OgFits base stash Y s → OgAdmissible S B H X Y ds →
    (runOgFrom S.og c cu H hashOf s ds).Only InfErr (fun s' => OgFits base stash (Y ++ ogY ds) s') := by
  induction ds with
  | nil =>
    intro X Y s _ hF _
    simpa [runOgFrom, runDays, ogY, Outcome.Only] using hF
  | cons d ds ih =>
    intro X Y s hI hF hA
    have eX : X ++ ogX (d :: ds) = (X ++ d.xs) ++ ogX ds := by simp [ogX]
    have eY : Y ++ ogY (d :: ds) = (Y ++ d.ys) ++ ogY ds := by simp [ogY]
    obtain ⟨A1, A2, A3, A4, A5, A6, A7, A8, A9, A10⟩ := hA
    rw [eX] at A5 A7 A10
    rw [eY] at A6 A8 A9 A10 ⊢
    have hA' : OgAdmissible S B H (X ++ d.xs) (Y ++ d.ys) ds :=
      ⟨A1, A2, A3, fun e he => A4 e (by simp [he]), A5, A6, A7, A8, A9, A10⟩
    have nY := (List.nodup_append.1 A8).1
    simp only [runOgFrom, runDays]
    refine (dayOg_only A2 A3 hh A1 hI hF (A4 d (by simp))
      (fun x hx => A5 x (by rw [List.mem_append]; exact Or.inl hx))
      (fun x hx => A6 x (by rw [List.mem_append]; exact Or.inl hx)) nY
      (by rw [List.length_append (as := Y ++ d.ys)] at A9; omega)
      (fun x hx y hy => A10 x (by simp at hx ⊢; tauto) y (by simp at hy ⊢; tauto))).bind fun s' _ hs' => ?_
    exact ih _ _ s' hs'.1 hs'.2 hA'

/-- **C63** (original protocol) For every admissible history, from any state the parties can start with, the run ends
normally or with the error raised when a point to be sent is the point at infinity; it never aborts and never reads
past the end of a vector.  Nothing is lost while party one's elements fit its stash. -/
theorem C63_original_only (S : Setup G) (c cu : Codec G) (H : Nat → G) (hashOf : Nat → List Bool)
    (hh : ∀ e, (hashOf e).length = 256) (B : Nat) (X0 Y0 : List Nat) (s0 : OgSt G)
    (hI : OgInv S cu H hashOf B X0 Y0 s0) (ds : List (OgDay G)) (hA : OgAdmissible S B H X0 Y0 ds) :
    runOgFrom S.og c cu H hashOf s0 ds = .err "EC_POINT_point2oct failed" ∨
    ∃ s, runOgFrom S.og c cu H hashOf s0 ds = .ok s ∧
      (s0.p1.lost = [] → (Y0 ++ ogY ds).length ≤ s0.p1.tree.stashSize → s.p1.lost = []) := by
  rcases (runOg_only (c := c) (base := s0.p1.lost = []) (stash := s0.p1.tree.stashSize) hh ds X0 Y0 s0 hI
    ⟨rfl, fun h _ => h⟩ hA).cases with ⟨s, hs, hJ⟩ | ⟨m, hm, rfl⟩
  · exact Or.inr ⟨s, hs, hJ.loss⟩
  · exact Or.inl hm

/-- **C63/C48** (original protocol, small sets) If party one adds at most as many elements as its stash holds, the run
outputs exactly the common elements, each once, or ends with the infinity error: no other outcome exists. -/
theorem C63_original_small (S : Setup G) (c cu : Codec G) (H : Nat → G) (hashOf : Nat → List Bool)
    (hh : ∀ e, (hashOf e).length = 256) (B stash node : Nat) (ds : List (OgDay G))
    (hA : OgAdmissible S B H [] [] ds) (sY : (ogY ds).length ≤ stash) :
    runOg S.og c cu H hashOf stash node ds = .err "EC_POINT_point2oct failed" ∨
    ∃ s, runOg S.og c cu H hashOf stash node ds = .ok s ∧
      s.p0.intersection.Perm ((ogX ds).filter (fun x => x ∈ ogY ds)) := by
  rcases C63_original_only S c cu H hashOf hh B [] [] _ (OgInv.init S cu H hashOf B stash node) ds hA with h | ⟨s, hs, hl⟩
  · exact Or.inl h
  · exact Or.inr ⟨s, hs, Props.C48_original S c cu H hashOf hh B stash node ds hA s hs (hl rfl sY)⟩

/-! ### non-vacuity -/

open Upsi.Proto.Examples

example : runOg toySetup.og toyCodec65521 toyCodec65521 ogHash Props.toyHash 4 1 ogDays = .err "EC_POINT_point2oct failed" ∨
    ∃ s, runOg toySetup.og toyCodec65521 toyCodec65521 ogHash Props.toyHash 4 1 ogDays = .ok s ∧
      s.p0.intersection.Perm [3, 5, 8, 7] :=
  C63_original_small toySetup _ _ ogHash _ (fun e => Props.toyHash_len e) 50 4 1 ogDays ogDays_adm (by decide)

/-- The same history with a drawn dummy point equal to the point at infinity ends with the error. -/
theorem C63_original_infinity :
    ∃ m, runOg toySetup.og toyCodec65521 toyCodec65521 ogHash Props.toyHash 4 1
      [⟨[5], [5], { ogCoins [Props.toyHash 1] with dummy := fun _ => 0 }⟩] = .err m := by
  have : ∀ o : Outcome (OgSt (ZMod 65521)), (match o with | .err _ => true | _ => false) = true → ∃ m, o = .err m := by
    intro o h
    cases o <;> simp at h
    exact ⟨_, rfl⟩
  exact this _ (by decide +kernel)

end Upsi.Proto
