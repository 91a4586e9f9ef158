import Verif.Proto.AddProps
import Verif.Proto.OgModel
import Verif.Num.ModularProps
/- Helper lemmas for C48 (original protocol). -/
namespace Upsi.Proto
open Upsi Upsi.ElGamal Upsi.Tree Upsi.Num

variable {α β G : Type}

/-- A loop of `forIdx` looked at position by position. -/
theorem forIdx_get {f : Nat → α → Outcome β} (l : List α) : ∀ (k : Nat) (bs : List β),
    forIdx f k l = .ok bs → bs.length = l.length ∧
      ∀ i a, l[i]? = some a → ∃ b, bs[i]? = some b ∧ f (k + i) a = .ok b := by
  induction l with
  | nil => intro k bs h; simp only [forIdx, Outcome.ok.injEq] at h; subst h; simp
  | cons a l ih =>
    intro k bs h
    simp only [forIdx, Outcome.bind_eq_ok, Outcome.pure_eq, Outcome.ok.injEq] at h
    obtain ⟨b, hb, bs', hbs, rfl⟩ := h
    obtain ⟨h1, h2⟩ := ih _ _ hbs
    refine ⟨by simp [h1], ?_⟩
    intro i a' hi
    cases i with
    | zero => simp at hi; subst hi; exact ⟨b, by simp, by simpa using hb⟩
    | succ i =>
      simp at hi
      obtain ⟨b', k1, k2⟩ := h2 i a' hi
      exact ⟨b', by simpa using k1, by rw [← k2]; congr 1; omega⟩

theorem forall₂_of_get {R : α → β → Prop} (l : List α) : ∀ (m : List β), m.length = l.length →
    (∀ (i : Nat) a b, l[i]? = some a → m[i]? = some b → R a b) → List.Forall₂ R l m := by
  induction l with
  | nil => intro m hm _; simp at hm; subst hm; exact .nil
  | cons a l ih =>
    intro m hm h
    cases m with
    | nil => simp at hm
    | cons b m =>
      refine .cons (h 0 a b rfl rfl) (ih m (by simpa using hm) fun i a' b' h1 h2 => h (i + 1) a' b' ?_ ?_)
      · simpa using h1
      · simpa using h2

theorem filterMap_eq_filter {p : α → Bool} {r : β → Option α} {l : List α} {m : List β}
    (h : List.Forall₂ (fun a b => r b = if p a then some a else none) l m) :
    m.filterMap r = l.filter p := by
  induction h with
  | nil => rfl
  | cons h1 _ ih =>
    simp only [List.filterMap_cons, List.filter_cons, h1, ih]
    split <;> aesop

variable [AddCommGroup G] [DecidableEq G]

theorem roundtrip_list (c : Codec G) (l : List (Ct G)) {k k' : Nat} {ws : List EncElem} {l' : List (Ct G)}
    (h : forIdx (fun _ x => serNoPayload c x) k l = .ok ws)
    (h' : forIdx (fun _ w => deserNoPayload c w) k' ws = .ok l') : l' = l := by
  have := forall₂_comp (forIdx_forall₂ _ _ _ h) (forIdx_forall₂ _ _ _ h') (T := fun a b => a = b) (by
    rintro a w b ⟨_, h1⟩ ⟨_, h2⟩
    obtain ⟨p, hp, rfl⟩ := serNoPayload_inv c h1
    exact (serializeCt_deser c hp h2).symm)
  exact (List.forall₂_eq_eq_eq ▸ this : l = l').symm

theorem pointToBytes_ok {c : Codec G} {p : G} {w : List UInt8} (h : pointToBytes c p = .ok w) :
    p ≠ 0 ∧ w = c.enc p := by
  unfold pointToBytes at h
  split at h
  · simp at h
  · rename_i hp; simp at h; exact ⟨hp, h.symm⟩

theorem createECPoint_enc {c : Codec G} {p p' : G} (hp : p ≠ 0) (h : createECPoint c (c.enc p) = .ok p') :
    p' = p := by
  simp only [createECPoint, c.dec_enc p hp, hp, if_false, Outcome.ok.injEq] at h
  exact h.symm

omit [DecidableEq G] in
theorem Codec.enc_inj (c : Codec G) {p p' : G} (hp : p ≠ 0) (hp' : p' ≠ 0) (h : c.enc p = c.enc p') :
    p = p' := by
  have h1 := c.dec_enc p hp
  rw [h, c.dec_enc p' hp'] at h1
  simpa using h1.symm

/-- The keys of the original protocol for a setup: party zero holds `sk0`, party one `sk1`. -/
def Setup.og (S : Setup G) : OgKeys G := ⟨S.g, S.q, S.sk0, S.sk1⟩

/-- The stored form of an element: `H(x)^{ab}`. -/
def Setup.tag (S : Setup G) (H : Nat → G) (x : Nat) : G := S.sk0 • (S.sk1 • H x)

omit [DecidableEq G] in
theorem Setup.smul_inj (S : Setup G) {k : Int} (hk : NonZero S k) {p p' : G} (h : k • p = k • p') :
    p = p' := by
  have : k • (p - p') = 0 := by rw [smul_sub, h, sub_self]
  exact sub_eq_zero.1 ((S.smul_zero_iff hk _).1 this)

omit [DecidableEq G] in
theorem Setup.tag_inj (S : Setup G) (ha : NonZero S S.sk0) (hb : NonZero S S.sk1) {H : Nat → G}
    {x y : Nat} (h : S.tag H x = S.tag H y) : H x = H y :=
  S.smul_inj hb (S.smul_inj ha h)

omit [DecidableEq G] in
theorem Setup.inv_smul (S : Setup G) {k inv : Int} (hk : NonZero S k)
    (h : modInverse k S.q = .ok inv) (p : G) : inv • (k • p) = p := by
  have hg : Int.gcd k S.q = 1 := by
    rw [Int.gcd_eq_natAbs, Int.natAbs_natCast]
    have : Nat.Coprime S.q k.natAbs := (Nat.Prime.coprime_iff_not_dvd S.hq).2 (fun hd => hk (by
      exact Int.natCast_dvd.2 hd))
    exact this.symm
  obtain ⟨x, hx, hm⟩ := modInverse_ok hg
  rw [hx] at h
  simp only [Outcome.ok.injEq] at h
  subst h
  obtain ⟨t, ht⟩ := (Int.modEq_iff_dvd.1 hm)
  have e : x * k = 1 - t * S.q := by linarith
  have hq0 : (S.q : Int) • p = 0 := by
    have := card_nsmul_eq_zero' (x := p)
    rw [S.hcard] at this
    rw [natCast_zsmul]; exact this
  rw [smul_smul, e, sub_smul, mul_smul, hq0]
  simp

/-- The lookup loop finds exactly the elements party zero already has. -/
theorem ogLookup_spec {S : Setup G} {c cu : Codec G} {H : Nat → G} {m : Mapping} {P : Nat → Bool}
    {ys : List Nat} : ∀ {ws : List (List UInt8)} {out out' : List Nat},
    (∀ y ∈ ys, S.tag H y ≠ 0 → m.lookup (cu.enc (S.tag H y)) = if P y then some y else none) →
    List.Forall₂ (fun y w => ∃ _ : Nat, pointToBytes c (S.sk1 • H y) = .ok w) ys ws →
    ogLookup c cu S.sk0 m ws out = .ok out' → out' = out ++ ys.filter P := by
  induction ys with
  | nil =>
    intro ws out out' _ hf h
    cases hf
    simp only [ogLookup, Outcome.ok.injEq] at h
    simp [h]
  | cons y ys ih =>
    intro ws out out' hm hf h
    cases hf with
    | cons h1 h2 =>
      obtain ⟨_, h1⟩ := h1
      obtain ⟨hne, rfl⟩ := pointToBytes_ok h1
      simp only [ogLookup, Outcome.bind_eq_ok] at h
      obtain ⟨p, hp, key, hk, h⟩ := h
      have := createECPoint_enc hne hp
      subst this
      obtain ⟨hne', rfl⟩ := pointToBytes_ok hk
      have hl := hm y (by simp) hne'
      unfold Setup.tag at hl
      rw [hl] at h
      have ih' := fun o h => ih (ws := _) (out := o) (out' := out') (fun y' hy' => hm y' (by simp [hy'])) h2 h
      by_cases hP : P y
      · simp only [hP, if_true] at h
        rw [ih' _ h]; simp [hP]
      · simp only [hP] at h
        rw [ih' _ h]; simp [hP]

/-- The recording loop stores the tags of the unmatched elements. -/
theorem ogRecord_spec {S : Setup G} {c cu : Codec G} {H : Nat → G} {masks : List Int} {xs : List Nat}
    {C : Nat → Prop} (ws : List (List UInt8)) : ∀ (i : Nat) (m m' : Mapping),
    (∀ (j : Nat) w, ws[j]? = some w → ∃ x, xs[i + j]? = some x ∧
      ((C x ∧ masks[i + j]? = some 0) ∨ (¬ C x ∧ ∃ k, masks[i + j]? = some k ∧ NonZero S k ∧
        k • S.tag H x ≠ 0 ∧ w = c.enc (k • S.tag H x)))) →
    ogRecord c cu S.q masks xs i ws m = .ok m' →
    (∀ e ∈ m', e ∈ m ∨ (e.2 ∈ xs ∧ S.tag H e.2 ≠ 0 ∧ e.1 = cu.enc (S.tag H e.2))) ∧ (∀ e ∈ m, e ∈ m') ∧
    ∀ (j : Nat) w x, ws[j]? = some w → xs[i + j]? = some x → ¬ C x →
      S.tag H x ≠ 0 ∧ (cu.enc (S.tag H x), x) ∈ m' := by
  induction ws with
  | nil =>
    intro i m m' _ h
    simp only [ogRecord, Outcome.ok.injEq] at h
    subst h
    exact ⟨fun e he => Or.inl he, fun e he => he, by simp⟩
  | cons w ws ih =>
    intro i m m' hw h
    have hw' : ∀ (j : Nat) w, ws[j]? = some w → ∃ x, xs[i + 1 + j]? = some x ∧
      ((C x ∧ masks[i + 1 + j]? = some 0) ∨ (¬ C x ∧ ∃ k, masks[i + 1 + j]? = some k ∧ NonZero S k ∧
        k • S.tag H x ≠ 0 ∧ w = c.enc (k • S.tag H x))) := by
      intro j w' hj
      have := hw (j + 1) w' (by simpa using hj)
      rwa [show i + (j + 1) = i + 1 + j by omega] at this
    obtain ⟨x, hx, hcase⟩ := hw 0 w rfl
    simp only [Nat.add_zero] at hx hcase
    simp only [ogRecord, Outcome.bind_eq_ok] at h
    obtain ⟨k, hk, h⟩ := h
    rw [vget_eq_ok] at hk
    rcases hcase with ⟨hC, h0⟩ | ⟨hC, k', hk', hnz, hne, rfl⟩
    · rw [h0] at hk
      simp only [Option.some.injEq] at hk
      subst hk
      simp only [if_true] at h
      obtain ⟨r1, r2, r3⟩ := ih _ _ _ hw' h
      refine ⟨r1, r2, ?_⟩
      intro j w' x' hj hx' hC'
      cases j with
      | zero => simp only [Nat.add_zero] at hx'; rw [hx] at hx'; simp at hx'; subst hx'; exact absurd hC hC'
      | succ j =>
        exact r3 j w' x' (by simpa using hj) (by rw [← hx']; congr 1; omega) hC'
    · rw [hk'] at hk
      simp only [Option.some.injEq] at hk
      subst hk
      have hk0 : k' ≠ 0 := fun e => hnz (by rw [e]; exact dvd_zero _)
      simp only [hk0, if_false, Outcome.bind_eq_ok] at h
      obtain ⟨p, hp, inv, hinv, key, hkey, x', hx', h⟩ := h
      have := createECPoint_enc hne hp
      subst this
      obtain ⟨hne', rfl⟩ := pointToBytes_ok hkey
      rw [S.inv_smul hnz hinv] at hne' h
      rw [vget_eq_ok, hx] at hx'
      simp only [Option.some.injEq] at hx'
      subst hx'
      obtain ⟨r1, r2, r3⟩ := ih _ _ _ hw' h
      refine ⟨?_, fun e he => r2 e (by simp [he]), ?_⟩
      · intro e he
        rcases r1 e he with h1 | h1
        · rcases List.mem_cons.1 h1 with rfl | h1
          · exact Or.inr ⟨List.mem_of_getElem? hx, hne', rfl⟩
          · exact Or.inl h1
        · exact Or.inr h1
      · intro j w' x' hj hx' hC'
        cases j with
        | zero =>
          simp only [Nat.add_zero] at hx'; rw [hx] at hx'; simp at hx'; subst hx'
          exact ⟨hne', r2 _ (by simp)⟩
        | succ j => exact r3 j w' x' (by simpa using hj) (by rw [← hx']; congr 1; omega) hC'

end Upsi.Proto
