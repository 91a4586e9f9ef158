import Verif.View.Props
/- C64: the theorems for the cardinality, sum and sharing protocols. -/
namespace Upsi.View
open Upsi Upsi.ElGamal Upsi.Tree Upsi.Num Upsi.Proto

variable {G : Type} [AddCommGroup G] [DecidableEq G]

theorem seen_of_exchange {P γ κ W : Type} {S : Setup G} {F : Func G P γ κ} {see : Ct G × κ → W} {c : Codec G} {hashOf : Nat → List Bool}
    {s0 : St0 G P} {s1 : St1 γ} {xs : List P} {ys : List Nat} {ρ : Coins G P κ} {r : St0 G P × St1 γ × List (Ct G × κ)}
    (h : exchange F c hashOf S.pk S.sk1 s0 s1 xs ys ρ = .ok r) :
    seen S F see c hashOf s0 s1 xs ys ρ = .ok (r.2.2.map see) := by
  obtain ⟨a, b, d⟩ := r
  simp only [seen, h, Outcome.bind_ok, Outcome.pure_eq]

/-- **C64** (cardinality) Take any states of the two parties and any day that completes with non-zero masks and any
shuffle.  Let `v` be what party zero decrypts on it and `M` the number of matches it adds.  If instead the masks are drawn
uniformly from `[1, q - 1]` and the permutation of the candidates uniformly, everything else being fixed, then the list
of plaintexts party zero decrypts is distributed exactly like `M` identities and independent uniformly random
non-identity points elsewhere, in random order: it carries no information beyond the number of candidates and the
number of matches. -/
theorem C64_cardinality_view (S : Setup G) (c : Codec G) (hashOf : Nat → List Bool) (s s' : StCA G) (d : DayIn G Nat Unit)
    (hsh : ∀ l, (d.coins.shuffle l).Perm l) (hm : ∀ i, NonZero S (d.coins.masks i 0))
    (h : dayCA c hashOf S.pk S.sk0 S.sk1 s d.xs d.ys d.coins = .ok s') :
    ∃ v, viewCA S c hashOf s d = .ok v ∧ ∀ w : List G,
      ways (fun x : (Fin v.length → Fin (S.q - 1)) × Equiv.Perm (Fin v.length) => viewCA S c hashOf s (redraw tapeOf d x)) (.ok w) =
        ways (idealView S.g S.q v.length (s'.cardinality - s.cardinality)) w := by
  simp only [dayCA, Outcome.bind_eq_ok, Outcome.pure_eq, Outcome.ok.injEq] at h
  obtain ⟨⟨p0, p1, cands⟩, he, rfl⟩ := h
  refine ⟨_, seen_of_exchange he, fun w => ?_⟩
  have hM : (cands.filter (fun x => decrypt S.sk0 x.1 = 0)).length =
      countLoop S.sk0 cands s.cardinality - s.cardinality := by rw [countLoop_eq]; omega
  have := (first_ways (funcCA_first S c) hsh hm he (N := (cands.map (seeFirst S)).length) (by simp)).2 (fun x => by
    obtain ⟨r, hr⟩ := ca_total hsh hm he (fun i => tapeOf (x.1 i)) (fun i => mask_pos _) x.2
    exact ⟨_, seen_of_exchange hr⟩) w
  rw [hM] at this
  exact this

/-- **C64** (cardinality) The masks and the shuffle of one day influence nothing else: with any other masks and shuffle
the day completes and leaves both parties in the same state. -/
theorem C64_cardinality_state (S : Setup G) (c : Codec G) (hashOf : Nat → List Bool) (s s' : StCA G) (d : DayIn G Nat Unit)
    (hsh : ∀ l, (d.coins.shuffle l).Perm l) (hm : ∀ i, NonZero S (d.coins.masks i 0))
    (h : dayCA c hashOf S.pk S.sk0 S.sk1 s d.xs d.ys d.coins = .ok s') {N : Nat} (x : (Fin N → Fin (S.q - 1)) × Equiv.Perm (Fin N)) :
    dayCA c hashOf S.pk S.sk0 S.sk1 s (redraw tapeOf d x).xs (redraw tapeOf d x).ys (redraw tapeOf d x).coins = .ok s' := by
  simp only [dayCA, Outcome.bind_eq_ok, Outcome.pure_eq, Outcome.ok.injEq] at h
  obtain ⟨⟨p0, p1, cands⟩, he, rfl⟩ := h
  obtain ⟨cs, hcs⟩ := ca_total' hsh hm he (fun i => tapeOf (x.1 i)) (fun i => mask_pos _) x.2
  have e : exchange (funcCA c) c hashOf S.pk S.sk1 s.p0 s.p1 (redraw tapeOf d x).xs (redraw tapeOf d x).ys (redraw tapeOf d x).coins =
    .ok (p0, p1, cs) := hcs
  simp only [dayCA, e, Outcome.bind_ok, Outcome.pure_eq]
  congr 2
  obtain ⟨all, out, k1, k2, k3⟩ := exchange_inv he
  obtain ⟨all', out', k1', k2', k3'⟩ := exchange_inv hcs
  rw [preCands_resample, k1] at k1'
  obtain rfl := Outcome.ok.inj k1'
  have z := (zeros_card (funcCA_first S c) (hsh all) hm k2 k3).2
  have z' := (zeros_card (funcCA_first S c) (permuteBy_perm x.2 all) (fun i => resample_nz (fun i => mask_pos _) i) k2' k3').2
  rw [countLoop_eq, countLoop_eq, ← z, ← z']

/-- `d'` is the day `d` with other masks and another shuffle. -/
def Redrawn (q : Nat) (d d' : DayIn G Nat Unit) : Prop :=
  ∃ (N : Nat) (x : (Fin N → Fin (q - 1)) × Equiv.Perm (Fin N)), d' = redraw tapeOf d x

/-- **C64** (cardinality) Over a history of days the masks and shuffles of all days can be redrawn independently: the
history completes and ends in the same state.  Applied to every prefix: what party zero sees on a day depends on that
day's masks and shuffle only, so the views of different days are independent, each with the distribution of
`C64_cardinality_view`. -/
theorem C64_cardinality_history (S : Setup G) (c : Codec G) (hashOf : Nat → List Bool) {ds ds' : List (DayIn G Nat Unit)}
    (hr : List.Forall₂ (Redrawn S.q) ds ds') : ∀ (s s' : StCA G),
    (∀ d ∈ ds, (∀ l, (d.coins.shuffle l).Perm l) ∧ ∀ i, NonZero S (d.coins.masks i 0)) →
    runDays (fun s d => dayCA c hashOf S.pk S.sk0 S.sk1 s d.xs d.ys d.coins) s ds = .ok s' →
    runDays (fun s d => dayCA c hashOf S.pk S.sk0 S.sk1 s d.xs d.ys d.coins) s ds' = .ok s' := by
  induction hr with
  | nil => intro s s' _ h; exact h
  | cons hd _ ih =>
    intro s s' hm h
    obtain ⟨N, x, rfl⟩ := hd
    simp only [runDays, Outcome.bind_eq_ok] at h
    obtain ⟨s1, h1, h2⟩ := h
    have hh := hm _ (List.mem_cons_self ..)
    simp only [runDays]
    rw [C64_cardinality_state S c hashOf s s1 _ hh.1 hh.2 h1 x, Outcome.bind_ok]
    exact ih s1 s' (fun d hd => hm d (List.mem_cons_of_mem _ hd)) h2

theorem sumLoop_card (sk0 : Int) (l : List (Ct G × Ct G)) : ∀ (n : Nat) (acc : Ct G),
    (sumLoop sk0 l n acc).1 = n + (l.filter (fun x => decrypt sk0 x.1 = 0)).length := by
  induction l with
  | nil => intro n acc; rfl
  | cons x l ih =>
    intro n acc
    rw [sumLoop]
    by_cases hx : decrypt sk0 x.1 = 0
    · rw [if_pos hx, ih, List.filter_cons_of_pos (by simpa using hx), List.length_cons]; omega
    · rw [if_neg hx, ih, List.filter_cons_of_neg (by simpa using hx)]

/-- **C64** (sum) The same for the first components party zero decrypts on a day of the sum protocol, the number of
matches being the growth of the reported cardinality: no view is more likely than in the ideal experiment, and if the
day completes for all masks and shuffles the two distributions are equal.  (A day may fail when a re-randomised payload
hits the point at infinity.) -/
theorem C64_sum_view (S : Setup G) (c : Codec G) (limit : Nat) (hashOf : Nat → List Bool) (s s' : StSum G) (d : DayIn G (Nat × Int) (Ct G))
    (hsh : ∀ l, (d.coins.shuffle l).Perm l) (hm : ∀ i, NonZero S (d.coins.masks i 0))
    (h : daySum c limit hashOf S.pk S.sk0 S.sk1 s d.xs d.ys d.coins = .ok s') :
    ∃ v, viewSum S c hashOf s d = .ok v ∧
      (∀ w : List G, ways (fun x : (Fin v.length → Fin (S.q - 1)) × Equiv.Perm (Fin v.length) => viewSum S c hashOf s (redraw tapeOf d x)) (.ok w) ≤
        ways (idealView S.g S.q v.length (s'.cardinality - s.cardinality)) w) ∧
      ((∀ x : (Fin v.length → Fin (S.q - 1)) × Equiv.Perm (Fin v.length), ∃ r, viewSum S c hashOf s (redraw tapeOf d x) = .ok r) → ∀ w : List G,
        ways (fun x : (Fin v.length → Fin (S.q - 1)) × Equiv.Perm (Fin v.length) => viewSum S c hashOf s (redraw tapeOf d x)) (.ok w) =
        ways (idealView S.g S.q v.length (s'.cardinality - s.cardinality)) w) := by
  simp only [daySum, Outcome.bind_eq_ok, Outcome.pure_eq, Outcome.ok.injEq] at h
  obtain ⟨⟨p0, p1, cands⟩, he, m3, _, sum1, _, m4, _, sum2, _, big, _, v, _, rfl⟩ := h
  refine ⟨_, seen_of_exchange he, ?_⟩
  have hM : (cands.filter (fun x => decrypt S.sk0 x.1 = 0)).length =
      (sumLoop S.sk0 cands s.cardinality (encrypt S.pk (d.coins.last 0 0) 0)).1 - s.cardinality := by rw [sumLoop_card]; omega
  have := first_ways (funcSum_first S c) hsh hm he (N := (cands.map (seeFirst S)).length) (by simp)
  rw [hM] at this
  exact this

/-- **C64** (shares) The same for the sharing protocol: the number of matches is the number of new shares. -/
theorem C64_share_view (S : Setup G) (c : Codec G) (mont : Int → Option Mont) (a b : TPaillier) (hashOf : Nat → List Bool) (s s' : StSS G)
    (d : DayIn G (Nat × Int) Int)
    (hsh : ∀ l, (d.coins.shuffle l).Perm l) (hm : ∀ i, NonZero S (d.coins.masks i 0))
    (h : daySS c mont a b hashOf S.pk S.sk0 S.sk1 s d.xs d.ys d.coins = .ok s') :
    ∃ v, viewSS S c mont a b hashOf s d = .ok v ∧
      (∀ w : List G, ways (fun x : (Fin v.length → Fin (S.q - 1)) × Equiv.Perm (Fin v.length) =>
          viewSS S c mont a b hashOf s (redraw tapeOf d x)) (.ok w) ≤
        ways (idealView S.g S.q v.length (s'.shares0.length - s.shares0.length)) w) ∧
      ((∀ x : (Fin v.length → Fin (S.q - 1)) × Equiv.Perm (Fin v.length), ∃ r, viewSS S c mont a b hashOf s (redraw tapeOf d x) = .ok r) →
        ∀ w : List G, ways (fun x : (Fin v.length → Fin (S.q - 1)) × Equiv.Perm (Fin v.length) =>
            viewSS S c mont a b hashOf s (redraw tapeOf d x)) (.ok w) =
          ways (idealView S.g S.q v.length (s'.shares0.length - s.shares0.length)) w) := by
  simp only [daySS, daySSBody, Outcome.bind_eq_ok, Outcome.pure_eq, Outcome.ok.injEq] at h
  obtain ⟨⟨p0, p1, cands⟩, he, ⟨sh0, pays⟩, hl, sh1, _, rfl⟩ := h
  refine ⟨_, seen_of_exchange he, ?_⟩
  have hM : (cands.filter (fun x => decrypt S.sk0 x.1 = 0)).length = sh0.length - s.shares0.length := by
    rw [ssLoop_count hl]; exact (Nat.add_sub_cancel_left _ _).symm
  have := first_ways (funcSS_first S c mont a b) hsh hm he (N := (cands.map (seeFirst S)).length) (by simp)
  rw [hM] at this
  exact this

end Upsi.View
