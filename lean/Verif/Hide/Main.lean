import Verif.Hide.Lemmas
/- The reduction to decisional Diffie-Hellman for a whole conversation (C79). -/
namespace Upsi.Hide
open Upsi Upsi.ElGamal Upsi.Tree Upsi.Num Upsi.Proto Upsi.View Upsi.Tree.Props

variable {G : Type} [AddCommGroup G] [DecidableEq G] {P γ κ : Type} {F : Func G P γ κ} {g : G} {T : Nat}

/-- Whatever happens in the conversation, the numbers of candidates are those given by `len`, for elements with hashes
`hss`. -/
def Known (F : Func G P γ κ) (c : Codec G) (A : List ProtoMsg → Option ProtoMsg) (len : List ProtoMsg → Nat → Nat) (sent : List ProtoMsg)
    (other : Upsi.Tree.Tree (Ct G)) (hss : List (List (List Bool))) : Prop :=
  ∀ ms o, copyAfter F c A sent other ms = some o → ∀ hs, hss[ms.length]? = some hs → ∀ (i : Nat) h, hs[i]? = some h →
    h.length = 256 ∧ lenAt o h = len (sent ++ ms) i

theorem Known.head {c : Codec G} {A : List ProtoMsg → Option ProtoMsg} {len : List ProtoMsg → Nat → Nat} {sent : List ProtoMsg}
    {other : Upsi.Tree.Tree (Ct G)} {hs : List (List Bool)} {hss : List (List (List Bool))} (h : Known F c A len sent other (hs :: hss))
    {i : Nat} {b : List Bool} (hb : hs[i]? = some b) : b.length = 256 ∧ lenAt other b = len sent i := by
  have := h [] other rfl hs rfl i b hb
  rwa [List.append_nil] at this

theorem Known.tail {c : Codec G} {A : List ProtoMsg → Option ProtoMsg} {len : List ProtoMsg → Nat → Nat} {sent : List ProtoMsg}
    {other o' : Upsi.Tree.Tree (Ct G)} {hs : List (List Bool)} {hss : List (List (List Bool))} (h : Known F c A len sent other (hs :: hss))
    {m r : ProtoMsg} (hr : A (sent ++ [m]) = some r) (ho : recvC F c other r = .ok o') : Known F c A len (sent ++ [m]) o' hss := by
  intro ms o hms hs' hhs i b hb
  have := h (m :: ms) o (by simp only [copyAfter, hr, ho]; exact hms) hs' (by simpa using hhs) i b hb
  simpa using this

/-- The messages are those with given candidates. -/
theorem msgC_msgB (L : Plain F g T) {other : Upsi.Tree.Tree (Ct G)} (hw : Whole other) {hs : List (List Bool)} {p : PubDay}
    (hl : hs.length = p.hsh.length) {len : Nat → Nat} (hlen : ∀ (i : Nat) b, hs[i]? = some b → b.length = 256 ∧ lenAt other b = len i)
    {ct ct' : Slot → Ct G} (hT : ∀ i j k, ct' (.tree 0 i j k) = ct (.tree 0 i j k)) (hX : ∀ i k, ct' (.elem 0 i k) = ct (.elem 0 i k))
    (hC : ∀ (i : Nat) b path (j : Nat) y, hs[i]? = some b → getPath other b = .ok path → path[j]? = some y →
      ct' (.cand 0 i j) = mul (mul y (invert (ct (.elem 0 i 0)))) (ct (.cand 0 i j))) :
    msgC L other hs p ct = msgB L len p ct' := by
  rw [msgC, msgB]
  simp only [hT, hX]
  congr 1
  funext ns
  congr 1
  refine forIdx_congr2 _ _ 0 hl fun i b b' hb _ => ?_
  simp only [Nat.zero_add]
  obtain ⟨h1, h2⟩ := hlen i b hb
  obtain ⟨path, hp, hpl⟩ := hw.path h1
  rw [hp, Outcome.bind_ok]
  congr 1
  funext pay
  refine forIdx_congr2 _ _ 0 (by rw [List.length_range, hpl, h2]) fun j y _ hy _ => ?_
  simp only [Nat.zero_add]
  rw [hC i b path j y hb hp hy]

/-- The later places of a conversation that goes on. -/
theorem finals_next (L : Plain F g T) (c : Codec G) (A : List ProtoMsg → Option ProtoMsg) {ct : Slot → Ct G} {sent : List ProtoMsg}
    {other o' : Upsi.Tree.Tree (Ct G)} {hs : List (List Bool)} {hss : List (List (List Bool))} {p : PubDay} {ps : List PubDay} {m r : ProtoMsg}
    (hm : msgC L other hs p ct = .ok m) (hr : A (sent ++ [m]) = some r) (ho : recvC F c other r = .ok o') (sl : Slot) :
    finals L c A ct sent other (hs :: hss) (p :: ps) sl.next = finals L c A (fun s => ct s.next) (sent ++ [m]) o' hss ps sl := by
  cases sl <;> simp only [Slot.next, finals, hm, hr, ho]

theorem finals_cand (L : Plain F g T) (c : Codec G) (A : List ProtoMsg → Option ProtoMsg) {ct : Slot → Ct G} {sent : List ProtoMsg}
    {other : Upsi.Tree.Tree (Ct G)} {hs : List (List Bool)} {hss : List (List (List Bool))} {p : PubDay} {ps : List PubDay}
    {i j : Nat} {b : List Bool} {path : List (Ct G)} {y : Ct G} (hb : hs[i]? = some b) (hp : getPath other b = .ok path) (hy : path[j]? = some y) :
    finals L c A ct sent other (hs :: hss) (p :: ps) (.cand 0 i j) = mul (mul y (invert (ct (.elem 0 i 0)))) (ct (.cand 0 i j)) := by
  simp only [finals, hb, hp, hy]

theorem talkC_talkB (L : Plain F g T) (c : Codec G) (A : List ProtoMsg → Option ProtoMsg) (len : List ProtoMsg → Nat → Nat) (ps : List PubDay) :
    ∀ (hss : List (List (List Bool))) (ct : Slot → Ct G) (sent : List ProtoMsg) (other : Upsi.Tree.Tree (Ct G)), Whole other →
    List.Forall₂ (fun (hs : List (List Bool)) (p : PubDay) => hs.length = p.hsh.length) hss ps → Known F c A len sent other hss →
    talkC L c A ct sent other hss ps = talkB L c A len (finals L c A ct sent other hss ps) sent other ps := by
  induction ps with
  | nil =>
    intro hss ct sent other _ h _
    cases h
    rfl
  | cons p ps ih =>
    intro hss ct sent other hw h hk
    obtain ⟨hs, hss', hl, h', rfl⟩ : ∃ hs hss', hs.length = p.hsh.length ∧
        List.Forall₂ (fun (hs : List (List Bool)) (p : PubDay) => hs.length = p.hsh.length) hss' ps ∧ hss = hs :: hss' := by
      cases h with | cons a b => exact ⟨_, _, a, b, rfl⟩
    rw [talkC, talkB, ← msgC_msgB L hw hl (len := len sent) (fun i b hb => hk.head hb) (ct := ct)
      (fun i j k => by simp only [finals]) (fun i k => by simp only [finals])
      (fun i b path j y hb hp hy => finals_cand L c A hb hp hy)]
    refine after_congr _ _ fun m hm => ?_
    cases hr : A (sent ++ [m]) with
    | none => rfl
    | some r =>
      refine after_congr _ _ fun o' ho => ?_
      rw [ih hss' _ _ _ (recvC_whole hw ho) h' (hk.tail hr ho)]
      congr 1
      funext sl
      exact (finals_next L c A hm hr ho sl).symm

/-- Only the used ciphertexts matter. -/
theorem msgC_congr (L : Plain F g T) {B : Nat} {other : Upsi.Tree.Tree (Ct G)} {hs : List (List Bool)} {p : PubDay} {ps : List PubDay}
    (hl : hs.length = p.hsh.length) (hB : ∀ (i : Nat) b path, hs[i]? = some b → getPath other b = .ok path → path.length ≤ B)
    {ct ct' : Slot → Ct G} (h : ∀ s ∈ usedSlots T B 0 (p :: ps), ct s = ct' s) : msgC L other hs p ct = msgC L other hs p ct' := by
  have h1 : forIdx (fun i n => forIdx (fun j (_ : Nat) => L.entry (fun k => ct (.tree 0 i j k))) 0 (List.range n)) 0 p.sizes =
      forIdx (fun i n => forIdx (fun j (_ : Nat) => L.entry (fun k => ct' (.tree 0 i j k))) 0 (List.range n)) 0 p.sizes := by
    refine forIdx_congr2 _ _ 0 rfl fun i n n' hn hn' => ?_
    obtain rfl : n = n' := Option.some.inj (hn.symm.trans hn')
    refine forIdx_congr2 _ _ 0 rfl fun j e e' he _ => ?_
    simp only [Nat.zero_add]
    have hj := (List.getElem?_eq_some_iff.1 he).1
    rw [List.length_range] at hj
    exact L.entryT _ _ fun k hk => h _ (mem_tree (List.getElem?_eq_some_iff.1 hn).1 (by rw [List.getD_eq_getElem?_getD, hn]; exact hj) hk)
  rw [msgC, msgC, h1]
  congr 1
  funext ns
  congr 1
  refine forIdx_congr2 _ _ 0 rfl fun i b b' hb hb' => ?_
  obtain rfl : b = b' := Option.some.inj (hb.symm.trans hb')
  simp only [Nat.zero_add]
  have hlt : i < p.hsh.length := hl ▸ (List.getElem?_eq_some_iff.1 hb).1
  rw [L.payT _ _ fun k hk => h _ (mem_elem hlt hk), h _ (mem_elem hlt L.pos)]
  cases hp : getPath other b with
  | ok path =>
    simp only [Outcome.bind_ok]
    congr 1
    funext pay
    refine forIdx_congr2 _ _ 0 rfl fun j y y' hy hy' => ?_
    obtain rfl : y = y' := Option.some.inj (hy.symm.trans hy')
    simp only [Nat.zero_add]
    rw [h _ (mem_cand hlt (Nat.lt_of_lt_of_le (List.getElem?_eq_some_iff.1 hy).1 (hB i b path hb hp)))]
  | err e => rfl
  | abort => rfl
  | ub => rfl

theorem talkB_congr (L : Plain F g T) (c : Codec G) (A : List ProtoMsg → Option ProtoMsg) {len : List ProtoMsg → Nat → Nat} {B : Nat}
    (hB : ∀ sent i, len sent i ≤ B) (ps : List PubDay) :
    ∀ (ct ct' : Slot → Ct G) (sent : List ProtoMsg) (other : Upsi.Tree.Tree (Ct G)), (∀ s ∈ usedSlots T B 0 ps, ct s = ct' s) →
    talkB L c A len ct sent other ps = talkB L c A len ct' sent other ps := by
  induction ps with
  | nil => intros; rfl
  | cons p ps ih =>
    intro ct ct' sent other h
    have h1 : msgB L (len sent) p ct = msgB L (len sent) p ct' := by
      have h1 : forIdx (fun i n => forIdx (fun j (_ : Nat) => L.entry (fun k => ct (.tree 0 i j k))) 0 (List.range n)) 0 p.sizes =
          forIdx (fun i n => forIdx (fun j (_ : Nat) => L.entry (fun k => ct' (.tree 0 i j k))) 0 (List.range n)) 0 p.sizes := by
        refine forIdx_congr2 _ _ 0 rfl fun i n n' hn hn' => ?_
        obtain rfl : n = n' := Option.some.inj (hn.symm.trans hn')
        refine forIdx_congr2 _ _ 0 rfl fun j e e' he _ => ?_
        simp only [Nat.zero_add]
        have hj := (List.getElem?_eq_some_iff.1 he).1
        rw [List.length_range] at hj
        exact L.entryT _ _ fun k hk => h _ (mem_tree (List.getElem?_eq_some_iff.1 hn).1 (by rw [List.getD_eq_getElem?_getD, hn]; exact hj) hk)
      rw [msgB, msgB, h1]
      congr 1
      funext ns
      congr 1
      refine forIdx_congr2 _ _ 0 rfl fun i b b' hb hb' => ?_
      simp only [Nat.zero_add]
      have hlt : i < p.hsh.length := (List.getElem?_eq_some_iff.1 hb).1
      rw [L.payT _ _ fun k hk => h _ (mem_elem hlt hk)]
      congr 1
      funext pay
      refine forIdx_congr2 _ _ 0 rfl fun j y y' hy _ => ?_
      simp only [Nat.zero_add]
      have hj := (List.getElem?_eq_some_iff.1 hy).1
      rw [List.length_range] at hj
      rw [h _ (mem_cand hlt (Nat.lt_of_lt_of_le hj (hB _ _)))]
    rw [talkB, talkB, h1]
    refine after_congr _ _ fun m _ => ?_
    cases A (sent ++ [m]) with
    | none => rfl
    | some r => exact after_congr _ _ fun o _ => ih _ _ _ _ fun s hs => h _ (mem_next hs)

theorem mul_cancel {a x y : Ct G} (h : mul a x = mul a y) : x = y := by
  cases x; cases y
  simp only [mul, Ct.mk.injEq] at h
  rw [add_left_cancel h.1, add_left_cancel h.2]

/-- The ciphertexts can be computed back from the candidates. -/
theorem finals_inj (L : Plain F g T) (c : Codec G) (A : List ProtoMsg → Option ProtoMsg) {len : List ProtoMsg → Nat → Nat} {B : Nat}
    (hB : ∀ sent i, len sent i ≤ B) (ps : List PubDay) :
    ∀ (hss : List (List (List Bool))) (ct ct' : Slot → Ct G) (sent : List ProtoMsg) (other : Upsi.Tree.Tree (Ct G)), Whole other →
    List.Forall₂ (fun (hs : List (List Bool)) (p : PubDay) => hs.length = p.hsh.length) hss ps → Known F c A len sent other hss →
    (∀ s ∈ usedSlots T B 0 ps, finals L c A ct sent other hss ps s = finals L c A ct' sent other hss ps s) →
    ∀ s ∈ usedSlots T B 0 ps, ct s = ct' s := by
  induction ps with
  | nil => intro hss ct ct' sent other _ _ _ _ s hs; simp [usedSlots] at hs
  | cons p ps ih =>
    intro hss ct ct' sent other hw h hk heq
    obtain ⟨hs, hss', hl, h', rfl⟩ : ∃ hs hss', hs.length = p.hsh.length ∧
        List.Forall₂ (fun (hs : List (List Bool)) (p : PubDay) => hs.length = p.hsh.length) hss' ps ∧ hss = hs :: hss' := by
      cases h with | cons a b => exact ⟨_, _, a, b, rfl⟩
    -- the first day
    have hday : ∀ s ∈ usedSlots T B 0 [p], ct s = ct' s := by
      intro s hs'
      have hmem : s ∈ usedSlots T B 0 (p :: ps) := by
        rw [usedSlots, List.mem_append, List.mem_append, List.mem_append] at hs' ⊢
        rcases hs' with h | h | h | h
        · exact .inl h
        · exact .inr (.inl h)
        · exact .inr (.inr (.inl h))
        · simp [usedSlots] at h
      have he := heq s hmem
      rcases used_cases hs' with ⟨i, j, k, rfl⟩ | ⟨i, k, rfl⟩ | ⟨i, j, rfl, hi, hj⟩ | ⟨s', hs', -⟩
      · simpa only [finals] using he
      · simpa only [finals] using he
      · have hx : ct (.elem 0 i 0) = ct' (.elem 0 i 0) := by
          have := heq (.elem 0 i 0) (mem_elem hi L.pos)
          simpa only [finals] using this
        have hib : hs[i]? = some hs[i] := List.getElem?_eq_getElem (by omega)
        obtain ⟨path, hp, -⟩ := hw.path (hk.head hib).1
        cases hy : path[j]? with
        | none =>
          simp only [finals, hib, hp, hy] at he
          exact he
        | some y =>
          rw [finals_cand L c A hib hp hy, finals_cand L c A hib hp hy, hx] at he
          exact mul_cancel he
      · simp [usedSlots] at hs'
    have hmsg : msgC L other hs p ct = msgC L other hs p ct' := by
      refine msgC_congr L (ps := []) hl (fun i b path hb hp => ?_) hday
      have := (hk.head hb).2
      rw [lenAt, hp] at this
      simp only at this
      rw [this]; exact hB _ _
    intro s hsl
    rcases used_cases hsl with ⟨i, j, k, rfl⟩ | ⟨i, k, rfl⟩ | ⟨i, j, rfl, hi, hj⟩ | ⟨s', hs', rfl⟩
    · have := heq _ hsl; simpa only [finals] using this
    · have := heq _ hsl; simpa only [finals] using this
    · exact hday _ (mem_cand hi hj)
    · cases hm : msgC L other hs p ct with
      | ok m =>
        have hm' := hmsg ▸ hm
        cases hr : A (sent ++ [m]) with
        | none =>
          have := heq _ hsl
          cases s' <;> simpa only [Slot.next, finals, hm, hm', hr] using this
        | some r =>
          cases ho : recvC F c other r with
          | ok o' =>
            refine ih hss' (fun s => ct s.next) (fun s => ct' s.next) (sent ++ [m]) o' (recvC_whole hw ho) h' (hk.tail hr ho) ?_ s' hs'
            intro s'' hs''
            have := heq _ (mem_next hs'')
            rwa [finals_next L c A hm hr ho, finals_next L c A hm' hr ho] at this
          | err e => have := heq _ hsl; cases s' <;> simpa only [Slot.next, finals, hm, hm', hr, ho] using this
          | abort => have := heq _ hsl; cases s' <;> simpa only [Slot.next, finals, hm, hm', hr, ho] using this
          | ub => have := heq _ hsl; cases s' <;> simpa only [Slot.next, finals, hm, hm', hr, ho] using this
      | err e => have hm' := hmsg ▸ hm; have := heq _ hsl; cases s' <;> simpa only [Slot.next, finals, hm, hm'] using this
      | abort => have hm' := hmsg ▸ hm; have := heq _ hsl; cases s' <;> simpa only [Slot.next, finals, hm, hm'] using this
      | ub => have hm' := hmsg ▸ hm; have := heq _ hsl; cases s' <;> simpa only [Slot.next, finals, hm, hm'] using this

/-! ### the places used are different -/

/-- The day of a place. -/
def Slot.day : Slot → Nat
  | .tree d _ _ _ => d
  | .elem d _ _ => d
  | .cand d _ _ => d

theorem nodup_flatMap_range {α : Type} {n : Nat} {f : Nat → List α} (h1 : ∀ i, (f i).Nodup) (h2 : ∀ i j a, a ∈ f i → a ∈ f j → i = j) :
    ((List.range n).flatMap f).Nodup := by
  rw [List.nodup_flatMap]
  refine ⟨fun i _ => h1 i, List.nodup_range.imp fun {i j} hne a ha hb => hne (h2 i j a ha hb)⟩

theorem usedSlots_day {B : Nat} (ps : List PubDay) : ∀ d, ∀ s ∈ usedSlots T B d ps, d ≤ s.day := by
  induction ps with
  | nil => intro d s hs; simp [usedSlots] at hs
  | cons p ps ih =>
    intro d s hs
    simp only [usedSlots, List.mem_append, List.mem_flatMap, List.mem_map, List.mem_range] at hs
    rcases hs with ⟨i, -, j, -, k, -, rfl⟩ | ⟨i, -, k, -, rfl⟩ | ⟨i, -, j, -, rfl⟩ | h
    · exact le_refl _
    · exact le_refl _
    · exact le_refl _
    · have := ih _ _ h; omega

theorem usedSlots_nodup (T B : Nat) (ps : List PubDay) : ∀ d, (usedSlots T B d ps).Nodup := by
  induction ps with
  | nil => intro d; simp [usedSlots]
  | cons p ps ih =>
    intro d
    rw [usedSlots]
    refine List.Nodup.append ?_ (List.Nodup.append ?_ (List.Nodup.append ?_ (ih _) ?_) ?_) ?_
    · refine nodup_flatMap_range (fun i => nodup_flatMap_range (fun j => ?_) ?_) ?_
      · exact List.nodup_range.map (fun a b h => by injection h)
      · intro j j' a ha hb
        simp only [List.mem_map] at ha hb
        obtain ⟨k, -, rfl⟩ := ha
        obtain ⟨k', -, h⟩ := hb
        injection h with h1 h2 h3 h4; exact h3.symm
      · intro i i' a ha hb
        simp only [List.mem_flatMap, List.mem_map] at ha hb
        obtain ⟨j, -, k, -, rfl⟩ := ha
        obtain ⟨j', -, k', -, h⟩ := hb
        injection h with h1 h2 h3 h4; exact h2.symm
    · refine nodup_flatMap_range (fun i => List.nodup_range.map (fun a b h => by injection h)) ?_
      intro i i' a ha hb
      simp only [List.mem_map] at ha hb
      obtain ⟨k, -, rfl⟩ := ha
      obtain ⟨k', -, h⟩ := hb
      injection h with h1 h2 h3; exact h2.symm
    · refine nodup_flatMap_range (fun i => List.nodup_range.map (fun a b h => by injection h)) ?_
      intro i i' a ha hb
      simp only [List.mem_map] at ha hb
      obtain ⟨k, -, rfl⟩ := ha
      obtain ⟨k', -, h⟩ := hb
      injection h with h1 h2 h3; exact h2.symm
    · intro a ha hb
      have := usedSlots_day ps _ a hb
      simp only [List.mem_flatMap, List.mem_map] at ha
      obtain ⟨i, -, k, -, rfl⟩ := ha
      simp only [Slot.day] at this; omega
    · intro a ha hb
      simp only [List.mem_flatMap, List.mem_map] at ha
      obtain ⟨i, -, k, -, rfl⟩ := ha
      rcases List.mem_append.1 hb with hb | hb
      · simp at hb
      · have := usedSlots_day ps _ _ hb
        simp only [Slot.day] at this; omega
    · intro a ha hb
      simp only [List.mem_flatMap, List.mem_map] at ha
      obtain ⟨i, -, j, -, k, -, rfl⟩ := ha
      rcases List.mem_append.1 hb with hb | hb
      · simp at hb
      · rcases List.mem_append.1 hb with hb | hb
        · simp at hb
        · have := usedSlots_day ps _ _ hb
          simp only [Slot.day] at this; omega

/-! ### the experiments -/

/-- The conversation as party one sees it is an experiment on encryptions of zero. -/
theorem accepts_real (L : Plain F g T) (c : Codec G) {hashOf : Nat → List Bool} (hh : ∀ e, (hashOf e).length = 256) {q : Nat} (sk1 : Int)
    (A : G → List ProtoMsg → Option ProtoMsg) (D : G → Transcript → Bool) {s : St0 G P} {days : List (DayIn G P κ)} (U : List Slot)
    (ht : TWF (fun p => hashOf (F.key p)) s.my) (hf : Fits days s.my.actualSize) (hgood : ∀ d ∈ days, ∀ p ∈ d.xs, L.good p) :
    accepts F c hashOf g q sk1 A D s days U = realGame g q sk1 (experiment L c hashOf sk1 A D s days U) := by
  rw [accepts, realGame]
  congr 1
  funext x
  simp only [experiment]
  rw [talk_eq L c hh (pk := joint g sk1 (maskOf x.1 • g)) rfl _ days s [] _ ht hf hgood]
  congr 2
  funext sl
  rw [cts, encrypt, encryptPoint, zeroOf, coinOf]
  split
  · simp [zeros, joint]
  · simp [joint]

/-- The conversation on given candidates. -/
def blank (L : Plain F g T) (c : Codec G) (sk1 : Int) (A : G → List ProtoMsg → Option ProtoMsg) (D : G → Transcript → Bool)
    (len : G → List ProtoMsg → Nat → Nat) (other : Upsi.Tree.Tree (Ct G)) (ps : List PubDay) (U : List Slot) (X : G) (z : Fin U.length → Ct G) : Bool :=
  D X (talkB L c (A X) (len X) (zeroOf U (joint g sk1 X) z) [] other ps)

theorem pubDays_length (stash node : Nat) (bs : List (List (List Bool))) : ∀ d n (hss : List (List (List Bool))),
    List.Forall₂ (fun (hs b : List (List Bool)) => hs.length = b.length) hss bs →
    List.Forall₂ (fun (hs : List (List Bool)) (p : PubDay) => hs.length = p.hsh.length) hss (pubDays stash node d n bs) := by
  induction bs with
  | nil => intro d n hss h; cases h; exact .nil
  | cons b bs ih =>
    intro d n hss h
    cases h with
    | cons a r => exact .cons a (ih _ _ _ r)

theorem hashes_length {hashOf : Nat → List Bool} {days : List (DayIn G P κ)} (h : ∀ d ∈ days, Batch.WF (d.xs, d.coins.hsh0)) :
    List.Forall₂ (fun (hs b : List (List Bool)) => hs.length = b.length) (hashes F hashOf days) (idsOf days) := by
  induction days with
  | nil => exact .nil
  | cons d ds ih =>
    refine .cons ?_ (ih fun e he => h e (by simp [he]))
    have : d.coins.hsh0.length = d.xs.length := (h d (by simp)).1
    simp [this]

/-- On uniformly random pairs, the conversation is one that uses no secret. -/
theorem uniform_blank [Fintype G] (L : Plain F g T) (c : Codec G) {hashOf : Nat → List Bool} {q : Nat} (sk1 : Int)
    (A : G → List ProtoMsg → Option ProtoMsg) (D : G → Transcript → Bool) {s : St0 G P} (hw : Whole s.other) {days : List (DayIn G P κ)}
    (hf : ∀ d ∈ days, Batch.WF (d.xs, d.coins.hsh0)) {U : List Slot} (hU : U.Nodup) {B : Nat}
    (hmem : ∀ sl, sl ∈ U ↔ sl ∈ usedSlots T B 0 (pubOf s days)) {len : G → List ProtoMsg → Nat → Nat} (hB : ∀ X sent i, len X sent i ≤ B)
    (hk : ∀ X, Known F c (A X) (len X) [] s.other (hashes F hashOf days)) :
    uniformGame g q (experiment L c hashOf sk1 A D s days U) = uniformGame g q (blank L c sk1 A D len s.other (pubOf s days) U) := by
  have hfor := pubDays_length s.my.stashSize s.my.nodeSize _ s.my.depth s.my.actualSize _ (hashes_length (F := F) (hashOf := hashOf) hf)
  change List.Forall₂ _ _ (pubOf s days) at hfor
  -- the ciphertexts of the conversation, and its candidates
  let ct : G → (Fin U.length → Ct G) → Slot → Ct G := fun X z sl =>
    ⟨(zeroOf U (joint g sk1 X) z sl).u, plains L hashOf s.my days sl • g + (zeroOf U (joint g sk1 X) z sl).e⟩
  let Φ : G → (Fin U.length → Ct G) → (Fin U.length → Ct G) := fun X z k =>
    finals L c (A X) (ct X z) [] s.other (hashes F hashOf days) (pubOf s days) U[k]
  have hidx : ∀ k : Fin U.length, U.idxOf U[k] = k.val := fun k => hU.idxOf_getElem k.val k.2
  have hinj : ∀ X, Function.Injective (Φ X) := by
    intro X z w h
    have h1 : ∀ sl ∈ usedSlots T B 0 (pubOf s days), finals L c (A X) (ct X z) [] s.other (hashes F hashOf days) (pubOf s days) sl =
        finals L c (A X) (ct X w) [] s.other (hashes F hashOf days) (pubOf s days) sl := by
      intro sl hsl
      have hlt := List.idxOf_lt_length_iff.2 ((hmem sl).2 hsl)
      have := congrFun h ⟨U.idxOf sl, hlt⟩
      simp only [Φ] at this
      rwa [show U[(⟨U.idxOf sl, hlt⟩ : Fin U.length)] = sl from List.getElem_idxOf hlt] at this
    have h2 := finals_inj L c (A X) (hB X) (pubOf s days) _ (ct X z) (ct X w) [] s.other hw hfor (hk X) h1
    funext k
    have h3 := h2 U[k] ((hmem _).1 (List.getElem_mem _))
    have hlt : U.idxOf U[k] < U.length := by rw [hidx]; exact k.2
    simp only [ct, zeroOf, hlt, dif_pos, Ct.mk.injEq] at h3
    have hke : (⟨U.idxOf U[k], hlt⟩ : Fin U.length) = k := Fin.ext (hidx k)
    rw [hke] at h3
    have h4 := add_left_cancel h3.2
    cases hz : z k; cases hw' : w k
    rw [hz, hw'] at h3 h4
    have h5 := h3.1
    simp only at h4 h5
    rw [h5, h4]
  have hexp : ∀ X z, experiment L c hashOf sk1 A D s days U X z = blank L c sk1 A D len s.other (pubOf s days) U X (Φ X z) := by
    intro X z
    simp only [experiment, blank]
    congr 1
    rw [talkC_talkB L c (A X) (len X) (pubOf s days) _ _ [] s.other hw hfor (hk X)]
    refine talkB_congr L c (A X) (hB X) _ _ _ _ _ fun sl hsl => ?_
    have hlt := List.idxOf_lt_length_iff.2 ((hmem sl).2 hsl)
    simp only [zeroOf, hlt, dif_pos, Φ]
    rw [show U[(⟨U.idxOf sl, hlt⟩ : Fin U.length)] = sl from List.getElem_idxOf hlt]
    rfl
  rw [uniformGame, uniformGame]
  let e : Fin (q - 1) × (Fin U.length → Ct G) ≃ Fin (q - 1) × (Fin U.length → Ct G) :=
    Equiv.prodShear (Equiv.refl _) (fun x => Equiv.ofBijective (Φ (maskOf x • g)) (Finite.injective_iff_bijective.1 (hinj _)))
  refine Eq.trans ?_ (prob_equiv e _)
  congr 1
  funext x
  exact hexp _ _

/-- Two histories with the same identifiers and numbers of candidates: party one's verdicts differ by at most the
advantages of the given distinguishers of Diffie-Hellman triples and `2 n / q`. -/
theorem hides [Fintype G] (L : Plain F g T) (c : Codec G) {hashOf : Nat → List Bool} (hh : ∀ e, (hashOf e).length = 256) {q : Nat}
    (hq : q.Prime) (hcard : Fintype.card G = q) (hg0 : g ≠ 0) (sk1 : Int) (A : G → List ProtoMsg → Option ProtoMsg)
    (D : G → Transcript → Bool) {s s' : St0 G P} {days days' : List (DayIn G P κ)}
    (ht : TWF (fun p => hashOf (F.key p)) s.my) (ht' : TWF (fun p => hashOf (F.key p)) s'.my)
    (e1 : s.my.stashSize = s'.my.stashSize) (e2 : s.my.nodeSize = s'.my.nodeSize) (e3 : s.my.depth = s'.my.depth)
    (e4 : s.my.actualSize = s'.my.actualSize) (e5 : s.other = s'.other) (hw : Whole s.other)
    (hf : Fits days s.my.actualSize) (hf' : Fits days' s'.my.actualSize)
    (hgood : ∀ d ∈ days, ∀ p ∈ d.xs, L.good p) (hgood' : ∀ d ∈ days', ∀ p ∈ d.xs, L.good p)
    (hids : idsOf days = idsOf days') {U : List Slot} (hU : U.Nodup) {B : Nat}
    (hmem : ∀ sl, sl ∈ U ↔ sl ∈ usedSlots T B 0 (pubOf s days)) {len : G → List ProtoMsg → Nat → Nat} (hB : ∀ X sent i, len X sent i ≤ B)
    (hk : ∀ X, Known F c (A X) (len X) [] s.other (hashes F hashOf days))
    (hk' : ∀ X, Known F c (A X) (len X) [] s.other (hashes F hashOf days')) :
    |accepts F c hashOf g q sk1 A D s days U - accepts F c hashOf g q sk1 A D s' days' U| ≤
      ∑ k, (ddhAdv g q (reduction g q sk1 (experiment L c hashOf sk1 A D s days U) k) +
        ddhAdv g q (reduction g q sk1 (experiment L c hashOf sk1 A D s' days' U) k)) + 2 * (U.length / q) := by
  have hp : pubOf s days = pubOf s' days' := by rw [pubOf, pubOf, e1, e2, e3, e4, hids]
  have b1 := hybrid_bound (g := g) (q := q) (s := sk1) hq.one_lt (experiment L c hashOf sk1 A D s days U)
  have b2 := hybrid_bound (g := g) (q := q) (s := sk1) hq.one_lt (experiment L c hashOf sk1 A D s' days' U)
  have c1 := ideal_uniform hq hcard hg0 (s := sk1) (experiment L c hashOf sk1 A D s days U)
  have c2 := ideal_uniform hq hcard hg0 (s := sk1) (experiment L c hashOf sk1 A D s' days' U)
  have i1 := uniform_blank (g := g) L c (q := q) sk1 A D hw hf.1 hU hmem hB hk
  have i2 := uniform_blank (g := g) (s := s') L c (q := q) sk1 A D (e5 ▸ hw) hf'.1 hU (hp ▸ hmem) hB (e5 ▸ hk')
  rw [← e5, ← hp] at i2
  rw [accepts_real L c hh sk1 A D U ht hf hgood, accepts_real L c hh sk1 A D U ht' hf' hgood', Finset.sum_add_distrib]
  rw [i1] at c1
  rw [i2] at c2
  rw [abs_le] at *
  constructor <;> linarith [b1.1, b1.2, b2.1, b2.2, c1.1, c1.2, c2.1, c2.2]

end Upsi.Hide
