import Verif.Mock.Del
import Verif.Mock.AddProps
import Verif.Setup.ImportDel
/-
Property theorems C78 (protocols with deletions): a run with `--start_size`.
-/
namespace Upsi.Mock
open Upsi Upsi.Tree Upsi.Tree.Props Upsi.Num Upsi.Proto Upsi.Paillier Upsi.Setup

variable {mont : Int → Option Mont} {p q p0 q0 p1 q1 : Nat} {k0 k1 : DKeys}

theorem mockDel_filled {pk : Public} {sk : Private} (K : KeyPair p q mont pk sk) {h : Nat → List Bool}
    (hh : ∀ e, (h e).length = 256) (stash node : Nat) {size : Nat} (hl : size < 2 ^ 30) {ρ : MockCoins} {n' : Nat}
    (w : ρ.WF size n' 0) (hn : n' = p * q) :
    ∃ M t lost z, mockElements ρ.rnd 0 size = .ok M ∧ M.length = size ∧ (∀ m ∈ M, m < 10 ^ 15) ∧
      Filled (fun e : EP => h e.1) stash node (ones M) t lost ∧ EncP (p * q) (0, 0) (z, z) ∧
      mockDel h mont pk stash node size ρ = .ok ⟨t, mockCopy (z, z) (Tree.empty stash node) t, lost⟩ := by
  subst hn
  obtain ⟨M, e0, l0, b0⟩ := mockElements_ok ρ.rnd w.rnd size 0
  obtain ⟨r, i0, f0⟩ := filled_insert (hashOf := fun e : EP => h e.1) (fun e => by rw [hh]) stash node
    (es := ones M) (hsh := ρ.hsh) ⟨by simp [ones, l0, w.count], w.hsh⟩ (by simp only [ones, List.length_map, l0]; exact hl)
  obtain ⟨z, hz, _⟩ := Paillier.C21_encrypt (Nat.mul_pos K.primes.hp.pos K.primes.hq.pos) K.primes.small_mul K.mont
    K.pub 0 (pow_pos (Nat.mul_pos K.primes.hp.pos K.primes.hq.pos) 1) (ρ.zero 0) w.coin.1 w.coin.2
  rw [Nat.cast_zero] at hz
  refine ⟨M, r.tree, r.lost, z, e0, l0, b0, f0, ⟨K.enc_pub hz, K.enc_pub hz⟩, ?_⟩
  rw [mockDel, e0, Outcome.bind_ok]
  change (insert (fun e : EP => h e.1) (Tree.empty stash node) (ones M) ρ.hsh >>= _) = _
  rw [i0, Outcome.bind_ok, hz]
  rfl

/-- The invariant after both parties of a protocol with deletions made mock trees of the same size. -/
theorem startDel_inv (K : Keys p0 q0 p1 q1 mont k0 k1) {h : Nat → List Bool} (hh : ∀ e, (h e).length = 256)
    {B : Nat} (hB0 : B < p0 * q0) (hB1 : B < p1 * q1) (stash node : Nat) {start : Int}
    (h0 : 0 < start) (hl : start < 2 ^ 30) {ρ0 ρ1 : MockCoins} (w0 : ρ0.WF start.toNat (p1 * q1) 0)
    (w1 : ρ1.WF start.toNat (p0 * q0) 0) :
    ∃ M0 M1 s0 s1, mockElements ρ0.rnd 0 start.toNat = .ok M0 ∧ mockElements ρ1.rnd 0 start.toNat = .ok M1 ∧
      M0.length = start.toNat ∧ M1.length = start.toNat ∧ (∀ m ∈ M0 ++ M1, m < 10 ^ 15) ∧
      startDel h mont k0 k1 stash node start start ρ0 ρ1 = .ok (s0, s1) ∧
      ∀ N0 N1 : Nat → Prop, (∀ m ∈ M0, ¬ N0 m) → (∀ m ∈ M1, ¬ N1 m) → ¬ N0 B → ¬ N1 B →
        (∀ m ∈ M0 ++ M1, m < B) → DInvM M0 M1 N0 N1 h B (p0 * q0) (p1 * q1) [] [] s0 s1 := by
  have hlt : start.toNat < 2 ^ 30 := by omega
  obtain ⟨M0, t0, l0, z0, e0, n0, b0, f0, c0, d0⟩ := mockDel_filled K.own1 hh stash node hlt w0 rfl
  obtain ⟨M1, t1, l1, z1, e1, n1, b1, f1, c1, d1⟩ := mockDel_filled K.own0 hh stash node hlt w1 rfl
  refine ⟨M0, M1, _, _, e0, e1, n0, n1, fun m hm => (List.mem_append.1 hm).elim (b0 m) (b1 m), by rw [startDel, startDel1, startDel1, if_pos h0, if_pos h0, d0, Outcome.bind_ok, d1, Outcome.bind_ok]; rfl, ?_⟩
  intro N0 N1 a0 a1 aB0 aB1 bm
  have hlen : (ones M0).length = (ones M1).length := by simp [ones, n0, n1]
  have key : ∀ {M : List Nat} {t : Upsi.Tree.Tree EP} {lost : List EP}, Filled (fun e : EP => h e.1) stash node (ones M) t lost →
      ∀ e ∈ t.contents, e.1 ∈ M := by
    intro M t lost f e he
    obtain ⟨m, hm, rfl⟩ := List.mem_map.1 (f.all.subset (List.mem_append_left _ he))
    exact hm
  have net : ∀ {M : List Nat} {t : Upsi.Tree.Tree EP} {lost : List EP}, Filled (fun e : EP => h e.1) stash node (ones M) t lost →
      ∀ k, payloadSum k t.contents + payloadSum k lost = payloadSum k (ones M) := by
    intro M t lost f k
    rw [← payloadSum_append]
    exact payloadSum_perm k f.all
  refine ⟨f0.wf, f1.wf, by simpa using f0.size, by simpa using f1.size, fun e he => bm _ (List.mem_append_left _ (key f0 e he)),
    fun e he => bm _ (List.mem_append_right _ (key f1 e he)), by simpa using net f0, by simpa using net f1, ?_, ?_⟩
  · exact mockCopy_mirror f0 f1 hlen _ _ (B, 0) ⟨le_refl _, hB0⟩ (Or.inr ⟨aB0, c1⟩)
      (fun x hx => Or.inr ⟨a0 _ (key f0 x hx), c1⟩)
  · exact mockCopy_mirror f1 f0 hlen.symm _ _ (B, 0) ⟨le_refl _, hB1⟩ (Or.inr ⟨aB1, c0⟩)
      (fun x hx => Or.inr ⟨a1 _ (key f1 x hx), c0⟩)

/-- Histories of the cardinality/sum protocol after mock trees of `size` elements were made. -/
structure DelMockAdmissible (B n0 n1 size : Nat) (ds : List DayDelIn) : Prop where
  bound0 : B < n0
  bound1 : B < n1
  coins : ∀ d ∈ ds, d.coins.round.WF B n0 n1 d.xs d.ys
  x : ∀ e ∈ delX ds, 0 < e.1 ∧ e.1 < B
  y : ∀ e ∈ delY ds, 0 < e.1 ∧ e.1 < B
  sizeX : size + (delX ds).length < 2 ^ 30
  sizeY : size + (delY ds).length < 2 ^ 30

/-- **C78** (inner product) With `--start_size` (the same positive number at both parties) the trees of the
cardinality/sum protocol with deletions are filled with random elements below `10^15` – this never fails – and, provided no mock
element of a party equals an element the other party updates later, a run that completes without overflow, hash
collision or wrapping share yields the inner product of the net payloads of the updates alone: the mock trees do not
change the result, even if both parties drew the same mock element. -/
theorem C78_inner_product (K : Keys p0 q0 p1 q1 mont k0 k1) (ro : List UInt8 → Nat) (h : Nat → List Bool)
    (hh : ∀ e, (h e).length = 256) (B stash node : Nat) (start : Int) (h0 : 0 < start) (ρ0 ρ1 : MockCoins)
    (w0 : ρ0.WF start.toNat (p1 * q1) 0) (w1 : ρ1.WF start.toNat (p0 * q0) 0) (ds : List DayDelIn)
    (hA : DelMockAdmissible B (p0 * q0) (p1 * q1) start.toNat ds)
    (b0 : 2 * (mass (delX ds) * mass (delY ds)) < ((p0 * q0 : Nat) : Int))
    (b1 : 2 * (mass (delX ds) * mass (delY ds)) < ((p1 * q1 : Nat) : Int)) :
    ∃ M0 M1 s0 s1, mockElements ρ0.rnd 0 start.toNat = .ok M0 ∧ mockElements ρ1.rnd 0 start.toNat = .ok M1 ∧
      (∀ m ∈ M0 ++ M1, m < 10 ^ 15) ∧ startDel h mont k0 k1 stash node start start ρ0 ρ1 = .ok (s0, s1) ∧
      ∀ s', (∀ m ∈ M0 ++ M1, m < B) → (∀ m ∈ M0, m ∉ (delY ds).map Prod.fst) → (∀ m ∈ M1, m ∉ (delX ds).map Prod.fst) →
        runDelFrom ro mont h k0 k1 ⟨s0, s1, 0, []⟩ ds = .ok s' → s'.p0.lost = [] → s'.p1.lost = [] →
        (∀ f ∈ s'.trace, f.Clean ro) → s'.result = UInt64.ofInt (innerProduct (delX ds) (delY ds)) := by
  have t1 := hA.sizeX
  have t2 := hA.sizeY
  obtain ⟨M0, M1, s0, s1, e0, e1, n0, n1, b15, hs, hI⟩ := startDel_inv K hh hA.bound0 hA.bound1 stash node h0 (by omega) w0 w1
  refine ⟨M0, M1, s0, s1, e0, e1, b15, hs, fun s' bm d0 d1 hr l0 l1 hc => ?_⟩
  have kx : ∀ k ∈ (delX ds).map Prod.fst, 0 < k ∧ k < B := fun k hk => by
    obtain ⟨e, he, rfl⟩ := List.mem_map.1 hk; exact hA.x e he
  have ky : ∀ k ∈ (delY ds).map Prod.fst, 0 < k ∧ k < B := fun k hk => by
    obtain ⟨e, he, rfl⟩ := List.mem_map.1 hk; exact hA.y e he
  have step := roundStep_DInvM (N0 := fun k => k ∈ (delY ds).map Prod.fst) (N1 := fun k => k ∈ (delX ds).map Prod.fst)
    d0 d1 (fun h => lt_irrefl 0 (ky 0 h).1) (fun h => lt_irrefl 0 (kx 0 h).1) K hh (le_of_lt hA.bound0) (le_of_lt hA.bound1)
    (by omega) (by omega)
  obtain ⟨_, _, _, _, k5⟩ := runDel_specJ K (ro := ro) step ds [] [] ⟨s0, s1, 0, []⟩ s'
    (hI _ _ d0 d1 (fun h => lt_irrefl B (ky B h).2) (fun h => lt_irrefl B (kx B h).2) bm) hA.coins
    (fun e he => ⟨List.mem_map_of_mem he, (hA.x e he).2⟩) (fun e he => ⟨List.mem_map_of_mem he, (hA.y e he).2⟩)
    (by simp only [List.nil_append]; omega) (by simp only [List.nil_append]; omega) hr
  simp only [List.nil_append] at k5
  rw [← join_eq_innerProduct]
  simpa using k5 l0 l1 hc b0 b1 0 (by simp [join_nil]; rfl)

/-- **C78** (cardinality and sum) If party zero's updates net out to the set `A`, each element with its value `v`, and
party one's to `C` with payload one, the result of a run with mock trees is the sum of the values of `A ∩ C` (with all
values one: the cardinality). -/
theorem C78_sum (K : Keys p0 q0 p1 q1 mont k0 k1) (ro : List UInt8 → Nat) (h : Nat → List Bool)
    (hh : ∀ e, (h e).length = 256) (B stash node : Nat) (start : Int) (h0 : 0 < start) (ρ0 ρ1 : MockCoins)
    (w0 : ρ0.WF start.toNat (p1 * q1) 0) (w1 : ρ1.WF start.toNat (p0 * q0) 0) (ds : List DayDelIn)
    (hA : DelMockAdmissible B (p0 * q0) (p1 * q1) start.toNat ds)
    (b0 : 2 * (mass (delX ds) * mass (delY ds)) < ((p0 * q0 : Nat) : Int))
    (b1 : 2 * (mass (delX ds) * mass (delY ds)) < ((p1 * q1 : Nat) : Int))
    (v : Nat → Int) (A C : Finset Nat) (hX : Carries v (delX ds) A) (hY : Carries (fun _ => 1) (delY ds) C) :
    ∃ M0 M1 s0 s1, mockElements ρ0.rnd 0 start.toNat = .ok M0 ∧ mockElements ρ1.rnd 0 start.toNat = .ok M1 ∧
      (∀ m ∈ M0 ++ M1, m < 10 ^ 15) ∧ startDel h mont k0 k1 stash node start start ρ0 ρ1 = .ok (s0, s1) ∧
      ∀ s', (∀ m ∈ M0 ++ M1, m < B) → (∀ m ∈ M0, m ∉ (delY ds).map Prod.fst) → (∀ m ∈ M1, m ∉ (delX ds).map Prod.fst) →
        runDelFrom ro mont h k0 k1 ⟨s0, s1, 0, []⟩ ds = .ok s' → s'.p0.lost = [] → s'.p1.lost = [] →
        (∀ f ∈ s'.trace, f.Clean ro) → s'.result = UInt64.ofInt (∑ k ∈ A ∩ C, v k) := by
  obtain ⟨M0, M1, s0, s1, e0, e1, b15, hs, hr⟩ := C78_inner_product K ro h hh B stash node start h0 ρ0 ρ1 w0 w1 ds hA b0 b1
  refine ⟨M0, M1, s0, s1, e0, e1, b15, hs, fun s' bm d0 d1 h' l0 l1 hc => ?_⟩
  rw [hr s' bm d0 d1 h' l0 l1 hc, innerProduct_carries hX hY]
  simp

/-- **C78** (intersection) The same for the intersection protocol with deletions: the counter is the size of the
intersection of the sets the parties hold apart from the mock elements, and (if on no day a party deletes and re-adds
the same element, or every removal was processed first) exactly these elements are reported. -/
theorem C78_intersection (K : Keys p0 q0 p1 q1 mont k0 k1) (ro : List UInt8 → Nat) (h : Nat → List Bool)
    (hh : ∀ e, (h e).length = 256) (v w : Nat → Int) (B stash node : Nat) (start : Int) (h0 : 0 < start) (ρ0 ρ1 : MockCoins)
    (w0 : ρ0.WF start.toNat (p1 * q1) 0) (w1 : ρ1.WF start.toNat (p0 * q0) 0) (ds : List DayPsiIn)
    (hA : PsiAdmissible v w B (p0 * q0) (p1 * q1) ds)
    (tX : start.toNat + (ds.flatMap (·.xs)).length < 2 ^ 30) (tY : start.toNat + (ds.flatMap (·.ys)).length < 2 ^ 30) :
    ∃ M0 M1 s0 s1, mockElements ρ0.rnd 0 start.toNat = .ok M0 ∧ mockElements ρ1.rnd 0 start.toNat = .ok M1 ∧
      (∀ m ∈ M0 ++ M1, m < 10 ^ 15) ∧ startDel h mont k0 k1 stash node start start ρ0 ρ1 = .ok (s0, s1) ∧
      ∀ s', (∀ m ∈ M0 ++ M1, m < B) → (∀ m ∈ M0, m ∉ (ds.flatMap (·.ys)).map Prod.fst) → (∀ m ∈ M1, m ∉ (ds.flatMap (·.xs)).map Prod.fst) →
        runDelPsiFrom ro mont h k0 k1 ⟨s0, s1, 0, [], [], []⟩ ds = .ok s' → s'.p0.lost = [] → s'.p1.lost = [] →
        (∀ f ∈ s'.trace, f.Clean ro) →
        s'.result.toNat = (holdings ∅ (ds.map (·.xs)) ∩ holdings ∅ (ds.map (·.ys))).card ∧
        ((∀ u ∈ s'.updates, OrderOK u) ∨
          (∀ d ∈ ds, Disjoint (delKeys d.xs) (addKeys d.xs) ∧ Disjoint (delKeys d.ys) (addKeys d.ys)) →
          Reports s'.inter (holdings ∅ (ds.map (·.xs)) ∩ holdings ∅ (ds.map (·.ys)))) := by
  have g0 := hA.bound0
  have g1 := hA.bound1
  have g2 : 0 < p0 * q0 := Nat.mul_pos K.own0.primes.hp.pos K.own0.primes.hq.pos
  have g3 : 0 < p1 * q1 := Nat.mul_pos K.own1.primes.hp.pos K.own1.primes.hq.pos
  obtain ⟨M0, M1, s0, s1, e0, e1, n0, n1, b15, hs, hI⟩ := startDel_inv K hh (B := B) (by omega) (by omega) stash node h0 (by omega) w0 w1
  refine ⟨M0, M1, s0, s1, e0, e1, b15, hs, fun s' bm d0 d1 hr l0 l1 hc => ?_⟩
  have kx : ∀ k ∈ (ds.flatMap (·.xs)).map Prod.fst, 0 < k ∧ k < B := fun k hk => by
    obtain ⟨e, he, rfl⟩ := List.mem_map.1 hk
    obtain ⟨d, hd, he⟩ := List.mem_flatMap.1 he
    exact validDays_pos hA.valid0 d hd e he
  have ky : ∀ k ∈ (ds.flatMap (·.ys)).map Prod.fst, 0 < k ∧ k < B := fun k hk => by
    obtain ⟨e, he, rfl⟩ := List.mem_map.1 hk
    obtain ⟨d, hd, he⟩ := List.mem_flatMap.1 he
    exact validDays_pos hA.valid1 d hd e he
  have mx : ∀ d ∈ ds, ∀ e ∈ d.xs, e.1 ∈ (ds.flatMap (·.xs)).map Prod.fst := fun d hd e he =>
    List.mem_map_of_mem (List.mem_flatMap.2 ⟨d, hd, he⟩)
  have my : ∀ d ∈ ds, ∀ e ∈ d.ys, e.1 ∈ (ds.flatMap (·.ys)).map Prod.fst := fun d hd e he =>
    List.mem_map_of_mem (List.mem_flatMap.2 ⟨d, hd, he⟩)
  have step := roundStep_DInvM (N0 := fun k => k ∈ (ds.flatMap (·.ys)).map Prod.fst)
    (N1 := fun k => k ∈ (ds.flatMap (·.xs)).map Prod.fst)
    d0 d1 (fun h => lt_irrefl 0 (ky 0 h).1) (fun h => lt_irrefl 0 (kx 0 h).1) K hh (B := B) (by omega) (by omega)
    (by omega) (by omega)
  obtain ⟨_, _, _, _, k⟩ := runDelPsi_specJ K (ro := ro) step g0 g1 hA.bound64 hA.wide hA.weights (E := ∅) (by simp) 0 ds [] [] ∅ ∅
    ⟨s0, s1, 0, [], [], []⟩ s' (hI _ _ d0 d1 (fun h => lt_irrefl B (ky B h).2) (fun h => lt_irrefl B (kx B h).2) bm)
    (fun k => by simp [payloadSum]) (fun k => by simp [payloadSum]) (by simp) (by simp)
    hA.coins1 hA.coins2 hA.shuffle hA.valid0 hA.valid1
    (fun d hd e he => ⟨mx d hd e he, (kx _ (mx d hd e he)).2⟩) (fun d hd e he => ⟨my d hd e he, (ky _ (my d hd e he)).2⟩)
    (by simp only [List.length_nil, Nat.zero_add]; omega) (by simp only [List.length_nil, Nat.zero_add]; omega) hr
  obtain ⟨k1, k2, k3⟩ := k l0 l1 hc
  refine ⟨?_, fun ho => reportsFrom_empty.1 (k2 (reportsFrom_empty.2 ⟨by simp, by simp⟩) ho)⟩
  rw [k1 (by simp; rfl), UInt64.zero_add]
  have hcard : (holdings ∅ (ds.map (·.xs)) ∩ holdings ∅ (ds.map (·.ys))).card ≤ B := by
    have : holdings ∅ (ds.map (·.xs)) ∩ holdings ∅ (ds.map (·.ys)) ⊆ Finset.range B := by
      intro k hk; exact Finset.mem_range.2 (k3 k hk).2
    simpa using Finset.card_le_card this
  have := hA.bound64
  unfold UInt64.ofInt
  rw [UInt64.toNat_ofNat']
  omega

end Upsi.Mock
