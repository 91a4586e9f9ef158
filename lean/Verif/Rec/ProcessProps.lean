import Verif.Rec.Process
import Verif.Rec.ShardProps
/-
Property theorems C38 (parallel record processing) and the record-file helpers (C35).
-/
namespace Upsi.Rec
open Upsi

variable {K I O : Type} [LinearOrder K]

/-! ### specification -/

/-- Apply `f` to the records one after the other; the first failure is the result. -/
def seqMap (f : I → Except String O) : List I → Except String (List O)
  | [] => .ok []
  | x :: xs =>
    match f x with
    | .error m => .error m
    | .ok y =>
      match seqMap f xs with
      | .error m => .error m
      | .ok ys => .ok (y :: ys)

/-! ### workers -/

theorem seqMap_append (f : I → Except String O) (a b : List I) :
    seqMap f (a ++ b) = match seqMap f a with
      | .error m => .error m
      | .ok ys => match seqMap f b with
        | .error m => .error m
        | .ok zs => .ok (ys ++ zs) := by
  induction a with
  | nil => simp only [List.nil_append, seqMap]; cases seqMap f b <;> rfl
  | cons x a ih =>
    simp only [List.cons_append, seqMap, ih]
    cases f x <;> simp only []
    cases seqMap f a <;> simp only []
    cases seqMap f b <;> simp

theorem seqMap_mem (f : I → Except String O) : ∀ (l : List I) (ys : List O), seqMap f l = .ok ys →
    ∀ y ∈ ys, ∃ x ∈ l, f x = .ok y := by
  intro l
  induction l with
  | nil => intro ys h y hy; simp only [seqMap, Except.ok.injEq] at h; subst h; simp at hy
  | cons x l ih =>
    intro ys h y hy
    simp only [seqMap] at h
    cases hx : f x with
    | error m => rw [hx] at h; simp at h
    | ok y0 =>
      rw [hx] at h
      cases hl : seqMap f l with
      | error m => rw [hl] at h; simp at h
      | ok ys0 =>
        rw [hl] at h
        simp only [Except.ok.injEq] at h
        subst h
        rcases List.mem_cons.1 hy with rfl | hy
        · exact ⟨x, by simp, hx⟩
        · obtain ⟨x', h1, h2⟩ := ih ys0 hl y hy
          exact ⟨x', by simp [h1], h2⟩

/-- What the worker will return in the end. -/
def Worker.result (f : I → Except String O) (chunk : List I) (w : Worker O) : Outcome (List O) :=
  match w.failed with
  | some m => .err m
  | none =>
    match seqMap f ((chunk.take w.stop).drop w.pos) with
    | .ok ys => .ok (w.acc ++ ys)
    | .error m => .err m

theorem step_spec (f : I → Except String O) (chunk : List I) (w : Worker O) (h : w.stop ≤ chunk.length) :
    (w.step f chunk).stop = w.stop ∧ (w.step f chunk).result f chunk = w.result f chunk ∧
    ((w.step f chunk).failed.isSome = true ∨ w.stop ≤ w.pos ∧ w.step f chunk = w ∨ (w.step f chunk).pos = w.pos + 1) := by
  unfold Worker.step
  by_cases hf : w.failed.isSome = true
  · rw [if_pos hf]; exact ⟨rfl, rfl, Or.inl hf⟩
  · rw [if_neg hf]
    have hn : w.failed = none := by cases hw : w.failed <;> simp_all
    by_cases hp : w.pos < w.stop
    · rw [if_pos hp]
      have hlt : w.pos < (chunk.take w.stop).length := by rw [List.length_take]; omega
      have hd : (chunk.take w.stop).drop w.pos = chunk[w.pos] :: (chunk.take w.stop).drop (w.pos + 1) := by
        rw [List.drop_eq_getElem_cons hlt]; simp
      rw [List.getElem?_eq_getElem (by omega)]
      simp only []
      cases hx : f chunk[w.pos] with
      | error m => simp [Worker.result, hn, hd, seqMap, hx]
      | ok y =>
        refine ⟨rfl, ?_, Or.inr (Or.inr rfl)⟩
        simp only [Worker.result, hn, hd, seqMap, hx]
        cases seqMap f ((chunk.take w.stop).drop (w.pos + 1)) <;> simp
    · rw [if_neg hp]; exact ⟨rfl, rfl, Or.inr (Or.inl ⟨by omega, rfl⟩)⟩

theorem run_spec (f : I → Except String O) (chunk : List I) : ∀ (n : Nat) (w : Worker O), w.stop ≤ chunk.length →
    (w.run f chunk n).stop = w.stop ∧ (w.run f chunk n).result f chunk = w.result f chunk ∧
    (w.stop ≤ w.pos + n → (w.run f chunk n).failed.isSome = true ∨ w.stop ≤ (w.run f chunk n).pos) := by
  intro n
  induction n with
  | zero => intro w h; exact ⟨rfl, rfl, fun h => Or.inr (by simpa [Worker.run] using h)⟩
  | succ n ih =>
    intro w h
    obtain ⟨a, b, c⟩ := step_spec f chunk w h
    obtain ⟨d, e, g⟩ := ih (w.step f chunk) (by rw [a]; exact h)
    simp only [Worker.run]
    refine ⟨d.trans a, e.trans b, fun hs => ?_⟩
    rw [a] at g
    rcases c with c | ⟨c1, c2⟩ | c
    · have : ∀ (n : Nat) (v : Worker O), v.failed.isSome = true → v.run f chunk n = v := by
        intro n
        induction n with
        | zero => intro v _; rfl
        | succ n ihn => intro v hv; simp only [Worker.run, Worker.step, hv, if_true]; exact ihn v hv
      left; rw [this n _ c]; exact c
    · rw [c2] at g ⊢; exact g (by omega)
    · exact g (by rw [c]; omega)

theorem get_eq (f : I → Except String O) (chunk : List I) (w : Worker O) (h : w.stop ≤ chunk.length) :
    w.get f chunk = w.result f chunk := by
  obtain ⟨a, b, c⟩ := run_spec f chunk (w.stop - w.pos) w h
  rw [← b]
  simp only [Worker.get, Worker.result]
  cases hf : (w.run f chunk (w.stop - w.pos)).failed with
  | some m => rfl
  | none =>
    have := c (by omega)
    rw [hf] at this
    simp only [Option.isSome_none, Bool.false_eq_true, false_or] at this
    have hd : (chunk.take (w.run f chunk (w.stop - w.pos)).stop).drop (w.run f chunk (w.stop - w.pos)).pos = [] := by
      rw [List.drop_eq_nil_iff, List.length_take, a]; omega
    simp [hd, seqMap]

theorem modify_spec (f : I → Except String O) (chunk : List I) : ∀ (ws : List (Worker O)) (j : Nat),
    (∀ w ∈ ws, w.stop ≤ chunk.length) →
    (ws.modify j (Worker.step f chunk)).map (Worker.result f chunk) = ws.map (Worker.result f chunk) ∧
    ∀ w ∈ ws.modify j (Worker.step f chunk), w.stop ≤ chunk.length := by
  intro ws
  induction ws with
  | nil => intro j h; cases j <;> simp
  | cons w ws ih =>
    intro j h
    cases j with
    | zero =>
      obtain ⟨a, b, _⟩ := step_spec f chunk w (h w (by simp))
      simp only [List.modify_zero_cons, List.map_cons, b, true_and]
      intro v hv
      rcases List.mem_cons.1 hv with rfl | hv
      · rw [a]; exact h w (by simp)
      · exact h v (by simp [hv])
    | succ j =>
      obtain ⟨a, b⟩ := ih j (fun v hv => h v (by simp [hv]))
      simp only [List.modify_succ_cons, List.map_cons, a, true_and]
      intro v hv
      rcases List.mem_cons.1 hv with rfl | hv
      · exact h v (by simp)
      · exact b v hv

theorem runPicks_spec (f : I → Except String O) (chunk : List I) : ∀ (picks : List Nat) (ws : List (Worker O)),
    (∀ w ∈ ws, w.stop ≤ chunk.length) →
    (runPicks f chunk picks ws).map (Worker.get f chunk) = ws.map (Worker.result f chunk) := by
  intro picks
  induction picks with
  | nil => intro ws h; exact List.map_congr_left (fun w hw => get_eq f chunk w (h w hw))
  | cons j picks ih =>
    intro ws h
    obtain ⟨a, b⟩ := modify_spec f chunk ws j h
    rw [runPicks, ih _ b, a]

/-- The part of the chunk given to worker `j`. -/
def part (chunk : List I) (p j : Nat) : List I := (chunk.take (min ((j + 1) * p) chunk.length)).drop (j * p)

theorem parts_flatten (chunk : List I) (p : Nat) : ∀ t : Nat,
    ((List.range t).map (part chunk p)).flatten = chunk.take (t * p) := by
  intro t
  induction t with
  | zero => simp
  | succ t ih =>
    rw [List.range_succ, List.map_append, List.flatten_append, ih]
    simp only [List.map_cons, List.map_nil, List.flatten_cons, List.flatten_nil, List.append_nil, part]
    have h1 : chunk.take (min ((t + 1) * p) chunk.length) = chunk.take ((t + 1) * p) := by
      rw [Nat.min_def]; split
      · rfl
      · rw [List.take_length, List.take_of_length_le (by omega)]
    rw [h1]
    have h2 : chunk.take (t * p) = (chunk.take ((t + 1) * p)).take (t * p) := by
      rw [List.take_take, Nat.min_eq_left (Nat.mul_le_mul_right _ (by omega))]
    rw [h2, List.take_append_drop]

theorem parts_all (chunk : List I) (t : Nat) (ht : 0 < t) :
    ((List.range t).map (part chunk ((chunk.length + t - 1) / t))).flatten = chunk := by
  rw [parts_flatten, List.take_of_length_le]
  have h1 := Nat.div_add_mod (chunk.length + t - 1) t
  have h2 := Nat.mod_lt (chunk.length + t - 1) ht
  omega

/-- Collecting given results. -/
def gatherR (ser : O → Bytes) (key : Bytes → K) (maxBytes : Int) :
    List (Outcome (List O)) → SW → FS → Outcome Unit × SW × FS
  | [], sw, fs => (.ok (), sw, fs)
  | w :: ws, sw, fs =>
    match w with
    | .ok ys =>
      match SW.writeAll key maxBytes (ys.map ser) sw fs with
      | (.ok _, sw1, fs1) => gatherR ser key maxBytes ws sw1 fs1
      | x => x
    | .err m => (.err m, sw, fs)
    | .abort => (.abort, sw, fs)
    | .ub => (.ub, sw, fs)

theorem gather_eq (f : I → Except String O) (ser : O → Bytes) (key : Bytes → K) (maxBytes : Int) (chunk : List I) :
    ∀ (ws : List (Worker O)) (sw : SW) (fs : FS),
    gather f ser key maxBytes chunk ws sw fs = gatherR ser key maxBytes (ws.map (Worker.get f chunk)) sw fs := by
  intro ws
  induction ws with
  | nil => intro sw fs; rfl
  | cons w ws ih =>
    intro sw fs
    simp only [gather, List.map_cons, gatherR]
    cases w.get f chunk with
    | ok ys =>
      simp only []
      rcases hw : SW.writeAll key maxBytes (ys.map ser) sw fs with ⟨_ | _ | _ | _, sw1, fs1⟩ <;> simp only [ih]
    | _ => rfl

theorem startWorkers_results (f : I → Except String O) (t : Nat) (chunk : List I) :
    (∀ w ∈ (startWorkers t chunk.length : List (Worker O)), w.stop ≤ chunk.length) ∧
    (startWorkers t chunk.length : List (Worker O)).map (Worker.result f chunk) =
      ((List.range t).map (part chunk ((chunk.length + t - 1) / t))).map
        (fun s => match seqMap f s with | .ok ys => .ok ys | .error m => .err m) := by
  constructor
  · intro w hw
    simp only [startWorkers, List.mem_map] at hw
    obtain ⟨j, _, rfl⟩ := hw
    exact Nat.min_le_right _ _
  · simp only [startWorkers, List.map_map]
    apply List.map_congr_left
    intro j _
    simp only [Function.comp, Worker.result, part, List.nil_append]

/-- One chunk, independently of the interleaving. -/
theorem chunk_eq (f : I → Except String O) (ser : O → Bytes) (key : Bytes → K) (maxBytes : Int) (chunk : List I)
    (t : Nat) (picks : List Nat) (sw : SW) (fs : FS) :
    gather f ser key maxBytes chunk (runPicks f chunk picks (startWorkers t chunk.length)) sw fs =
    gatherR ser key maxBytes (((List.range t).map (part chunk ((chunk.length + t - 1) / t))).map
        (fun s => match seqMap f s with | .ok ys => .ok ys | .error m => .err m)) sw fs := by
  obtain ⟨a, b⟩ := startWorkers_results f t chunk
  rw [gather_eq, runPicks_spec f chunk picks _ a, b]

theorem gatherR_spec {f : I → Except String O} {ser : O → Bytes} {key : Bytes → K} {maxBytes : Int} {p : String}
    {fs0 : FS} (hw : ∀ i, fs0.writable (shardName p i) = true) : ∀ (parts : List (List I)) (R : List Bytes) (w : SW)
    (fs : FS) (shards : List (List Bytes)), SWInv key p R fs0 w fs shards → (∀ r ∈ R, r.length < 2 ^ 31) →
    (∀ x ∈ parts.flatten, ∀ y, f x = .ok y → (ser y).length < 2 ^ 31) →
    match seqMap f parts.flatten with
    | .ok ys => ∃ w' fs' shards', gatherR ser key maxBytes (parts.map
        (fun s => match seqMap f s with | .ok ys => .ok ys | .error m => .err m)) w fs = (.ok (), w', fs') ∧
        SWInv key p (R ++ ys.map ser) fs0 w' fs' shards'
    | .error m => ∃ w' fs', gatherR ser key maxBytes (parts.map
        (fun s => match seqMap f s with | .ok ys => .ok ys | .error m => .err m)) w fs = (.err m, w', fs') := by
  intro parts
  induction parts with
  | nil => intro R w fs shards h _ _; exact ⟨w, fs, shards, rfl, by simpa using h⟩
  | cons s parts ih =>
    intro R w fs shards h hl hs
    rw [List.flatten_cons, seqMap_append, List.map_cons]
    cases hx : seqMap f s with
    | error m => exact ⟨w, fs, by simp [gatherR, hx]⟩
    | ok ys =>
      simp only [gatherR, hx]
      have hys : ∀ r ∈ R ++ ys.map ser, r.length < 2 ^ 31 := by
        intro r hr
        rcases List.mem_append.1 hr with hr | hr
        · exact hl r hr
        · obtain ⟨y, hy, rfl⟩ := List.mem_map.1 hr
          obtain ⟨x, hx1, hx2⟩ := seqMap_mem f s ys hx y hy
          exact hs x (by simp [hx1]) y hx2
      obtain ⟨w1, fs1, s1, e1, e2⟩ := writeAll_spec hw maxBytes (ys.map ser) R w fs shards h hys
      have := ih (R ++ ys.map ser) w1 fs1 s1 e2 hys (fun x hx => hs x (by simp at hx ⊢; exact Or.inr hx))
      simp only [e1]
      cases hr : seqMap f parts.flatten with
      | error m => rw [hr] at this; simpa using this
      | ok zs => rw [hr] at this; simpa using this

/-! ### reading -/

theorem readChunk_spec : ∀ (n : Nat) (rest : Bytes),
    ((readAll rest).2 = .ok () ∨ n ≤ (readAll rest).1.length → ∃ rest', readChunk n rest = .ok ((readAll rest).1.take n, rest') ∧
      readAll rest' = ((readAll rest).1.drop n, (readAll rest).2) ∧ rest'.length ≤ rest.length ∧
      (0 < n → rest ≠ [] → rest'.length < rest.length)) ∧
    (∀ m, (readAll rest).2 = .err m → (readAll rest).1.length < n → readChunk n rest = .err m) := by
  intro n
  induction n with
  | zero => intro rest; exact ⟨fun _ => ⟨rest, by simp [readChunk]⟩, by simp⟩
  | succ n ih =>
    intro rest
    by_cases hr : rest = []
    · subst hr
      rw [readAll_nil]
      exact ⟨fun _ => ⟨[], by simp [readChunk, hasMore, readAll_nil]⟩, by simp⟩
    · have hm : hasMore rest = true := by cases rest <;> simp_all [hasMore]
      rcases readRecord_total rest with ⟨⟨r, t⟩, h⟩ | ⟨m, h⟩
      · have hs := readRecord_shorter h hr
        rw [readAll_ok hr h]
        obtain ⟨a, b⟩ := ih t
        constructor
        · intro hc
          obtain ⟨rest', h1, h2, h3, h4⟩ := a (by simpa using hc)
          refine ⟨rest', ?_, by simpa using h2, by omega, fun _ _ => by omega⟩
          simp [readChunk, hm, h, h1]
        · intro m' h1 h2
          have := b m' h1 (by simpa using h2)
          simp [readChunk, hm, h, this]
      · rw [readAll_err hr h]
        constructor
        · intro hc; simp at hc
        · intro m' h1 _
          simp only [Outcome.err.injEq] at h1
          subst h1
          simp [readChunk, hm, h]

/-- What the whole loop does: the specification of the result given the records in the input. -/
theorem processLoop_spec {P : ProcParams K I O} {picks : Nat → List Nat} {p : String} {fs0 : FS}
    (ht : 0 < P.threads) (hc : 0 < P.chunkSize) (hw : ∀ i, fs0.writable (shardName p i) = true) :
    ∀ (fuel k : Nat) (rest : Bytes) (R : List Bytes) (w : SW) (fs : FS) (shards : List (List Bytes)),
    rest.length < fuel → SWInv P.key p R fs0 w fs shards → (∀ r ∈ R, r.length < 2 ^ 31) →
    (∀ r ∈ (readAll rest).1, ∀ y, P.transform (P.parse r) = .ok y → (P.ser y).length < 2 ^ 31) →
    match seqMap P.transform ((readAll rest).1.map P.parse), (readAll rest).2 with
    | .ok ys, .ok _ => ∃ w' fs' shards', processLoop P picks fuel k rest w fs = (.ok (), w', fs') ∧
        SWInv P.key p (R ++ ys.map P.ser) fs0 w' fs' shards'
    | .error m, .ok _ => ∃ w' fs', processLoop P picks fuel k rest w fs = (.err m, w', fs')
    | _, _ => ∃ w' fs' m, processLoop P picks fuel k rest w fs = (.err m, w', fs') := by
  intro fuel
  induction fuel with
  | zero => intro k rest R w fs shards hf; omega
  | succ fuel ih =>
    intro k rest R w fs shards hf h hl hs
    by_cases hr : rest = []
    · subst hr
      simp only [readAll_nil, List.map_nil, seqMap, List.append_nil]
      exact ⟨w, fs, shards, by simp [processLoop, hasMore], h⟩
    · have hm : hasMore rest = true := by cases rest <;> simp_all [hasMore]
      obtain ⟨c1, c2⟩ := readChunk_spec P.chunkSize rest
      by_cases hq : (readAll rest).2 = .ok () ∨ P.chunkSize ≤ (readAll rest).1.length
      · obtain ⟨rest', d1, d2, d3, d4⟩ := c1 hq
        have d5 := d4 hc hr
        set raw := (readAll rest).1.take P.chunkSize with hraw
        have hsplit : (readAll rest).1 = raw ++ (readAll rest).1.drop P.chunkSize := (List.take_append_drop _ _).symm
        have hstep : processLoop P picks (fuel + 1) k rest w fs =
            match gatherR P.ser P.key P.maxBytes (((List.range P.threads).map (part (raw.map P.parse)
              (((raw.map P.parse).length + P.threads - 1) / P.threads))).map
              (fun s => match seqMap P.transform s with | .ok ys => .ok ys | .error m => .err m)) w fs with
            | (.ok _, sw1, fs1) => processLoop P picks fuel (k + 1) rest' sw1 fs1
            | x => x := by
          rw [processLoop, if_pos hm, d1]
          simp only [if_neg (Nat.pos_iff_ne_zero.1 ht), chunk_eq]
          rfl
        have hg := gatherR_spec (f := P.transform) (ser := P.ser) (maxBytes := P.maxBytes) hw
          ((List.range P.threads).map (part (raw.map P.parse) (((raw.map P.parse).length + P.threads - 1) / P.threads)))
          R w fs shards h hl (by
            intro x hx y hy
            rw [parts_all _ _ ht] at hx
            obtain ⟨r, hr1, rfl⟩ := List.mem_map.1 hx
            exact hs r (List.mem_of_mem_take hr1) y hy)
        rw [parts_all _ _ ht] at hg
        rw [hstep, hsplit, List.map_append, seqMap_append]
        cases hx : seqMap P.transform (raw.map P.parse) with
        | error m =>
          rw [hx] at hg
          obtain ⟨w', fs', e⟩ := hg
          simp only [e]
          cases (readAll rest).2 <;> exact ⟨w', fs', by simp⟩
        | ok ys =>
          rw [hx] at hg
          obtain ⟨w1, fs1, s1, e1, e2⟩ := hg
          simp only [e1]
          have hys : ∀ r ∈ R ++ ys.map P.ser, r.length < 2 ^ 31 := by
            intro r hr
            rcases List.mem_append.1 hr with hr | hr
            · exact hl r hr
            · obtain ⟨y, hy, rfl⟩ := List.mem_map.1 hr
              obtain ⟨x, hx1, hx2⟩ := seqMap_mem _ _ ys hx y hy
              obtain ⟨r, hr1, rfl⟩ := List.mem_map.1 hx1
              exact hs r (List.mem_of_mem_take hr1) y hx2
          have := ih (k + 1) rest' (R ++ ys.map P.ser) w1 fs1 s1 (by omega) e2 hys (by
            rw [d2]
            intro r hr y hy
            exact hs r (List.mem_of_mem_drop hr) y hy)
          rw [d2] at this
          simp only at this
          cases hz : seqMap P.transform (((readAll rest).1.drop P.chunkSize).map P.parse) with
          | error m =>
            rw [hz] at this
            cases ho : (readAll rest).2 <;> rw [ho] at this <;> simpa using this
          | ok zs =>
            rw [hz] at this
            cases ho : (readAll rest).2 <;> rw [ho] at this <;> simpa using this
      · rw [not_or, Nat.not_le] at hq
        rcases C35_any_bytes rest with ho | ⟨m, ho⟩
        · exact absurd ho hq.1
        · rw [ho]
          have : ∃ w' fs' m, processLoop P picks (fuel + 1) k rest w fs = (.err m, w', fs') :=
            ⟨w, fs, m, by simp [processLoop, hm, c2 m ho hq.2]⟩
          cases seqMap P.transform ((readAll rest).1.map P.parse) <;> exact this

/-! ### C38 -/

theorem processLoop_sched (P : ProcParams K I O) (s1 s2 : Nat → List Nat) : ∀ (fuel k : Nat) (rest : Bytes) (sw : SW) (fs : FS),
    processLoop P s1 fuel k rest sw fs = processLoop P s2 fuel k rest sw fs := by
  intro fuel
  induction fuel with
  | zero => intros; rfl
  | succ fuel ih =>
    intro k rest sw fs
    simp only [processLoop, chunk_eq, ih]

/-- **C38** (schedule independence) The interleaving of the worker threads has no influence on anything: not
on success, not on the error, not on any file. -/
theorem C38_schedule (P : ProcParams K I O) (s1 s2 : Nat → List Nat) (input output : String) (fs : FS) :
    processFile P s1 input output fs = processFile P s2 input output fs := by
  simp only [processFile, processLoop_sched P s1 s2]

/-- **C38** For every positive thread count, positive chunk size, transformer, key, shard size limit and
interleaving: if every record of the input file is transformed successfully, processing succeeds and the
output file consists of exactly the per-record results, in ascending order of the key; intermediate files
are gone and no other file is touched.  If some record cannot be transformed, processing fails with the
error of the first such record in the input. -/
theorem C38_parallel (P : ProcParams K I O) (hpq : HeapSpec P.pq) (ht : 0 < P.threads) (hc : 0 < P.chunkSize)
    (picks : Nat → List Nat) (input output : String) (fs : FS) (b : Bytes) (records : List Bytes)
    (hin : fs.data input = some b) (hrec : readAll b = (records, .ok ()))
    (hw : ∀ i, fs.writable (shardName output i) = true) (ho : fs.writable output = true)
    (hs : ∀ r ∈ records, ∀ y, P.transform (P.parse r) = .ok y → (P.ser y).length < 2 ^ 31) :
    (∀ results, seqMap P.transform (records.map P.parse) = .ok results →
      ∃ fs' sorted c n, processFile P picks input output fs = .ok fs' ∧
        sorted.Perm (results.map P.ser) ∧ SortedBy P.key sorted ∧
        fs'.data output = some c ∧ readAll c = (sorted, .ok ()) ∧
        (∀ i < n, fs'.data (shardName output i) = none) ∧
        (∀ name, name ≠ output → (∀ i < n, name ≠ shardName output i) → fs'.data name = fs.data name)) ∧
    (∀ m, seqMap P.transform (records.map P.parse) = .error m →
      processFile P picks input output fs = .err m) := by
  have h0 : SWInv P.key output [] fs (SW.new.setPrefix output) fs [] :=
    ⟨rfl, rfl, rfl, rfl, rfl, .nil, by simp, List.Perm.refl _, fun _ _ => rfl, rfl⟩
  have hspec := processLoop_spec (P := P) (picks := picks) ht hc hw (b.length + 1) 0 b [] _ fs [] (by omega) h0 (by simp)
    (by rw [hrec]; exact hs)
  rw [hrec] at hspec
  simp only at hspec
  constructor
  · intro ys hy
    rw [hy] at hspec
    obtain ⟨w1, fs1, s1, e1, e2⟩ := hspec
    rw [List.nil_append] at e2
    have hl : ∀ r ∈ ys.map P.ser, r.length < 2 ^ 31 := by
      intro r hr
      obtain ⟨y, hy1, rfl⟩ := List.mem_map.1 hr
      obtain ⟨x, hx1, hx2⟩ := seqMap_mem _ _ ys hy y hy1
      obtain ⟨r, hr1, rfl⟩ := List.mem_map.1 hx1
      exact hs r hr1 y hx2
    obtain ⟨files, fs2, fs3, fs4, sorted, c, k1, k2, k3, k4, k5, k6, k7, k8, k9, k10⟩ :=
      finish_spec hpq e2 hw ho (out_ne_shard output) hl
    refine ⟨fs4, sorted, c, files.length, ?_, k4, k5, k8, k7, k9, k10⟩
    simp only [processFile, openRead, hin, Outcome.bind_ok, e1, k1, k2, k3]
  · intro m hm
    rw [hm] at hspec
    obtain ⟨w1, fs1, e1⟩ := hspec
    simp only [processFile, openRead, hin, Outcome.bind_ok, e1]

/-- **C38** A damaged input file makes processing fail with an error, whatever the parameters. -/
theorem C38_damaged_input (P : ProcParams K I O) (ht : 0 < P.threads) (hc : 0 < P.chunkSize)
    (picks : Nat → List Nat) (input output : String) (fs : FS) (b : Bytes) (records : List Bytes) (e : String)
    (hin : fs.data input = some b) (hrec : readAll b = (records, .err e))
    (hw : ∀ i, fs.writable (shardName output i) = true)
    (hs : ∀ r ∈ records, ∀ y, P.transform (P.parse r) = .ok y → (P.ser y).length < 2 ^ 31) :
    ∃ m, processFile P picks input output fs = .err m := by
  have h0 : SWInv P.key output [] fs (SW.new.setPrefix output) fs [] :=
    ⟨rfl, rfl, rfl, rfl, rfl, .nil, by simp, List.Perm.refl _, fun _ _ => rfl, rfl⟩
  have hspec := processLoop_spec (P := P) (picks := picks) ht hc hw (b.length + 1) 0 b [] _ fs [] (by omega) h0 (by simp)
    (by rw [hrec]; exact hs)
  rw [hrec] at hspec
  simp only at hspec
  have : ∃ w' fs' m, processLoop P picks (b.length + 1) 0 b (SW.new.setPrefix output) fs = (.err m, w', fs') := by
    cases hx : seqMap P.transform (records.map P.parse) <;> rw [hx] at hspec <;> exact hspec
  obtain ⟨w', fs', m, e1⟩ := this
  exact ⟨m, by simp only [processFile, openRead, hin, Outcome.bind_ok, e1]⟩

/-- The hypotheses of C38 are met by a concrete run with three records, two
threads, chunks of two records, and an interleaving in which the second thread runs first. -/
def toyProc : ProcParams Nat Nat Nat :=
  ⟨fun x => if x = 7 then .error "bad" else .ok (x + 1), List.length, fun n => List.replicate n 1, List.length, simplePQ, 2, 2, 1⟩

example : (processFile toyProc (fun _ => [1, 0, 1, 5]) "in" "out" ⟨fun n => if n = "in" then some [3, 0, 0, 0, 0, 1, 9] else none, fun _ => true⟩).isOk
    = true := by decide +kernel

example : readAll [3, 0, 0, 0, 0, 1, 9] = ([[0, 0, 0], [], [9]], .ok ()) := C35_roundtrip _ _ (by decide +kernel)

example : seqMap toyProc.transform ([[0, 0, 0], [], [9]].map toyProc.parse) = .ok [4, 1, 2] := by decide +kernel

example : HeapSpec toyProc.pq := simplePQ_spec

/-- **C38** (why the parameters must be positive) With no threads the chunk size computation divides by
zero. -/
theorem C38_zero_threads : processFile { toyProc with threads := 0 } (fun _ => []) "in" "out"
    ⟨fun n => if n = "in" then some [0] else none, fun _ => true⟩ = .ub := by
  have : readChunk 2 [0] = .ok ([[]], []) := by decide +kernel
  simp [processFile, openRead, processLoop, hasMore, toyProc, this]

/-! ### proto_util.h -/

/-- **C35** What `WriteRecordsToFile` wrote, `ReadProtosFromFile` returns, whenever the message type's own
parser inverts its serializer; no other file changes. -/
theorem C35_protos_roundtrip (ser : O → Bytes) (parse : Bytes → O) (hps : ∀ o, parse (ser o) = o) (name : String)
    (records : List O) (fs fs' : FS) (h : writeRecordsToFile ser name records fs = .ok fs') :
    readProtosFromFile parse name fs' = .ok records ∧ ∀ n, n ≠ name → fs'.data n = fs.data n := by
  unfold writeRecordsToFile at h
  split at h
  · simp only [Outcome.bind_eq_ok, Outcome.pure_eq, Outcome.ok.injEq] at h
    obtain ⟨b, hb, rfl⟩ := h
    refine ⟨?_, fun n hn => by simp [FS.set, hn]⟩
    have hcomp : parse ∘ ser = id := funext hps
    simp [readProtosFromFile, openRead, FS.set, C35_roundtrip _ _ hb, hcomp]
  · simp at h

/-- **C35** The same for a single message. -/
theorem C35_proto_roundtrip (ser : O → Bytes) (parse : Bytes → O) (hps : ∀ o, parse (ser o) = o) (name : String)
    (record : O) (fs fs' : FS) (h : writeProtoToFile ser name record fs = .ok fs') :
    readProtoFromFile parse name fs' = .ok record ∧ ∀ n, n ≠ name → fs'.data n = fs.data n := by
  refine ⟨?_, (C35_protos_roundtrip ser parse hps name [record] fs fs' h).2⟩
  unfold writeProtoToFile writeRecordsToFile at h
  split at h
  · simp only [Outcome.bind_eq_ok, Outcome.pure_eq, Outcome.ok.injEq] at h
    obtain ⟨b, hb, rfl⟩ := h
    obtain ⟨b', _, h2, _⟩ := encodeAll_cons hb
    simp [readProtoFromFile, openRead, FS.set, h2, hps]
  · simp at h

example : ∃ fs', writeRecordsToFile (fun n => List.replicate n 1) "f" [2, 0, 5] toyFS = .ok fs' :=
  ⟨_, rfl⟩

end Upsi.Rec
