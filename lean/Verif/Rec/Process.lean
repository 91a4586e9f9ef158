import Verif.Rec.Model
/-
Model of `ProcessRecordFile` (upsi/util/process_record_file_util.h) with its worker threads, and of the
record-file helpers of upsi/util/proto_util.h.
-/
namespace Upsi.Rec
open Upsi

variable {K I O : Type} [LinearOrder K]

/-- One worker thread: the lambda at process_record_file_util.h:92-102.  `pos` is its loop variable `i`, `stop`
its captured `end`, `acc` its local `processes_chunk`, `failed` the error it returned. -/
structure Worker (O : Type) where
  pos : Nat
  stop : Nat
  acc : List O
  failed : Option String

/-- One iteration of the loop of a worker: process_record_file_util.h:96-100.  The transformer is a
function: it is assumed to be thread-safe and deterministic.  `chunk.at(i)` throws outside the chunk. -/
def Worker.step (f : I → Except String O) (chunk : List I) (w : Worker O) : Worker O :=
  if w.failed.isSome then w
  else if w.pos < w.stop then
    match chunk[w.pos]? with
    | none => { w with failed := some "std::out_of_range" }
    | some x =>
      match f x with
      | .ok y => { w with pos := w.pos + 1, acc := w.acc ++ [y] }
      | .error m => { w with failed := some m }
  else w

/-- The workers started for one chunk: process_record_file_util.h:80-91. -/
def startWorkers (threads numRead : Nat) : List (Worker O) :=
  let perThread := (numRead + threads - 1) / threads
  (List.range threads).map (fun j => ⟨j * perThread, min ((j + 1) * perThread) numRead, [], none⟩)

/-- An arbitrary interleaving: at each point the scheduler picks the worker that runs next. -/
def runPicks (f : I → Except String O) (chunk : List I) : List Nat → List (Worker O) → List (Worker O)
  | [], ws => ws
  | j :: js, ws => runPicks f chunk js (ws.modify j (Worker.step f chunk))

/-- `n` further iterations of one worker. -/
def Worker.run (f : I → Except String O) (chunk : List I) : Nat → Worker O → Worker O
  | 0, w => w
  | n + 1, w => (w.step f chunk).run f chunk n

/-- `future.get()`: process_record_file_util.h:110; waits until the worker has finished. -/
def Worker.get (f : I → Except String O) (chunk : List I) (w : Worker O) : Outcome (List O) :=
  let w' := w.run f chunk (w.stop - w.pos)
  match w'.failed with
  | some m => .err m
  | none => .ok w'.acc

/-- Writing the results of the workers in the order they were started:
process_record_file_util.h:105-114. -/
def gather (f : I → Except String O) (ser : O → Bytes) (key : Bytes → K) (maxBytes : Int) (chunk : List I) :
    List (Worker O) → SW → FS → Outcome Unit × SW × FS
  | [], sw, fs => (.ok (), sw, fs)
  | w :: ws, sw, fs =>
    match w.get f chunk with
    | .ok ys =>
      match SW.writeAll key maxBytes (ys.map ser) sw fs with
      | (.ok _, sw1, fs1) => gather f ser key maxBytes chunk ws sw1 fs1
      | x => x
    | .err m => (.err m, sw, fs)
    | .abort => (.abort, sw, fs)
    | .ub => (.ub, sw, fs)

/-- Reading the next chunk: process_record_file_util.h:72-77. -/
def readChunk : Nat → Bytes → Outcome (List Bytes × Bytes)
  | 0, rest => .ok ([], rest)
  | n + 1, rest =>
    if hasMore rest then do
      let (r, rest') ← readRecord rest
      let (rs, rest'') ← readChunk n rest'
      pure (r :: rs, rest'')
    else .ok ([], rest)

/-- The parameters of a call: `record_transformer`, `ProtoUtils::FromString`, `ProtoUtils::ToString`
(proto_util.h:53-66), the sorting key, the standard library's priority queue, `thread_count`,
`data_chunk_size` (process_record_file_parameters.h:26-34) and the shard size limit (recordio.h:229). -/
structure ProcParams (K I O : Type) where
  transform : I → Except String O
  parse : Bytes → I
  ser : O → Bytes
  key : Bytes → K
  pq : PQ K
  threads : Nat
  chunkSize : Nat
  maxBytes : Int

/-- The main loop: process_record_file_util.h:67-115.  `picks k` is the interleaving of the workers of
the `k`-th chunk.  A division by `thread_count = 0` is undefined; with `data_chunk_size = 0` the loop never
ends, which is also reported as `ub`.  The input file is read through a handle that does not see later
writes: an input file that is one of the shards is outside this model. -/
def processLoop (P : ProcParams K I O) (picks : Nat → List Nat) :
    Nat → Nat → Bytes → SW → FS → Outcome Unit × SW × FS
  | 0, _, _, sw, fs => (.ub, sw, fs)
  | fuel + 1, k, rest, sw, fs =>
    if hasMore rest then
      match readChunk P.chunkSize rest with
      | .ok (raw, rest') =>
        if P.threads = 0 then (.ub, sw, fs)
        else
          let chunk := raw.map P.parse
          let ws := runPicks P.transform chunk (picks k) (startWorkers P.threads chunk.length)
          match gather P.transform P.ser P.key P.maxBytes chunk ws sw fs with
          | (.ok _, sw1, fs1) => processLoop P picks fuel (k + 1) rest' sw1 fs1
          | x => x
      | .err m => (.err m, sw, fs)
      | .abort => (.abort, sw, fs)
      | .ub => (.ub, sw, fs)
    else (.ok (), sw, fs)

/-- `ProcessRecordFile`: process_record_file_util.h:47-126. -/
def processFile (P : ProcParams K I O) (picks : Nat → List Nat) (input output : String) (fs : FS) : Outcome FS := do
  let b ← openRead fs input
  match processLoop P picks (b.length + 1) 0 b (SW.new.setPrefix output) fs with
  | (.ok _, sw, fs1) =>
    match sw.close P.key fs1 with
    | (.ok files, _, fs2) => do
      let fs3 ← merge P.pq P.key files output fs2
      deleteAll files fs3
    | (.err m, _, _) => .err m
    | (.abort, _, _) => .abort
    | (.ub, _, _) => .ub
  | (.err m, _, _) => .err m
  | (.abort, _, _) => .abort
  | (.ub, _, _) => .ub

/-! ### proto_util.h -/

/-- `WriteRecordsToFile`: proto_util.h:103-112. -/
def writeRecordsToFile (ser : O → Bytes) (name : String) (records : List O) (fs : FS) : Outcome FS :=
  if fs.writable name then do
    let b ← encodeAll (records.map ser)
    pure (fs.set name b)
  else .err "Open failed"

/-- `WriteProtoToFile`: proto_util.h:95-101. -/
def writeProtoToFile (ser : O → Bytes) (name : String) (record : O) (fs : FS) : Outcome FS :=
  writeRecordsToFile ser name [record] fs

/-- `ReadProtosFromFile`: proto_util.h:79-94. -/
def readProtosFromFile (parse : Bytes → I) (name : String) (fs : FS) : Outcome (List I) := do
  let b ← openRead fs name
  match readAll b with
  | (rs, .ok _) => pure (rs.map parse)
  | (_, .err m) => .err m
  | (_, .abort) => .abort
  | (_, .ub) => .ub

/-- `ReadProtoFromFile`: proto_util.h:67-77.  Only the first record is read. -/
def readProtoFromFile (parse : Bytes → I) (name : String) (fs : FS) : Outcome I := do
  let b ← openRead fs name
  let (r, _) ← readRecord b
  pure (parse r)

end Upsi.Rec
