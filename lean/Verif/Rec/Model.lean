import Verif.Base
import Mathlib.Order.Defs.LinearOrder
import Mathlib.Data.List.Sort
/-
Model of record files, line files, the sharding writer, the multi-file sorted reader and the shard
merger: upsi/util/recordio.cc, upsi/util/file_posix.cc.

Operating-system errors other than a missing file on opening for reading and an unwritable name on
opening for writing (disk full, I/O error, allocation failure) are not modelled.
-/
namespace Upsi.Rec
open Upsi

abbrev Bytes := List UInt8

/-! ### files -/

/-- The files that exist, by name, and which names can be created. -/
structure FS where
  data : String → Option Bytes
  writable : String → Bool

/-- The file system after `name` was given the content `b`. -/
def FS.set (fs : FS) (name : String) (b : Bytes) : FS :=
  { fs with data := fun n => if n = name then some b else fs.data n }

/-- The file system after `name` was removed. -/
def FS.remove (fs : FS) (name : String) : FS :=
  { fs with data := fun n => if n = name then none else fs.data n }

/-- `PosixFile::Open(name, "r")` on a closed handle: file_posix.cc:35-50.  The handle is the list of
bytes not yet read. -/
def openRead (fs : FS) (name : String) : Outcome Bytes :=
  match fs.data name with
  | none => .err "Open failed"
  | some b => .ok b

/-- `PosixFile::HasMore` on an open handle: file_posix.cc:64-87 (peek one character). -/
def hasMore (rest : Bytes) : Bool := !rest.isEmpty

/-- `PosixFile::Read(length)`: file_posix.cc:89-100. -/
def fileRead (length : Nat) (rest : Bytes) : Outcome (Bytes × Bytes) :=
  if rest.length < length then .err "Error reading the file" else .ok (rest.take length, rest.drop length)

/-- `LINE_MAX` of `<limits.h>` (`_POSIX2_LINE_MAX`): file_posix.cc:107, 146. -/
def lineMax : Nat := 2048

/-- The bytes `fgets` stores: up to and including the first newline, at most `room` of them. -/
def fgets : Nat → Bytes → Bytes × Bytes
  | 0, rest => ([], rest)
  | _ + 1, [] => ([], [])
  | room + 1, c :: rest =>
    if c = 10 then ([c], rest)
    else ((c :: (fgets room rest).1), (fgets room rest).2)

/-- `PosixFile::ReadLine`: file_posix.cc:102-127.  `strlen` stops at the first NUL byte. -/
def readLine (rest : Bytes) : Outcome (Bytes × Bytes) :=
  if rest = [] then .err "Error reading line"
  else
    let (raw, rest') := fgets (lineMax - 1) rest
    let buf := raw.takeWhile (fun c => c ≠ 0)
    let content :=
      if buf.getLast? = some 10 then
        if buf.dropLast.getLast? = some 13 then buf.dropLast.dropLast else buf.dropLast
      else buf
    .ok (content, rest')

/-! ### record files -/

/-- `CodedOutputStream::WriteVarint32`: base-128, least significant group first, continuation bit set on
all but the last byte (called at recordio.cc:311). -/
def writeVarint (n : Nat) : Bytes :=
  if n < 128 then [UInt8.ofNat n] else UInt8.ofNat (n % 128 + 128) :: writeVarint (n / 128)
decreasing_by omega

/-- `RecordWriterImpl::Write`: recordio.cc:307-325.  The size is converted to `uint32_t` and
`WriteString` to `int`: records of `2^31` bytes or more are outside its contract. -/
def encodeRecord (r : Bytes) : Outcome Bytes :=
  if r.length < 2 ^ 31 then .ok (writeVarint r.length ++ r) else .ub

/-- All records, one after the other, as written between `Open` and `Close`. -/
def encodeAll : List Bytes → Outcome Bytes
  | [] => .ok []
  | r :: rs => do
    let a ← encodeRecord r
    let b ← encodeAll rs
    pure (a ++ b)

/-- The reading loop of `ExtractVarint32`: recordio.cc:50-74.  `k` bytes may still be read; the result is
the bytes read and the rest of the file.  Reading stops at a byte without continuation bit or at the
end of the file. -/
def varintBytes : Nat → Bytes → Outcome (Bytes × Bytes)
  | 0, _ => .err "Failed to extract a Varint"
  | _ + 1, [] => .ok ([], [])
  | k + 1, c :: rest =>
    if c.toNat < 128 then .ok ([c], rest)
    else do
      let (bs, rest') ← varintBytes k rest
      pure (c :: bs, rest')

/-- The little-endian base-128 value of the low seven bits of each byte. -/
def varintValue : Bytes → Nat
  | [] => 0
  | c :: cs => c.toNat % 128 + 128 * varintValue cs

/-- `CodedInputStream::ReadVarint32` on a buffer that ends at the first byte without continuation bit, if
there is one: recordio.cc:76-81.  The returned flag is ignored by the caller; when the buffer ends inside
the varint, protobuf stores `static_cast<uint32_t>(-1)`. -/
def readVarint32 (bs : Bytes) : Nat :=
  match bs.getLast? with
  | some c => if c.toNat < 128 then varintValue bs % 2 ^ 32 else 2 ^ 32 - 1
  | none => 2 ^ 32 - 1

/-- `kMaxVarint32Size`: recordio.cc:42. -/
def maxVarint32Size : Nat := 5

/-- `RecordReaderImpl::Read`: recordio.cc:103-121 with `ExtractVarint32` 46-82. -/
def readRecord (rest : Bytes) : Outcome (Bytes × Bytes) := do
  let (bs, rest') ← varintBytes maxVarint32Size rest
  fileRead (readVarint32 bs) rest'

/-- Reading a whole file with `while (HasMore) Read` (proto_util.h:79-94): the records obtained and how the
loop ended. -/
def readAll (rest : Bytes) : List Bytes × Outcome Unit :=
  if h : rest = [] then ([], .ok ())
  else
    match hr : readRecord rest with
    | .ok (r, rest') =>
      if hl : rest'.length < rest.length then
        let (rs, o) := readAll rest'
        (r :: rs, o)
      else ([r], .ub) -- impossible: at least one byte is consumed
    | .err m => ([], .err m)
    | .abort => ([], .abort)
    | .ub => ([], .ub)
termination_by rest.length

/-- `LineWriterImpl::Write` for all lines: recordio.cc:338-342. -/
def encodeLines (ls : List Bytes) : Bytes := ls.flatMap (fun l => l ++ [10])

/-- Reading a whole file with `while (HasMore) ReadLine` (`LineReader`, recordio.cc:128-153). -/
def readLines : Nat → Bytes → List Bytes × Outcome Unit
  | 0, _ => ([], .ub)
  | fuel + 1, rest =>
    if rest = [] then ([], .ok ())
    else
      match readLine rest with
      | .ok (l, rest') =>
        let (ls, o) := readLines fuel rest'
        (l :: ls, o)
      | .err m => ([], .err m)
      | .abort => ([], .abort)
      | .ub => ([], .ub)

/-! ### sorted shards -/

variable {K : Type} [LinearOrder K]

/-- `GetFilename`: recordio.cc:405-407. -/
def shardName (pre : String) (idx : Nat) : String := pre ++ toString idx

/-- `ShardingWriterImpl`: recordio.cc:412-538.  `bytes` is the 32-bit counter. -/
structure SW where
  pre : String
  idx : Nat
  cache : List Bytes
  bytes : Int
  files : List String
  healthy : Bool
  isOpen : Bool

/-- A new writer: recordio.cc:419-434. -/
def SW.new : SW := ⟨"", 0, [], 0, [], true, false⟩

/-- `SetShardPrefix`: recordio.cc:436-441. -/
def SW.setPrefix (w : SW) (p : String) : SW := { w with isOpen := true, pre := p }

/-- `int32_t` conversion. -/
def int32 (z : Int) : Int := (z + 2 ^ 31) % 2 ^ 32 - 2 ^ 31

/-- `list::sort` with the key comparison: recordio.cc:483-485.  `list::sort` is stable, and there is only one
stable sort; insertion sort is the simplest. -/
def sortCache (key : Bytes → K) (c : List Bytes) : List Bytes :=
  c.insertionSort (fun a b => key a ≤ key b)

/-- Writing the cache to the open file, stopping at the first failing write: recordio.cc:492-500.  Only
records outside the writer's contract fail. -/
def flushRecords (cs : List Bytes) : Outcome Bytes := encodeAll cs

/-- `WriteCacheToFile`: recordio.cc:480-515. -/
def SW.flush (key : Bytes → K) (w : SW) (fs : FS) : Outcome Unit × SW × FS :=
  if !w.healthy then (.err "ShardingWriter: Already unhealthy.", w, fs)
  else if w.cache.isEmpty then (.ok (), w, fs)
  else
    let sorted := sortCache key w.cache
    let name := shardName w.pre w.idx
    if !fs.writable name then
      (.err "Cannot open", { w with healthy := false, cache := sorted }, fs)
    else
      match flushRecords sorted with
      | .ok b =>
        (.ok (), { w with cache := [], bytes := 0, files := w.files ++ [name], idx := w.idx + 1 }, fs.set name b)
      | .err m => (.err m, w, fs)
      | .abort => (.abort, w, fs)
      | .ub => (.ub, w, fs)

/-- `ShardingWriterImpl::Write`: recordio.cc:463-477. -/
def SW.write (key : Bytes → K) (maxBytes : Int) (r : Bytes) (w : SW) (fs : FS) : Outcome Unit × SW × FS :=
  if !w.isOpen then (.err "Must call SetShardPrefix before calling Write.", w, fs)
  else if !w.healthy then (.err "ShardingWriter: Already unhealthy.", w, fs)
  else
    let (o, w1, fs1) := if w.bytes > maxBytes then w.flush key fs else (.ok (), w, fs)
    match o with
    | .ok _ => (.ok (), { w1 with bytes := int32 (w1.bytes + r.length), cache := w1.cache ++ [r] }, fs1)
    | .err m => (.err m, w1, fs1)
    | .abort => (.abort, w1, fs1)
    | .ub => (.ub, w1, fs1)

/-- `ShardingWriterImpl::Close`: recordio.cc:443-459, 517-525.  The state is reset even on failure. -/
def SW.close (key : Bytes → K) (w : SW) (fs : FS) : Outcome (List String) × SW × FS :=
  if !w.isOpen then (.err "Must call SetShardPrefix before calling Close.", SW.new, fs)
  else
    let (o, w1, fs1) := w.flush key fs
    match o with
    | .ok _ => (.ok w1.files, SW.new, fs1)
    | .err m => (.err m, SW.new, fs1)
    | .abort => (.abort, SW.new, fs1)
    | .ub => (.ub, SW.new, fs1)

/-- A sequence of `Write` calls, stopping at the first that fails. -/
def SW.writeAll (key : Bytes → K) (maxBytes : Int) : List Bytes → SW → FS → Outcome Unit × SW × FS
  | [], w, fs => (.ok (), w, fs)
  | r :: rs, w, fs =>
    match w.write key maxBytes r fs with
    | (.ok _, w1, fs1) => SW.writeAll key maxBytes rs w1 fs1
    | x => x

/-! ### merging -/

/-- `HeapData`: recordio.cc:275-279. -/
structure HeapData (K : Type) where
  key : K
  data : Bytes
  index : Nat

/-- `std::priority_queue::top` and `pop` with `HeapDataGreater`: which of several entries with the same
least key is returned depends on the standard library, so the queue is a parameter. -/
abbrev PQ (K : Type) := List (HeapData K) → Option (HeapData K × List (HeapData K))

/-- State of `MultiSortedReaderImpl` between calls: one handle per file, and the heap. -/
structure MR (K : Type) where
  readers : List Bytes
  heap : List (HeapData K)

/-- `ReadHeapDataFromReader`: recordio.cc:257-273. -/
def MR.refill (key : Bytes → K) (m : MR K) (i : Nat) : Outcome (MR K) :=
  match m.readers[i]? with
  | none => .ub
  | some rest =>
    if hasMore rest then do
      let (r, rest') ← readRecord rest
      pure ⟨m.readers.set i rest', ⟨key r, r, i⟩ :: m.heap⟩
    else .ok m

/-- Refill from the readers `i, i+1, ..., i+n-1`: recordio.cc:246-249. -/
def MR.refillAll (key : Bytes → K) : Nat → Nat → MR K → Outcome (MR K)
  | _, 0, m => .ok m
  | i, n + 1, m => do
    let m' ← m.refill key i
    MR.refillAll key (i + 1) n m'

/-- `HasMore`: recordio.cc:220-240. -/
def MR.hasMore (m : MR K) : Bool := !m.heap.isEmpty || m.readers.any Rec.hasMore

/-- `Read`: recordio.cc:242-255.  `top()` of an empty queue is undefined. -/
def MR.read (pq : PQ K) (key : Bytes → K) (m : MR K) : Outcome (Bytes × MR K) := do
  let m1 ← if m.heap.isEmpty then MR.refillAll key 0 m.readers.length m else .ok m
  match pq m1.heap with
  | none => .ub
  | some (d, heap') => do
    let m2 ← MR.refill key ⟨m1.readers, heap'⟩ d.index
    pure (d.data, m2)

/-- `Open` of all files: recordio.cc:170-199 (on a reader with nothing open). -/
def openAll (fs : FS) : List String → Outcome (List Bytes)
  | [] => .ok []
  | f :: ns => do
    let b ← openRead fs f
    let bs ← openAll fs ns
    pure (b :: bs)

/-- The loop of `ShardMerger::Merge`: recordio.cc:579-582, returning the records written. -/
def mergeLoop (pq : PQ K) (key : Bytes → K) : Nat → MR K → Outcome (List Bytes)
  | 0, _ => .ub
  | fuel + 1, m =>
    if m.hasMore then do
      let (r, m') ← m.read pq key
      let rs ← mergeLoop pq key fuel m'
      pure (r :: rs)
    else .ok []

/-- The number of bytes still to be read or returned: enough iterations for the merge loop. -/
def MR.size (m : MR K) : Nat := (m.readers.map List.length).sum + m.heap.length

/-- `ShardMerger::Merge`: recordio.cc:566-595.  The handles were opened before the output file is
truncated, but their contents are read later: an output file that is one of the shards is outside this
model. -/
def merge (pq : PQ K) (key : Bytes → K) (shards : List String) (out : String) (fs : FS) : Outcome FS := do
  if !fs.writable out then .err "Open failed"
  else
    let fs1 := if shards.isEmpty then fs.set out [] else fs
    let bs ← openAll fs1 shards
    let m : MR K := ⟨bs, []⟩
    let rs ← mergeLoop pq key (m.size + 1) m
    let b ← encodeAll rs
    pure (fs1.set out b)

/-- `ShardMerger::Delete`: recordio.cc:597-604. -/
def deleteAll : List String → FS → Outcome FS
  | [], fs => .ok fs
  | f :: ns, fs =>
    match fs.data f with
    | none => .err "Cannot delete file"
    | some _ => deleteAll ns (fs.remove f)

end Upsi.Rec
