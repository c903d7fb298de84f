import Verif.Model.Index
/-!
Model of the part of `src/casync.c` that feeds the decoder: the loop over the index, the sources of chunks, seeking, skipping
and the prefetch pass.

Answers of the outside (which chunk a source delivers at a certain moment, whether the seeds are complete) are arguments of the
operations, so that every source with any history is covered.
-/
namespace Casync.Sync
open Casync

/-! ### Where chunks come from -/

/-- The three kinds of sources in `ca_sync_get_local` and `ca_sync_get`, src/casync.c:3239-3390. -/
inductive Kind
  | seed | store | remote
  deriving DecidableEq, Repr

/-- The errors after which the next source is tried: src/casync.c:3266-3276 (seeds), 3313-3314, 3324-3325, 3335-3336 (stores),
3373-3374, 3384-3385 (remotes). -/
def fallsThrough : Kind → Errno → Bool
  | .seed, e => e = .ESTALE || e = .ENOLINK || e = .ENOENT
  | _, e => e = .ENOENT

/-- The chain of sources, src/casync.c:3257-3341 and 3366-3388: the answers of the sources in their order. -/
def getChain : List (Kind × Res Bytes) → Res Bytes
  | [] => .err .ENOENT
  | (_, .ok y) :: _ => .ok y
  | (_, .ub) :: _ => .ub
  | (k, .err e) :: l => if fallsThrough k e then getChain l else .err e

/-- The sources of a `CaSync` object, each with the answer it gives for an id (src/casync.c:66-75, 91). -/
structure Sources where
  seeds : List (Bytes → Res Bytes) := []
  wstore : Option (Bytes → Res Bytes) := none
  cacheStore : Option (Bytes → Res Bytes) := none
  rstores : List (Bytes → Res Bytes) := []
  remoteWstore : Option (Bytes → Res Bytes) := none
  remoteRstores : List (Bytes → Res Bytes) := []

/-- All sources in the order in which `ca_sync_get`, src/casync.c:3343-3390, and `ca_sync_get_local`, src/casync.c:3239-3341, ask them. -/
def Sources.all (s : Sources) : List (Kind × (Bytes → Res Bytes)) :=
  s.seeds.map (Prod.mk .seed) ++ s.wstore.toList.map (Prod.mk .store) ++ s.cacheStore.toList.map (Prod.mk .store) ++
    s.rstores.map (Prod.mk .store) ++ s.remoteWstore.toList.map (Prod.mk .remote) ++ s.remoteRstores.map (Prod.mk .remote)

/-- `ca_sync_get`, src/casync.c:3343-3390, with `CA_CHUNK_UNCOMPRESSED` as the decoder driver calls it (2384). -/
def get (s : Sources) (id : Bytes) : Res Bytes := getChain (s.all.map fun x => (x.1, x.2 id))

/-! ### The loop over the index -/

/-- The fields of `struct CaSync` that the loop uses, src/casync.c:60-190: `index`, `next_chunk` with `next_chunk_valid` and
`next_chunk_size`, `chunk_skip`, `n_prefetched_chunks`. -/
structure Reader where
  index : Index.Index
  next : Option Index.Chunk := none
  skip : Nat := 0
  prefetched : Nat := 0

/-- What a step hands to the decoder: nothing for the time being, a block of data, the end of the data; `done` for seeking, skipping,
and prefetching with the ids that were asked for. -/
inductive Out
  | wait
  | data (b : Bytes)
  | eof
  | done (asked : List Bytes)
  deriving DecidableEq, Repr

/-- Result of the loop that looks for the chunk to deliver. No repo lines. -/
inductive Filled
  | chunk (c : Index.Chunk)
  | wait
  | eof

/-- src/casync.c:2332-2339: the chunk read last, if the skip distance ends within it. -/
def pending (r : Reader) : Option Index.Chunk :=
  match r.next with
  | some c => if r.skip < c.size then some c else none
  | none => none

/-- src/casync.c:2337-2338: a chunk that is skipped as a whole. -/
def dropNext (r : Reader) : Reader :=
  match r.next with
  | some c => { r with skip := r.skip - c.size, next := none }
  | none => r

/-- The loop src/casync.c:2331-2366. `fuel` bounds the number of rounds; the caller gives enough (Props/SyncRead.lean). -/
def fill : Nat → Reader → Res (Filled × Reader)
  | 0, _ => .ub
  | fuel + 1, r =>
    match pending r with
    | some c => .ok (.chunk c, r)
    | none =>
      match Index.readChunk (dropNext r).index with
      | .err e => if e = .EAGAIN then .ok (.wait, dropNext r) else .err e
      | .ub => .ub
      | .ok (none, i) => .ok (.eof, { dropNext r with index := i })
      | .ok (some c, i) =>
        if c.size = u64max then .err .ESPIPE
        else fill fuel { dropNext r with index := i, next := some c }

/-- src/casync.c:2368-2411: the chunk `c` is fetched, checked against the size in the index, and handed over without its first
`chunk_skip` bytes. The decoder accepts it (`ca_decoder_put_data` is part of Model/Decoder.lean). -/
def deliver (r : Reader) (c : Index.Chunk) (answer : Bytes → Res Bytes) : Res (Out × Reader) :=
  match answer c.id with
  | .err e => if e = .EAGAIN ∨ e = .EALREADY then .ok (.wait, r) else .err e
  | .ub => .ub
  | .ok y =>
    if c.size ≠ u64max ∧ c.size ≠ y.length then .err .EBADMSG
    else if r.skip > 0 then
      if r.skip ≥ y.length then .err .EINVAL
      else .ok (.data (y.drop r.skip), { r with next := none, skip := 0 })
    else .ok (.data y, { r with next := none })

/-- `ca_sync_process_decoder_request` with an index, src/casync.c:2321-2412. `ready` is `ca_sync_seed_ready` (2305-2319). -/
def request (r : Reader) (ready : Bool) (answer : Bytes → Res Bytes) : Res (Out × Reader) :=
  match fill (r.index.file.length + 2) r with
  | .err e => .err e
  | .ub => .ub
  | .ok (.wait, r) => .ok (.wait, r)
  | .ok (.eof, r) => .ok (.eof, r)
  | .ok (.chunk c, r) => if ready then deliver r c answer else .ok (.wait, r)

/-- `ca_sync_process_decoder_seek` with an index, src/casync.c:2507-2523, with `ca_sync_reset_seek` (2496-2505). -/
def seekTo (r : Reader) (offset : Nat) : Res (Out × Reader) :=
  match Index.seek r.index offset with
  | .err e => .err e
  | .ub => .ub
  | .ok (skip, i) => .ok (.done [], { r with index := i, next := none, skip := skip })

/-- `ca_sync_process_decoder_skip` with an index, src/casync.c:2538-2556. -/
def skipBytes (r : Reader) (n : Nat) : Res (Out × Reader) :=
  if r.skip + n ≥ 2 ^ 64 then .err .EOVERFLOW else .ok (.done [], { r with skip := r.skip + n })

/-! ### Prefetching -/

/-- `ca_index_get_available_chunks`, src/caindex.c:654-700. -/
def available (i : Index.Index) : Res (Nat × Index.Index) := do
  let i ← Index.readHead i
  if i.startOffset = 0 then .err .ENODATA
  else
    let fin (size : Nat) (complete : Bool) : Res (Nat × Index.Index) :=
      if size < i.startOffset + 40 then if complete then .err .EBADMSG else .ok (0, i)
      else if complete ∧ (size - (i.startOffset + 40)) % 40 ≠ 0 then .err .EBADMSG
      else .ok ((size - (i.startOffset + 40)) / 40, i)
    match i.mode with
    | .read => fin i.file.length true
    | .incRead => fin i.raw i.wroteEof
    | _ => .err .ENOTTY

/-- The loop src/casync.c:2816-2840: all chunks from the current position on, as far as they are known; those that are not at hand
are asked for. Delivers the number of chunks seen and the ids asked for. -/
def prefetchLoop (has : Bytes → Res Bool) (ask : Bytes → Res Unit) : Nat → Index.Index → Res (Nat × List Bytes × Index.Index)
  | 0, _ => .ub
  | fuel + 1, i =>
    match Index.readChunk i with
    | .err e => if e = .EAGAIN then .ok (0, [], i) else .err e
    | .ub => .ub
    | .ok (none, i) => .ok (0, [], i)
    | .ok (some c, i) =>
      has c.id >>= fun h =>
      if h then prefetchLoop has ask fuel i >>= fun x => .ok (x.1 + 1, x.2.1, x.2.2)
      else ask c.id >>= fun _ => prefetchLoop has ask fuel i >>= fun x => .ok (x.1 + 1, c.id :: x.2.1, x.2.2)

/-- src/casync.c:2842-2857: back to the position before, with the previous end offset known. -/
def restorePosition (i : Index.Index) (saved : Nat) : Res Index.Index :=
  if saved > 0 then
    Index.setPosition i (saved - 1) >>= fun i => Index.readChunk i >>= fun x => .ok x.2
  else Index.setPosition i saved

/-- `ca_sync_remote_prefetch`, src/casync.c:2785-2870, for a decoding `CaSync` with an index and a remote store. `has` is
`ca_sync_has_local`, `ask` is `ca_remote_request_async`. -/
def prefetch (r : Reader) (ready : Bool) (has : Bytes → Res Bool) (ask : Bytes → Res Unit) : Res (Out × Reader) :=
  if ready = false then .ok (.done [], r)
  else
    match available r.index with
    | .err e => if e = .ENODATA ∨ e = .EAGAIN then .ok (.done [], r) else .err e
    | .ub => .ub
    | .ok (n, i) =>
      if r.prefetched ≥ n then .ok (.done [], { r with index := i })
      else
        Index.setPosition i r.prefetched >>= fun j =>
        prefetchLoop has ask (j.file.length + 1) j >>= fun x =>
        restorePosition x.2.2 i.itemPos >>= fun k =>
        .ok (.done x.2.1, { r with index := k, prefetched := r.prefetched + x.1 })

/-! ### Histories -/

/-- What can happen to the reader: the decoder asks for data, seeks or skips, the prefetch pass runs, and parts of the index
arrive from a remote side (`ca_index_incremental_write`, `ca_index_incremental_eof`). -/
inductive Op
  | request (ready : Bool) (answer : Bytes → Res Bytes)
  | seek (offset : Nat)
  | skip (n : Nat)
  | prefetch (ready : Bool) (has : Bytes → Res Bool) (ask : Bytes → Res Unit)
  | arrive (data : Bytes)
  | arriveEof

/-- One operation; the calls are src/casync.c:2660-2720 (`ca_sync_step_decode`), 3213 (prefetch), and for the index parts
`ca_sync_remote_step_one`, src/casync.c:2976-3040. -/
def step (r : Reader) : Op → Res (Out × Reader)
  | .request ready answer => request r ready answer
  | .seek offset => seekTo r offset
  | .skip n => skipBytes r n
  | .prefetch ready has ask => prefetch r ready has ask
  | .arrive d => Index.incWrite r.index d >>= fun i => .ok (.done [], { r with index := i })
  | .arriveEof => Index.incEof r.index >>= fun i => .ok (.done [], { r with index := i })

/-- A sequence of operations: what each of them did, up to the first failure. No repo lines. -/
def run (r : Reader) : List Op → List (Op × Res Out)
  | [] => []
  | op :: ops =>
    match step r op with
    | .ok (o, r') => (op, .ok o) :: run r' ops
    | .err e => [(op, .err e)]
    | .ub => [(op, .ub)]

end Casync.Sync
