import Verif.Base.Bytes
import Verif.Model.Flags
/-!
Model of `src/caindex.c`: writing, reading, incremental reading and seeking in index files.

The file behind `i->fd` is the byte list `file`, `pos` is the file offset of the descriptor.
The state after an error other than `EAGAIN` is not modelled (the callers give up).
-/
namespace Casync.Index
open Casync

/-- `CaIndexMode`, caindex.c:20-25 -/
inductive Mode
  | write | read | incWrite | incRead
  deriving DecidableEq, Repr

/-- `struct CaIndex`, caindex.c:27-53, without the path handling (modelled in Model/Install.lean) and
without the caches `file_size`, `blob_size` (recomputed in the model). -/
structure Index where
  mode : Mode
  wroteEof : Bool := false
  startOffset : Nat := 0
  cooked : Nat := 0
  raw : Nat := 0
  itemPos : Nat := 0
  prev : Nat := 0
  cmin : Nat := 0
  cavg : Nat := 0
  cmax : Nat := 0
  flags : Flags.Word
  file : Bytes := []
  pos : Nat := 0
  deriving DecidableEq, Repr

/-- `CA_FORMAT_INDEX`, caformat.h:74 -/
abbrev tIndex : Nat := 0x96824d9c7b129ff9
/-- `CA_FORMAT_TABLE`, caformat.h:75 -/
abbrev tTable : Nat := 0xe75b9e112f17417d
/-- `CA_FORMAT_TABLE_TAIL_MARKER`, caformat.h:78 -/
abbrev tailMarker : Nat := 0x4b4f050e5549ecd1
/-- `CA_CHUNK_SIZE_LIMIT_MAX`, cachunk.h:11 -/
abbrev limitMax : Nat := 134217728

/-- `ca_index_new_write`, caindex.c:74-86, followed by the setters `ca_index_set_feature_flags` (which
normalises, 1101-1111) and `ca_index_set_chunk_size_*` (797-837). -/
def newWrite (flags : Flags.Word) (cmin cavg cmax : Nat) : Res Index :=
  match Flags.normalize flags with
  | .err e => .err e
  | .ub => .ub
  | .ok f =>
    if cmin < 1 ∨ cmin > limitMax ∨ cavg < 1 ∨ cavg > limitMax ∨ cmax < 1 ∨ cmax > limitMax then .err .EINVAL
    else .ok { mode := .write, flags := f, cmin := cmin, cavg := cavg, cmax := cmax }

/-- `ca_index_new_read`, caindex.c:88-100, on a file with the given content -/
def newRead (file : Bytes) : Index := { mode := .read, flags := Flags.none64, file := file }

/-- `ca_index_new_incremental_read`, caindex.c:116-128 -/
def newIncRead : Index := { mode := .incRead, flags := Flags.none64 }

/-- `loop_read(i->fd, ...)` of at most `n` bytes (util.c): the bytes and the advanced descriptor. -/
def fdRead (i : Index) (n : Nat) : Bytes × Index :=
  let b := (i.file.drop i.pos).take n
  (b, { i with pos := i.pos + b.length })

/-- `loop_write(i->fd, ...)`: the descriptors that are written to stand at the end of the file. -/
def fdAppend (i : Index) (b : Bytes) : Index := { i with file := i.file ++ b, pos := i.pos + b.length }

/-- `ca_index_write_head`, caindex.c:243-290 -/
def writeHead (i : Index) : Res Index :=
  if ¬ (i.mode = .write ∨ i.mode = .incWrite) then .ok i
  else if i.startOffset ≠ 0 then .ok i
  else if i.flags = Flags.none64 then .err .EINVAL
  else if i.cmin = 0 ∨ i.cavg = 0 ∨ i.cmax = 0 then .err .EUNATCH
  else if ¬ (i.cmin ≤ i.cavg ∧ i.cavg ≤ i.cmax) then .err .EINVAL
  else if i.cooked ≠ 0 then .ub
  else
    let head := le64 48 ++ le64 tIndex ++ le64 i.flags.toNat ++ le64 i.cmin ++ le64 i.cavg ++ le64 i.cmax ++
      le64 u64max ++ le64 tTable
    .ok { fdAppend i head with startOffset := head.length, cooked := head.length }

/-- `ca_index_enough_data`, caindex.c:292-312 -/
def enoughData (i : Index) (n : Nat) : Res Bool :=
  match i.mode with
  | .read => .ok true
  | .incRead =>
    if i.wroteEof then .ok true
    else if i.cooked + n ≥ 2 ^ 64 then .err .E2BIG
    else .ok (decide (i.cooked + n ≤ i.raw))
  | _ => .err .ENOTTY

/-- The 8 byte field number `k` of a structure. -/
def field (b : Bytes) (k : Nat) : Nat := rdLE ((b.drop (8 * k)).take 8)

/-- `ca_index_read_head`, the checks on a complete head, caindex.c:343-381 -/
def parseHead (i : Index) (b : Bytes) : Res Index :=
  if field b 0 ≠ 48 ∨ field b 1 ≠ tIndex then .err .EBADMSG
  else
    let flags : Flags.Word := BitVec.ofNat 64 (field b 2)
    match Flags.areNormalized flags with
    | .err e => .err e
    | .ub => .ub
    | .ok false => .err .EINVAL
    | .ok true =>
      if field b 3 < 1 ∨ field b 3 > limitMax then .err .EBADMSG
      else if field b 4 < 1 ∨ field b 4 > limitMax then .err .EBADMSG
      else if field b 5 < 1 ∨ field b 5 > limitMax then .err .EBADMSG
      else if ¬ (field b 3 ≤ field b 4 ∧ field b 4 ≤ field b 5) then .err .EBADMSG
      else if field b 6 ≠ u64max ∨ field b 7 ≠ tTable then .err .EBADMSG
      else .ok { i with startOffset := 64, cooked := 64, flags := flags,
                        cmin := field b 3, cavg := field b 4, cmax := field b 5 }

/-- `ca_index_read_head`, caindex.c:314-382 -/
def readHead (i : Index) : Res Index :=
  if ¬ (i.mode = .read ∨ i.mode = .incRead) then .ok i
  else if i.startOffset ≠ 0 then .ok i
  else if i.cooked ≠ 0 then .ub
  else
    match enoughData i 64 with
    | .err e => .err e
    | .ub => .ub
    | .ok false => .err .EAGAIN
    | .ok true =>
      let r := fdRead i 64
      if r.1.length ≠ 64 then .err .EPIPE else parseHead r.2 r.1

/-- `ca_index_open`, caindex.c:384-403 (opening the descriptor itself is not part of this model) -/
def openIndex (i : Index) : Res Index :=
  match readHead i with
  | .err .EAGAIN => writeHead i
  | .err e => .err e
  | .ub => .ub
  | .ok i => writeHead i

/-- `ca_index_write_chunk`, caindex.c:425-469. Chunk ids are 32 byte strings. -/
def writeChunk (i : Index) (id : Bytes) (size : Nat) : Res Index :=
  if size = 0 then .err .EINVAL
  else if ¬ (i.mode = .write ∨ i.mode = .incWrite) then .err .ENOTTY
  else if i.wroteEof then .err .EBUSY
  else do
    let i ← openIndex i
    if size > i.cmax then .err .EINVAL
    else
      let e := (i.prev + size) % 2 ^ 64
      if e < i.prev then .err .E2BIG
      else
        let i := fdAppend i (le64 e ++ id)
        .ok { i with prev := e, cooked := i.cooked + 40, itemPos := i.itemPos + 1 }

/-- `ca_index_write_eof`, caindex.c:471-503 -/
def writeEof (i : Index) : Res Index :=
  if ¬ (i.mode = .write ∨ i.mode = .incWrite) then .err .ENOTTY
  else if i.wroteEof then .err .EBUSY
  else do
    let i ← openIndex i
    let tail := le64 0 ++ le64 0 ++ le64 48 ++ le64 (16 + i.itemPos * 40 + 40) ++ le64 tailMarker
    let i := fdAppend i tail
    .ok { i with cooked := i.cooked + 40, wroteEof := true }

/-- Writing a list of chunks (id, size) one after the other, as `ca_sync_write_one_chunk`
(casync.c:1638-1690) does. -/
def writeChunks (i : Index) : List (Bytes × Nat) → Res Index
  | [] => .ok i
  | (id, size) :: cs => writeChunk i id size >>= fun i => writeChunks i cs

/-- A complete index file: new writer, all chunks, end of file. -/
def writeFile (flags : Flags.Word) (cmin cavg cmax : Nat) (cs : List (Bytes × Nat)) : Res Index :=
  newWrite flags cmin cavg cmax >>= fun i => writeChunks i cs >>= fun i => writeEof i

/-- What `ca_index_read_chunk` delivers: id, end offset, size (`UINT64_MAX` if unknown). -/
structure Chunk where
  id : Bytes
  endOffset : Nat
  size : Nat
  deriving DecidableEq, Repr

/-- `ca_index_read_chunk` after the 40 byte record `b` was read, caindex.c:541-591. `i` is the index with
the descriptor behind the record. -/
def parseRecord (i : Index) (b : Bytes) : Res (Option Chunk × Index) :=
  if field b 4 = tailMarker ∧ field b 0 = 0 ∧ field b 1 = 0 ∧ field b 2 = 48 ∧
      field b 3 = i.cooked - i.startOffset + 16 + 40 then
    let r := fdRead i 1
    if r.1.length ≠ 0 then .err .EBADMSG else .ok (none, r.2)
  else if i.prev ≠ u64max ∧ i.prev ≥ field b 0 then .err .EBADMSG
  else if i.prev ≠ u64max ∧ field b 0 - i.prev > i.cmax then .err .EBADMSG
  else
    .ok (some { id := b.drop 8, endOffset := field b 0,
                size := if i.prev = u64max then u64max else field b 0 - i.prev },
         { i with prev := field b 0, itemPos := i.itemPos + 1, cooked := i.cooked + 40 })

/-- `ca_index_read_chunk`, caindex.c:505-592. `none` is the return value 0 (end of file). -/
def readChunk (i : Index) : Res (Option Chunk × Index) := do
  let i ← openIndex i
  if ¬ (i.mode = .read ∨ i.mode = .incRead) then .err .ENOTTY
  else
    match enoughData i 41 with
    | .err e => .err e
    | .ub => .ub
    | .ok false => .err .EAGAIN
    | .ok true =>
      let r := fdRead i 40
      if r.1.length ≠ 40 then .err .EPIPE else parseRecord r.2 r.1

/-- Reading chunks up to end of file, as every user of an index does. `fuel` bounds the number of
reads; `ub` when it runs out (never with the fuel `readAll` gives, see Props/Index.lean). -/
def readLoop : Nat → Index → Res (List Chunk × Index)
  | 0, _ => .ub
  | fuel + 1, i =>
    match readChunk i with
    | .err e => .err e
    | .ub => .ub
    | .ok (none, i) => .ok ([], i)
    | .ok (some c, i) =>
      match readLoop fuel i with
      | .err e => .err e
      | .ub => .ub
      | .ok (cs, i) => .ok (c :: cs, i)

@[inherit_doc readLoop]
def readAll (file : Bytes) : Res (List Chunk × Index) := readLoop (file.length + 1) (newRead file)

/-- `ca_index_incremental_write`, caindex.c:702-735. The data lands at `raw_offset`, which is the end of
the file. -/
def incWrite (i : Index) (data : Bytes) : Res Index :=
  if data.length = 0 then .err .EINVAL
  else if i.mode ≠ .incRead then .err .ENOTTY
  else if i.wroteEof then .err .EBUSY
  else do
    let i ← openIndex i
    if i.raw + data.length ≥ 2 ^ 64 then .err .EFBIG
    else .ok { i with file := i.file ++ data, raw := i.raw + data.length }

/-- `ca_index_incremental_eof`, caindex.c:737-754 -/
def incEof (i : Index) : Res Index :=
  if i.mode ≠ .incRead then .err .ENOTTY
  else if i.wroteEof then .err .EBUSY
  else do
    let i ← openIndex i
    .ok { i with wroteEof := true }

/-- `ca_index_set_position`, caindex.c:594-620 -/
def setPosition (i : Index) (position : Nat) : Res Index :=
  if ¬ (i.mode = .read ∨ i.mode = .incRead) then .err .ENOTTY
  else if i.startOffset = 0 then .err .ENODATA
  else
    let p := position * 40 % 2 ^ 64
    if p < position then .err .EINVAL
    else
      let q := (i.startOffset + p) % 2 ^ 64
      if q < p then .err .EINVAL
      else if q ≥ 2 ^ 63 then .err .EINVAL /- lseek(2) refuses negative offsets -/
      else .ok { i with pos := q, cooked := q, itemPos := position,
                        prev := if position = 0 then 0 else u64max }

/-- `ca_index_get_index_size`, caindex.c:875-924 -/
def getIndexSize (i : Index) : Res (Nat × Index) := do
  let i ← openIndex i
  let i ← readHead i
  let chk (size : Nat) : Res (Nat × Index) :=
    if size < i.startOffset + 40 then .err .EBADMSG
    else if (size - (i.startOffset + 40)) % 40 ≠ 0 then .err .EBADMSG
    else .ok (size, i)
  match i.mode with
  | .read => chk i.file.length
  | .incRead => if ¬ i.wroteEof then .err .EAGAIN else chk i.raw
  | _ => .err .ENOTTY

/-- `ca_index_get_total_chunks`, caindex.c:926-941 -/
def getTotalChunks (i : Index) : Res (Nat × Index) := do
  let (size, i) ← getIndexSize i
  .ok ((size - (i.startOffset + 40)) / 40, i)

/-- `ca_index_read_tail` and `ca_index_get_blob_size`, caindex.c:943-1005. For an index without chunks the
last item is zero-initialised, so the size is 0. -/
def getBlobSize (i : Index) : Res (Nat × Index) := do
  let (size, i) ← getIndexSize i
  let tail := (i.file.drop (size - 40)).take 40
  if tail.length ≠ 40 then .err .EBADMSG
  else if field tail 4 ≠ tailMarker then .err .EBADMSG
  else if field tail 2 ≠ 48 then .err .EBADMSG
  else if (field tail 3 + 48) % 2 ^ 64 ≠ size then .err .EBADMSG
  else if size = i.startOffset + 40 then .ok (0, i)
  else .ok (field (i.file.drop (size - 80)) 0, i)

/-- `*ret_offset_end` of `ca_index_read_chunk`; `UINT64_MAX` at the end of file, caindex.c:559-560 -/
@[reducible] def endOf : Option Chunk → Nat
  | some c => c.endOffset
  | none => u64max

/-- The bisection loop of `ca_index_seek`, caindex.c:1041-1098. `none` of the fuel is `ub`. The end of file
record makes `ca_index_read_chunk` report `UINT64_MAX` as the end offset. -/
def seekLoop : Nat → Index → Nat → Nat → Nat → Res (Nat × Index)
  | 0, _, _, _, _ => .ub
  | fuel + 1, i, offset, left, right => do
    let p := (left + ((right + 2 ^ 64 - left) % 2 ^ 64) / 2) % 2 ^ 64
    let i ← setPosition i p
    let (c1, i) ← readChunk i
    let firstEnd := endOf c1
    if offset < firstEnd then
      if p = 0 then do
        let i ← setPosition i 0
        .ok (offset, i)
      else if p = right then .err .EBADMSG
      else seekLoop fuel i offset left p
    else do
      let (c2, i) ← readChunk i
      let secondEnd := endOf c2
      if offset ≥ secondEnd then seekLoop fuel i offset (p + 1) right
      else do
        let i ← setPosition i (p + 1)
        .ok (offset - firstEnd, { i with prev := firstEnd })

/-- `ca_index_seek`, caindex.c:1007-1099. Delivers `*ret_skip` and the repositioned index. -/
def seek (i : Index) (offset : Nat) : Res (Nat × Index) := do
  let (size, i) ← getBlobSize i
  if offset ≥ size then .err .ENXIO
  else do
    let (n, i) ← getTotalChunks i
    if n = 0 then .err .ENXIO
    else if n = 1 ∨ offset < i.cmin then do
      let i ← setPosition i 0
      .ok (offset, i)
    else seekLoop (n + 2) i offset 0 (n - 2)

end Casync.Index
