import Verif.Model.RemoteQueue
import Verif.Model.Store
/-!
Model of the protocol engine of `src/caremote.c` (framing, messages, what is sent).

What happens outside of the object (chunk files in the cache directory, index and archive file) is a parameter `World`.
Buffers are byte strings (see Model/Buffer.lean for how they are implemented); allocation failures are not modelled.
-/
namespace Casync.Remote
open Casync ChunkFile

/-- Frame types, src/caprotocol.h:11-22. -/
abbrev HELLO : Nat := 0x3c71d0948ca5fbee
abbrev INDEX : Nat := 0xb32a91dd2b3e27f8
abbrev INDEX_EOF : Nat := 0x4f0932f1043718f5
abbrev ARCHIVE : Nat := 0x95d6428a69eddcc5
abbrev ARCHIVE_EOF : Nat := 0x450bef663f24cbad
abbrev REQUEST : Nat := 0x8ab427e0f89d9210
abbrev CHUNK : Nat := 0x5213dd180a84bc8c
abbrev MISSING : Nat := 0xd010f9fac82b7b6c
abbrev GOODBYE : Nat := 0xad205dbf1a3686c3
abbrev ABORT : Nat := 0xe7d9136b7efea352

/-- `CA_PROTOCOL_SIZE_MIN`, src/caprotocol.h:72. -/
abbrev SIZE_MIN : Nat := 16
/-- `CA_PROTOCOL_SIZE_MAX`, src/caprotocol.h:73. -/
abbrev SIZE_MAX : Nat := 16 * 1024 * 1024
/-- `REMOTE_BUFFER_SIZE`, src/caremote.c:24. -/
abbrev BUFFER_SIZE : Nat := 1024 * 1024
/-- `REMOTE_BUFFER_LOW`, src/caremote.c:25. -/
abbrev BUFFER_LOW : Nat := 1024 * 4

/-- Feature flags, src/caprotocol.h:80-100. -/
abbrev READABLE_STORE : Nat := 0x1
abbrev WRITABLE_STORE : Nat := 0x2
abbrev READABLE_INDEX : Nat := 0x4
abbrev WRITABLE_INDEX : Nat := 0x8
abbrev READABLE_ARCHIVE : Nat := 0x10
abbrev WRITABLE_ARCHIVE : Nat := 0x20
abbrev PULL_CHUNKS : Nat := 0x40
abbrev PULL_INDEX : Nat := 0x80
abbrev PULL_ARCHIVE : Nat := 0x100
abbrev PUSH_CHUNKS : Nat := 0x200
abbrev PUSH_INDEX : Nat := 0x400
abbrev PUSH_INDEX_CHUNKS : Nat := 0x800
abbrev PUSH_ARCHIVE : Nat := 0x1000
/-- `CA_PROTOCOL_FEATURE_FLAGS_MAX`, src/caprotocol.h:99. -/
abbrev FLAGS_MAX : Nat := 0x1fff
/-- "Not set" for the two flag words, src/caremote.c:110-111. -/
abbrev NO_FLAGS : Nat := 2 ^ 64 - 1

/-- `flags & mask`, as a condition. -/
def has (flags mask : Nat) : Bool := flags &&& mask != 0

/-- src/caremote.c:27-31 `CaRemoteState`. -/
inductive State
  | hello | running | eof
  deriving DecidableEq, Repr

/-- src/caremote.c:33-38 `CaRemoteFile`: whether there are a descriptor, a path and a temporary path. -/
structure File where
  fd : Bool
  path : Bool
  temp : Bool
  buffer : Bytes
  complete : Bool
  deriving DecidableEq, Repr

/-- src/caremote.c:40-93 `struct CaRemote`, without the addresses, the process and the chunk buffers. `lastChunk` stands for
`last_chunk` and `last_chunk_valid`. -/
structure R where
  state : State
  localFlags : Nat
  remoteFlags : Nat
  input : Bytes
  frameSize : Nat
  output : Bytes
  index : File
  archive : File
  queue : Q
  lastChunk : Option Bytes
  sentHello : Bool
  sentGoodbye : Bool

/-- What the protocol engine does outside of its object: `ca_chunk_file_save` and `ca_chunk_file_mark_missing` in the cache
directory, `loop_write` to the index (`false`) or archive (`true`) file, `rename` of the temporary file to its final name. -/
structure World (W : Type) where
  save : W → Bytes → Compression → Bytes → Res Unit × W
  missing : W → Bytes → Res Unit × W
  write : W → Bool → Bytes → Res Unit × W
  rename : W → Bool → Res Unit × W

/-- src/caremote.h, the non-negative results of `ca_remote_step`. -/
inductive Step
  | finished | step | poll | request | chunk | readIndex | readIndexEof | readArchive | readArchiveEof | writeIndex | writeArchive
  deriving DecidableEq, Repr

/-- What a function returns: a step, a negative errno, a negative errno that the peer chose (`ca_remote_process_abort`), or
undefined behaviour. -/
inductive Rc
  | ok (s : Step)
  | err (e : Errno)
  | peer (code : Nat)
  | ub
  deriving DecidableEq, Repr

/-- A validated frame, src/caprotocol.h:75-147. -/
inductive Msg
  | hello (flags : Nat)
  | file (archive : Bool) (data : Bytes)
  | fileEof (archive : Bool)
  | request (high : Bool) (ids : List Bytes)
  | chunk (id : Bytes) (compressed : Bool) (data : Bytes)
  | missing (id : Bytes)
  | goodbye
  | abort (error : Nat) (reason : Bytes)
  deriving DecidableEq, Repr

/-- `read_le64` at an offset of a frame; reading past its end is undefined. -/
def rd (f : Bytes) (off : Nat) : Res Nat := if off + 8 ≤ f.length then .ok (rdLE ((f.drop off).take 8)) else .ub

/-- `validate_hello`, src/caremote.c:1410-1429. -/
def validateHello (f : Bytes) : Res (Option Msg) := do
  let size ← rd f 0
  if size ≠ 24 then .ok none
  else
    let type ← rd f 8
    if type ≠ HELLO then .ok none
    else
      let flags ← rd f 16
      if flags = NO_FLAGS then .ok none
      else if flags = 0 then .ok none
      else .ok (some (.hello flags))

/-- `validate_file`, src/caremote.c:1431-1441. -/
def validateFile (want : Nat) (archive : Bool) (f : Bytes) : Res (Option Msg) := do
  let size ← rd f 0
  if size < 16 + 1 then .ok none
  else
    let type ← rd f 8
    if type ≠ want then .ok none
    else .ok (some (.file archive ((f.drop 16).take (size - 16))))

/-- `validate_file_eof`, src/caremote.c:1443-1453. -/
def validateFileEof (want : Nat) (archive : Bool) (f : Bytes) : Res (Option Msg) := do
  let size ← rd f 0
  if size ≠ 16 then .ok none
  else
    let type ← rd f 8
    if type ≠ want then .ok none else .ok (some (.fileEof archive))

/-- The ids of a request: `n` times 32 bytes, src/caremote.c:1305. -/
def splitIds : Nat → Bytes → List Bytes
  | 0, _ => []
  | n + 1, b => b.take 32 :: splitIds n (b.drop 32)

/-- `validate_request`, src/caremote.c:1455-1473; the loop bound of `ca_remote_process_request`, lines 1303-1305. -/
def validateRequest (f : Bytes) : Res (Option Msg) := do
  let size ← rd f 0
  if size < 24 + 32 then .ok none
  else if (size - 24) % 32 ≠ 0 then .ok none
  else
    let type ← rd f 8
    if type ≠ REQUEST then .ok none
    else
      let flags ← rd f 16
      if flags > 1 then .ok none
      else .ok (some (.request (flags == 1) (splitIds ((size - 24) / 32) (f.drop 24))))

/-- `validate_chunk`, src/caremote.c:1475-1495. -/
def validateChunk (f : Bytes) : Res (Option Msg) := do
  let size ← rd f 0
  if size < 56 + 1 then .ok none
  else
    let type ← rd f 8
    if type ≠ CHUNK then .ok none
    else
      let flags ← rd f 16
      if flags > 1 then .ok none
      else .ok (some (.chunk ((f.drop 24).take 32) (flags == 1) ((f.drop 56).take (size - 56))))

/-- `validate_missing`, src/caremote.c:1497-1507. -/
def validateMissing (f : Bytes) : Res (Option Msg) := do
  let size ← rd f 0
  if size ≠ 48 then .ok none
  else
    let type ← rd f 8
    if type ≠ MISSING then .ok none else .ok (some (.missing ((f.drop 16).take 32)))

/-- `validate_goodbye`, src/caremote.c:1509-1519. -/
def validateGoodbye (f : Bytes) : Res (Option Msg) := do
  let size ← rd f 0
  if size ≠ 16 then .ok none
  else
    let type ← rd f 8
    if type ≠ GOODBYE then .ok none else .ok (some .goodbye)

/-- `validate_abort`, src/caremote.c:1521-1548. -/
def validateAbort (f : Bytes) : Res (Option Msg) := do
  let size ← rd f 0
  if size < 24 + 1 then .ok none
  else
    let type ← rd f 8
    if type ≠ ABORT then .ok none
    else
      let error ← rd f 16
      if error ≥ 2 ^ 31 - 1 then .ok none
      else
        let n := size - 24
        let reason := (f.drop 24).take n
        if (reason.take (n - 1)).any (· < 32) then .ok none
        else if reason[n - 1]? ≠ some 0 then .ok none
        else .ok (some (.abort error (reason.take (n - 1))))

/-- `operations_and_services_compatible`, src/caremote.c:1159-1176. -/
def compatible (ops services : Nat) : Bool :=
  if has ops PULL_CHUNKS && !has services READABLE_STORE then false
  else if has ops PULL_INDEX && !has services READABLE_INDEX then false
  else if has ops PULL_ARCHIVE && !has services READABLE_ARCHIVE then false
  else if has ops PUSH_CHUNKS && !has services WRITABLE_STORE then false
  else if has ops PUSH_INDEX && !has services WRITABLE_INDEX then false
  else if has ops PUSH_ARCHIVE && !has services WRITABLE_ARCHIVE then false
  else true

/-- All operations, src/caremote.c:1199. -/
abbrev OPERATIONS : Nat := 0x1fc0 - 0x800

/-- `ca_remote_process_hello`, src/caremote.c:1178-1206. -/
def processHello (r : R) (flags : Nat) : Rc × R :=
  if flags > FLAGS_MAX then (.err .EPROTONOSUPPORT, r)
  else if has flags PUSH_INDEX_CHUNKS && !(has flags PUSH_INDEX && has flags PUSH_CHUNKS) then (.err .EBADE, r)
  else if !compatible flags r.localFlags then (.err .EBADE, r)
  else if !compatible r.localFlags flags then (.err .EBADE, r)
  else if (flags ||| r.localFlags) &&& OPERATIONS = 0 then (.err .EBADE, r)
  else (.ok .step, { r with remoteFlags := flags, state := .running })

/-- Whether this side sends the index or archive, the tests in src/caremote.c:1078, 1093, 1844, 1859, 2334, 2376, 2413, 2473, 2490, 2509. -/
def sendsFile (r : R) (archive : Bool) : Bool :=
  has r.remoteFlags (if archive then PULL_ARCHIVE else PULL_INDEX) || has r.localFlags (if archive then PUSH_ARCHIVE else PUSH_INDEX)
/-- Whether this side receives it, src/caremote.c:1085, 1100, 2460, 2530. -/
def receivesFile (r : R) (archive : Bool) : Bool :=
  has r.remoteFlags (if archive then PUSH_ARCHIVE else PUSH_INDEX) || has r.localFlags (if archive then PULL_ARCHIVE else PULL_INDEX)

/-- The index or the archive file. -/
def R.file (r : R) (archive : Bool) : File := if archive then r.archive else r.index
/-- Replace it. -/
def R.setFile (r : R) (archive : Bool) (f : File) : R := if archive then { r with archive := f } else { r with index := f }

/-- `ca_remote_file_process`, src/caremote.c:1208-1230, with `ca_remote_process_index` and `_archive` (1243-1254, 1269-1280). -/
def processFile {W} (e : World W) (w : W) (r : R) (archive : Bool) (data : Bytes) : Rc × R × W :=
  let f := r.file archive
  if f.complete then (.err .EBADMSG, r, w)
  else if f.fd then
    match e.write w archive data with
    | (.ok (), w) => (.ok (if archive then .readArchive else .readIndex), r, w)
    | (.err x, w) => (.err x, r, w)
    | (.ub, w) => (.ub, r, w)
  else (.ok (if archive then .readArchive else .readIndex), r.setFile archive { f with buffer := f.buffer ++ data }, w)

/-- `ca_remote_file_process_eof`, src/caremote.c:1232-1241, with its two callers (1256-1267, 1282-1293). -/
def processFileEof (r : R) (archive : Bool) : Rc × R :=
  let f := r.file archive
  if f.complete then (.err .EBADMSG, r)
  else (.ok (if archive then .readArchiveEof else .readIndexEof), r.setFile archive { f with complete := true })

/-- `ca_remote_process_request`, src/caremote.c:1295-1312. -/
def processRequest (r : R) (high : Bool) : List Bytes → Rc × R
  | [] => (.ok .request, r)
  | id :: ids =>
    match enqueue r.queue id high false with
    | (.ok _, q) => processRequest { r with queue := q } high ids
    | (.err e, q) => (.err e, { r with queue := q })
    | (.ub, q) => (.ub, { r with queue := q })

/-- `ca_remote_process_chunk`, src/caremote.c:1314-1343. -/
def processChunk {W} (e : World W) (w : W) (r : R) (id : Bytes) (compressed : Bool) (data : Bytes) : Rc × R × W :=
  if !r.queue.cache then (.err .ENOTTY, r, w)
  else
    let r := { r with lastChunk := some id }
    match e.save w id (if compressed then .compressed else .uncompressed) data with
    | (.ok (), w) => (.ok .chunk, r, w)
    | (.err .EEXIST, w) => (.ok .step, r, w)
    | (.err x, w) => (.err x, r, w)
    | (.ub, w) => (.ub, r, w)

/-- `ca_remote_process_missing`, src/caremote.c:1345-1361. -/
def processMissing {W} (e : World W) (w : W) (r : R) (id : Bytes) : Rc × R × W :=
  if !r.queue.cache then (.err .ENOTTY, r, w)
  else match e.missing w id with
    | (.ok (), w) => (.ok .chunk, r, w)
    | (.err .EEXIST, w) => (.ok .step, r, w)
    | (.err x, w) => (.err x, r, w)
    | (.ub, w) => (.ub, r, w)

/-- `ca_remote_file_install`, src/caremote.c:1363-1379. -/
def fileInstall {W} (e : World W) (w : W) (r : R) (archive : Bool) : Res Unit × R × W :=
  let f := r.file archive
  if !f.complete || !f.temp || !f.path then (.ok (), r, w)
  else match e.rename w archive with
    | (.ok (), w) => (.ok (), r.setFile archive { f with temp := false }, w)
    | (.err x, w) => (.err x, r, w)
    | (.ub, w) => (.ub, r, w)

/-- `ca_remote_process_goodbye`, src/caremote.c:1381-1398. -/
def processGoodbye {W} (e : World W) (w : W) (r : R) : Rc × R × W :=
  match fileInstall e w r false with
  | (.err x, r, w) => (.err x, r, w)
  | (.ub, r, w) => (.ub, r, w)
  | (.ok (), r, w) =>
    match fileInstall e w r true with
    | (.err x, r, w) => (.err x, r, w)
    | (.ub, r, w) => (.ub, r, w)
    | (.ok (), r, w) => (.ok .finished, { r with state := .eof }, w)

/-- `ca_remote_process_abort`, src/caremote.c:1400-1408. -/
def processAbort (error : Nat) : Rc := if error ≠ 0 then .peer error else .err .ECONNABORTED

/-- The conditions under which the switch of `ca_remote_process_message` looks at a frame of a given type at all, in the
order of src/caremote.c:1587-1741; `none` is an unknown type. -/
def allowed (r : R) (type : Nat) : Option Bool :=
  if type = HELLO then some (r.state = .hello)
  else if type = INDEX ∨ type = INDEX_EOF then
    some (r.state = .running && (has r.localFlags PULL_INDEX || has r.remoteFlags PUSH_INDEX))
  else if type = ARCHIVE ∨ type = ARCHIVE_EOF then
    some (r.state = .running && (has r.localFlags PULL_ARCHIVE || has r.remoteFlags PUSH_ARCHIVE))
  else if type = REQUEST then
    some (r.state = .running && (has r.localFlags PUSH_CHUNKS || has r.remoteFlags PULL_CHUNKS))
  else if type = CHUNK ∨ type = MISSING then
    some (r.state = .running && (has r.localFlags PULL_CHUNKS || has r.remoteFlags PUSH_CHUNKS))
  else if type = GOODBYE then some (r.state = .running)
  else if type = ABORT then some true
  else none

/-- The validator of the switch for a type. -/
def validate (type : Nat) (f : Bytes) : Res (Option Msg) :=
  if type = HELLO then validateHello f
  else if type = INDEX then validateFile INDEX false f
  else if type = INDEX_EOF then validateFileEof INDEX_EOF false f
  else if type = ARCHIVE then validateFile ARCHIVE true f
  else if type = ARCHIVE_EOF then validateFileEof ARCHIVE_EOF true f
  else if type = REQUEST then validateRequest f
  else if type = CHUNK then validateChunk f
  else if type = MISSING then validateMissing f
  else if type = GOODBYE then validateGoodbye f
  else validateAbort f

/-- The process functions of the switch, src/caremote.c:1587-1741. -/
def process {W} (e : World W) (w : W) (r : R) : Msg → Rc × R × W
  | .hello flags => ((processHello r flags).1, (processHello r flags).2, w)
  | .file a data => processFile e w r a data
  | .fileEof a => ((processFileEof r a).1, (processFileEof r a).2, w)
  | .request high ids => ((processRequest r high ids).1, (processRequest r high ids).2, w)
  | .chunk id c data => processChunk e w r id c data
  | .missing id => processMissing e w r id
  | .goodbye => processGoodbye e w r
  | .abort error _ => (processAbort error, r, w)

/-- The switch of `ca_remote_process_message`, src/caremote.c:1586-1743, on a complete frame. -/
def dispatch {W} (e : World W) (w : W) (r : R) (f : Bytes) : Rc × R × W :=
  match rd f 8 with
  | .ok type =>
    match allowed r type with
    | none => (.err .EBADMSG, r, w)
    | some false => (.err .EBADMSG, r, w)
    | some true =>
      match validate type f with
      | .ok (some m) => process e w r m
      | .ok none => (.err .EBADMSG, r, w)
      | .err x => (.err x, r, w)
      | .ub => (.ub, r, w)
  | .err x => (.err x, r, w)
  | .ub => (.ub, r, w)

/-- `ca_remote_process_message`, src/caremote.c:1550-1756. -/
def processMessage {W} (e : World W) (w : W) (r : R) : Rc × R × W :=
  if r.state = .eof then (.ok .poll, r, w)
  else if r.input.length < 16 then (.ok .poll, r, w)
  else
    match rd r.input 0 with
    | .err x => (.err x, r, w)
    | .ub => (.ub, r, w)
    | .ok size =>
      if size < SIZE_MIN then (.err .EBADMSG, r, w)
      else if size > SIZE_MAX then (.err .EBADMSG, r, w)
      else if r.input.length < size then (.ok .poll, { r with frameSize := size }, w)
      else
        match dispatch e w r (r.input.take size) with
        | (.ok s, r', w') => (.ok s, { r' with input := r'.input.drop size, frameSize := 0 }, w')
        | x => x

/-- `ca_remote_get_read_size`, src/caremote.c:350-358. -/
def readSize (r : R) : Nat := max r.frameSize BUFFER_SIZE

/-- `ca_remote_read`, src/caremote.c:1111-1137: `got` is what `read` delivers of the bytes that are there (`none`: there are none
now, `EAGAIN`); an empty answer is the end of the connection. -/
def read (r : R) (got : Option Bytes) : Rc × R :=
  if r.input.length ≥ readSize r then (.ok .poll, r)
  else
    let left := readSize r - r.input.length
    match got with
    | none => (.ok .poll, r)
    | some d =>
      if d.length > left then (.ub, r)
      else if d = [] then (.err .EPIPE, r)
      else (.ok .step, { r with input := r.input ++ d })

/-- `ca_remote_write`, src/caremote.c:1139-1157: `n` is what `write` accepted (`none`: `EAGAIN`). -/
def write (r : R) (n : Option Nat) : Rc × R :=
  if r.output = [] then (.ok .poll, r)
  else match n with
    | none => (.ok .poll, r)
    | some n =>
      if n > r.output.length then (.ub, r)
      else
        let r := { r with output := r.output.drop n }
        if r.sentGoodbye && r.output = [] then (.ok .finished, r) else (.ok .step, r)

/-- `ca_remote_send_hello`, src/caremote.c:1758-1776. -/
def sendHello (r : R) : Rc × R :=
  if r.sentHello then (.ok .poll, r)
  else (.ok .step, { r with output := r.output ++ (le64 24 ++ le64 HELLO ++ le64 r.localFlags), sentHello := true })

/-- `ca_remote_send_file`, src/caremote.c:1778-1839, with `ca_remote_send_index` and `_archive` (1841-1869): `got` is what
`read` delivers from the file, at most 64K; nothing at its end. -/
def sendFile (r : R) (archive : Bool) (got : Res Bytes) : Rc × R :=
  if !sendsFile r archive then
    (.ok .poll, r)
  else if r.state ≠ .running then (.ok .poll, r)
  else if (r.file archive).complete then (.ok .poll, r)
  else if r.output.length > BUFFER_LOW then (.ok .poll, r)
  else if !(r.file archive).fd then (.ok (if archive then .writeArchive else .writeIndex), r)
  else match got with
    | .err x => (.err x, r)
    | .ub => (.ub, r)
    | .ok d =>
      if d.length > ChunkFile.BUF then (.ub, r)
      else if d = [] then
        let r := { r with output := r.output ++ (le64 16 ++ le64 (if archive then ARCHIVE_EOF else INDEX_EOF)) }
        (.ok .step, r.setFile archive { r.file archive with complete := true })
      else
        (.ok .step, { r with output := r.output ++ (le64 (16 + d.length) ++ le64 (if archive then ARCHIVE else INDEX) ++ d) })

/-- The frame `ca_remote_send_request` builds: src/caremote.c:1893-1925. -/
def requestFrame (high : Bool) (ids : List Bytes) : Bytes :=
  le64 (24 + 32 * ids.length) ++ le64 REQUEST ++ le64 (if high then 1 else 0) ++ ids.flatten

/-- The loop of `ca_remote_send_request`, src/caremote.c:1889-1931: `ids` are in the frame already, `first` is the priority in its
header, `only` is `only_high_priority`. Every turn adds one id, and the loop ends when the frame has 64K, so the fuel
suffices. -/
def requestLoop : Nat → Q → (first only : Option Bool) → List Bytes → Res Unit × Option Bool × List Bytes × Q
  | 0, q, first, _, ids => (.ub, first, ids, q)
  | fuel + 1, q, first, only, ids =>
    match dequeue q only with
    | (.err .ENODATA, q) => (.ok (), first, ids, q)
    | (.err e, q) => (.err e, first, ids, q)
    | (.ub, q) => (.ub, first, ids, q)
    | (.ok (id, hp), q) =>
      if 24 + 32 * (ids ++ [id]).length ≥ ChunkFile.BUF then (.ok (), first.or (some hp), ids ++ [id], q)
      else requestLoop fuel q (first.or (some hp)) (some hp) (ids ++ [id])

/-- `ca_remote_send_request`, src/caremote.c:1871-1934. -/
def sendRequest (r : R) : Rc × R :=
  if !has r.remoteFlags PUSH_INDEX_CHUNKS && !has r.localFlags PULL_CHUNKS then (.ok .poll, r)
  else if r.state ≠ .running then (.ok .poll, r)
  else if r.output.length > BUFFER_LOW then (.ok .poll, r)
  else
    let x := requestLoop 4096 r.queue none none []
    let r := { r with queue := x.2.2.2,
                      output := if x.2.2.1 = [] then r.output else r.output ++ requestFrame (x.2.1.getD false) x.2.2.1 }
    match x.1 with
    | .err e => (.err e, r)
    | .ub => (.ub, r)
    | .ok () => (.ok (if x.2.2.1 = [] then .poll else .step), r)

/-- `ca_remote_can_put_chunk`, src/caremote.c:2204-2223. -/
def canPutChunk (r : R) : Res Bool :=
  if r.state = .eof then .err .EPIPE
  else if !has r.remoteFlags PULL_CHUNKS && !has r.localFlags PUSH_CHUNKS then .ok false
  else if r.state ≠ .running then .ok false
  else if r.output.length > BUFFER_LOW then .ok false
  else .ok true

/-- `ca_remote_put_chunk`, src/caremote.c:2225-2277. -/
def putChunk (r : R) (id : Bytes) (c : Compression) (data : Bytes) : Res Unit × R :=
  if data.length < 1 then (.err .EINVAL, r)
  else if data.length > ChunkFile.MAX then (.err .EINVAL, r)
  else if c = .asIs then (.err .EINVAL, r)
  else if !has r.remoteFlags PULL_CHUNKS && !has r.localFlags PUSH_CHUNKS then (.err .ENOTTY, r)
  else match canPutChunk r with
    | .err e => (.err e, r)
    | .ub => (.ub, r)
    | .ok false => (.err .EAGAIN, r)
    | .ok true =>
      if 56 + data.length > SIZE_MAX then (.err .EFBIG, r)
      else (.ok (), { r with output := r.output ++
        (le64 (56 + data.length) ++ le64 CHUNK ++ le64 (if c = .compressed then 1 else 0) ++ id ++ data) })

/-- `ca_remote_put_missing`, src/caremote.c:2279-2308. -/
def putMissing (r : R) (id : Bytes) : Res Unit × R :=
  if !has r.remoteFlags PULL_CHUNKS && !has r.localFlags PUSH_CHUNKS then (.err .ENOTTY, r)
  else match canPutChunk r with
    | .err e => (.err e, r)
    | .ub => (.ub, r)
    | .ok false => (.err .EAGAIN, r)
    | .ok true => (.ok (), { r with output := r.output ++ (le64 48 ++ le64 MISSING ++ id) })

/-- `ca_remote_file_can_put`, src/caremote.c:2310-2326, behind the test of `ca_remote_can_put_index` / `_archive` (2328-2339,
2467-2478). -/
def canPutFile (r : R) (archive : Bool) : Res Bool :=
  if !sendsFile r archive then
    .ok false
  else if r.state = .eof then .err .EPIPE
  else if (r.file archive).complete then .err .EBUSY
  else if r.state ≠ .running then .ok false
  else if r.output.length > BUFFER_LOW then .ok false
  else .ok true

/-- `ca_remote_put_index` and `ca_remote_put_archive` (src/caremote.c:2366-2387, 2480-2501) with `ca_remote_file_put` (2341-2364). -/
def putFile (r : R) (archive : Bool) (data : Bytes) : Res Unit × R :=
  if data.length = 0 then (.err .EINVAL, r)
  else if !sendsFile r archive then
    (.err .ENOTTY, r)
  else match canPutFile r archive with
    | .err e => (.err e, r)
    | .ub => (.ub, r)
    | .ok false => (.err .EAGAIN, r)
    | .ok true =>
      if 16 + data.length > SIZE_MAX then (.err .EFBIG, r)
      else (.ok (), { r with output := r.output ++ (le64 (16 + data.length) ++ le64 (if archive then ARCHIVE else INDEX) ++ data) })

/-- `ca_remote_put_index_eof` and `ca_remote_put_archive_eof` (src/caremote.c:2407-2424, 2503-2520) with `ca_remote_file_put_eof`
(2389-2405). -/
def putFileEof (r : R) (archive : Bool) : Res Unit × R :=
  if !sendsFile r archive then
    (.err .ENOTTY, r)
  else match canPutFile r archive with
    | .err e => (.err e, r)
    | .ub => (.ub, r)
    | .ok false => (.err .EAGAIN, r)
    | .ok true =>
      let r := { r with output := r.output ++ (le64 16 ++ le64 (if archive then ARCHIVE_EOF else INDEX_EOF)) }
      (.ok (), r.setFile archive { r.file archive with complete := true })

/-- `ca_remote_file_read` behind the test of `ca_remote_read_index` / `_archive`, src/caremote.c:2426-2465, 2522-2535: `none` is
the end of the file. -/
def readFile (r : R) (archive : Bool) : Res (Option Bytes) :=
  if !receivesFile r archive then
    .err .ENOTTY
  else
    let f := r.file archive
    if f.fd then .err .ENOTTY
    else if f.buffer = [] then (if f.complete then .ok none else .err .EAGAIN)
    else .ok (some f.buffer)

/-- `ca_remote_goodbye`, src/caremote.c:2537-2566. -/
def goodbye {W} (e : World W) (w : W) (r : R) : Res Unit × R × W :=
  if r.state = .eof then (.err .EPIPE, r, w)
  else if r.sentGoodbye then (.err .EALREADY, r, w)
  else match fileInstall e w r false with
    | (.err x, r, w) => (.err x, r, w)
    | (.ub, r, w) => (.ub, r, w)
    | (.ok (), r, w) =>
      match fileInstall e w r true with
      | (.err x, r, w) => (.err x, r, w)
      | (.ub, r, w) => (.ub, r, w)
      | (.ok (), r, w) => (.ok (), { r with output := r.output ++ (le64 16 ++ le64 GOODBYE), sentGoodbye := true }, w)

/-- `ca_remote_abort`, src/caremote.c:2568-2597; `message` is a C string without its final zero. -/
def abort (r : R) (error : Nat) (message : Bytes) : Res Unit × R :=
  if error ≥ 2 ^ 31 - 1 then (.err .EINVAL, r)
  else if r.state = .eof then (.err .EPIPE, r)
  else if r.sentGoodbye then (.err .EALREADY, r)
  else (.ok (), { r with output := r.output ++ (le64 (24 + message.length + 1) ++ le64 ABORT ++ le64 error ++ message ++ [0]),
                         sentGoodbye := true })

/-- `ca_remote_file_open`, src/caremote.c:887-923: `ok` is the result of `open`. -/
def fileOpen (r : R) (archive writable : Bool) (ok : Res Unit) : Res Unit × R :=
  let f := r.file archive
  if r.state ≠ .running then (.ok (), r)
  else if f.fd then (.ok (), r)
  else if !f.path then (.ok (), r)
  else
    let f := if writable then { f with temp := true } else f
    match ok with
    | .ok () => (.ok (), r.setFile archive { f with fd := true })
    | .err e => (.err e, r.setFile archive f)
    | .ub => (.ub, r.setFile archive f)

/-- src/caremote.c:1078-1091 and 1093-1106, the part of `ca_remote_start` that opens one of the two files. -/
def openIfWanted (r : R) (archive : Bool) (ok : Res Unit) : Res Unit × R :=
  if sendsFile r archive then
    fileOpen r archive false ok
  else if receivesFile r archive then
    fileOpen r archive true ok
  else (.ok (), r)

/-- `ca_remote_start`, src/caremote.c:925-1109, on an object that is connected (lines 945-1075, starting the peer, are not
modelled). -/
def start (r : R) (okIndex okArchive : Res Unit) : Rc × R :=
  if r.localFlags = NO_FLAGS then (.err .EUNATCH, r)
  else if has r.localFlags READABLE_INDEX && has r.localFlags WRITABLE_INDEX then (.err .EINVAL, r)
  else if has r.localFlags READABLE_ARCHIVE && has r.localFlags WRITABLE_ARCHIVE then (.err .EINVAL, r)
  else match openIfWanted r false okIndex with
    | (.err e, r) => (.err e, r)
    | (.ub, r) => (.ub, r)
    | (.ok (), r) => match openIfWanted r true okArchive with
      | (.err e, r) => (.err e, r)
      | (.ub, r) => (.ub, r)
      | (.ok (), r) => (.ok .poll, r)

/-- The buffers that `ca_remote_step` empties first, src/caremote.c:1944-1945. -/
def clearBuffers (r : R) : R := { r with index := { r.index with buffer := [] }, archive := { r.archive with buffer := [] } }

/-- What the system calls of one `ca_remote_step` answer: opening the two files, reading from them, `write` to and `read` from
the peer. -/
structure Answers where
  openIndex : Res Unit
  openArchive : Res Unit
  indexData : Res Bytes
  archiveData : Res Bytes
  accepted : Option Nat
  got : Option Bytes

/-- `ca_remote_step`, src/caremote.c:1936-1980: the parts run until one of them has something else to say than "poll". -/
def step' {W} (e : World W) (w : W) (r : R) (a : Answers) : Rc × R × W :=
  if r.state = .eof then (.err .EPIPE, r, w)
  else
    let r := clearBuffers r
    let x := start r a.openIndex a.openArchive
    if x.1 ≠ .ok .poll then (x.1, x.2, w)
    else
    let x := write x.2 a.accepted
    if x.1 ≠ .ok .poll then (x.1, x.2, w)
    else
    let x := sendHello x.2
    if x.1 ≠ .ok .poll then (x.1, x.2, w)
    else
    let y := processMessage e w x.2
    if y.1 ≠ .ok .poll then y
    else
    let w := y.2.2
    let x := sendRequest y.2.1
    if x.1 ≠ .ok .poll then (x.1, x.2, w)
    else
    let x := sendFile x.2 false a.indexData
    if x.1 ≠ .ok .poll then (x.1, x.2, w)
    else
    let x := sendFile x.2 true a.archiveData
    if x.1 ≠ .ok .poll then (x.1, x.2, w)
    else
    let x := read x.2 a.got
    (x.1, x.2, w)

/-- Calls of the functions above, alone or as part of `ca_remote_step`. No repo lines: histories are what the properties range
over. -/
inductive Act
  | clear
  | start (okIndex okArchive : Res Unit)
  | write (n : Option Nat)
  | sendHello
  | message
  | sendRequest
  | sendFile (archive : Bool) (got : Res Bytes)
  | read (got : Option Bytes)
  | putChunk (id : Bytes) (c : Compression) (data : Bytes)
  | putMissing (id : Bytes)
  | putFile (archive : Bool) (data : Bytes)
  | putFileEof (archive : Bool)
  | goodbye
  | abort (error : Nat) (message : Bytes)
  | queue (o : Op)

/-- The result as an errno or success. No repo lines. -/
def Rc.ofRes : Res Unit → Rc
  | .ok () => .ok .step
  | .err e => .err e
  | .ub => .ub

/-- One call. For queue operations only the effect is of interest here. No repo lines. -/
def act {W} (e : World W) (w : W) (r : R) : Act → Rc × R × W
  | .clear => (.ok .poll, clearBuffers r, w)
  | .start a b => ((Remote.start r a b).1, (Remote.start r a b).2, w)
  | .write n => ((Remote.write r n).1, (Remote.write r n).2, w)
  | .sendHello => ((Remote.sendHello r).1, (Remote.sendHello r).2, w)
  | .message => processMessage e w r
  | .sendRequest => ((Remote.sendRequest r).1, (Remote.sendRequest r).2, w)
  | .sendFile a d => ((Remote.sendFile r a d).1, (Remote.sendFile r a d).2, w)
  | .read d => ((Remote.read r d).1, (Remote.read r d).2, w)
  | .putChunk id c d => (.ofRes (Remote.putChunk r id c d).1, (Remote.putChunk r id c d).2, w)
  | .putMissing id => (.ofRes (Remote.putMissing r id).1, (Remote.putMissing r id).2, w)
  | .putFile a d => (.ofRes (Remote.putFile r a d).1, (Remote.putFile r a d).2, w)
  | .putFileEof a => (.ofRes (Remote.putFileEof r a).1, (Remote.putFileEof r a).2, w)
  | .goodbye => (.ofRes (Remote.goodbye e w r).1, (Remote.goodbye e w r).2.1, (Remote.goodbye e w r).2.2)
  | .abort x m => (.ofRes (Remote.abort r x m).1, (Remote.abort r x m).2, w)
  | .queue o => (.ok .step, { r with queue := (Remote.step r.queue o).2 }, w)

/-- A new object with its configuration, src/caremote.c:95-121. -/
def R.new (localFlags : Nat) (indexPath archivePath : Bool) : R :=
  ⟨.hello, localFlags, NO_FLAGS, [], 0, [], ⟨false, indexPath, false, [], false⟩, ⟨false, archivePath, false, [], false⟩, Q.new, none,
    false, false⟩

end Casync.Remote
