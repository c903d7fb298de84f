import Verif.Model.SyncRead
/-!
Model of `casync mkdev`: the block device object (`src/canbd.c`), the decoder of a naked file (`src/cadecoder.c`, the states it has in
this use), the synchronizer around it (`src/casync.c`) and the loop of the tool (`src/casync-tool.c`).
-/
namespace Casync.Nbd
open Casync

/-! ### Big endian numbers -/

/-- `htobe32`, `htobe64`: `k` bytes, most significant first. No repo lines. -/
def beN (k n : Nat) : Bytes := (leN k n).reverse

/-- `be32toh`, `be64toh`. No repo lines. -/
def rdBE (b : Bytes) : Nat := rdLE b.reverse

/-! ### The block device object -/

/-- `NBD_REQUEST_MAGIC` of `<linux/nbd.h>`, used at src/canbd.c:440. -/
def requestMagic : Nat := 0x25609513

/-- `NBD_REPLY_MAGIC` of `<linux/nbd.h>`, used at src/canbd.c:484. -/
def replyMagic : Nat := 0x67446698

/-- `struct CaBlockDevice`, src/canbd.c:23-40: `last_request` (`struct nbd_request`: magic, type, handle, from, len, 28 bytes), `size`,
and whether the device is open (`device_fd`). The names of the device are not modelled. -/
structure Device where
  last : Bytes := List.replicate 28 0
  size : Nat := 0
  isOpen : Bool := false

/-- `last_request.magic`, as read by `ca_block_device_step`, src/canbd.c:426. -/
def Device.magic (d : Device) : Nat := rdBE (d.last.take 4)
/-- `last_request.type`, src/canbd.c:443. -/
def Device.type (d : Device) : Nat := rdBE ((d.last.drop 4).take 4)
/-- `last_request.handle`, src/canbd.c:504. -/
def Device.handle (d : Device) : Bytes := (d.last.drop 8).take 8
/-- `last_request.from`, src/canbd.c:465. -/
def Device.start (d : Device) : Nat := rdBE ((d.last.drop 16).take 8)
/-- `last_request.len`, src/canbd.c:446, 478. -/
def Device.len (d : Device) : Nat := rdBE ((d.last.drop 24).take 4)

/-- `ca_block_device_set_size`, src/canbd.c:87-100. -/
def setSize (d : Device) (size : Nat) : Res Device :=
  if size = 0 then .err .EINVAL
  else if size % 512 ≠ 0 then .err .EINVAL
  else if d.isOpen then .err .EBUSY
  else .ok { d with size := size }

/-- `ca_block_device_open`, src/canbd.c:273-418, without the search for a free device. The kernel is told blocks of 512 bytes (371) and
`size / 512` of them (376); the number of bytes of the device is the product. `fails`: one of the calls fails. -/
def openDevice (d : Device) (fails : Option Errno) : Res (Nat × Device) :=
  if d.isOpen then .err .EBUSY
  else if d.size = 0 then .err .EUNATCH
  else
    match fails with
    | some e => .err e
    | none => .ok (512 * (d.size / 512), { d with isOpen := true })

/-- Results of `ca_block_device_step`, src/canbd.h:10-14. `CA_BLOCK_DEVICE_CLOSED` is never delivered. -/
inductive DevOut
  | poll | request
  deriving DecidableEq, Repr

/-- `ca_block_device_step`, src/canbd.c:420-454. `input` is the answer of `read`: at most 28 bytes, or an error. The object is delivered also in
case of an error, because the call may have stored something in `last_request`. -/
def devStep (d : Device) (input : Res Bytes) : Res DevOut × Device :=
  if d.magic ≠ 0 then (.ok .request, d)
  else
    match input with
    | .ub => (.ub, d)
    | .err e => if e = .EAGAIN then (.ok .poll, d) else (.err e, d)
    | .ok b =>
      let d' := { d with last := b.take 28 ++ d.last.drop (b.take 28).length }
      if (b.take 28).length ≠ 28 then (.err .EBADMSG, d')
      else if d'.magic ≠ requestMagic then (.err .EBADMSG, d')
      else if d'.type ≠ 0 then (.err .EBADMSG, d')
      else if d'.len = 0 then (.err .EBADMSG, d')
      else (.ok .request, d')

/-- `ca_block_device_get_request_offset`, src/canbd.c:456-467. -/
def getRequestOffset (d : Device) : Res Nat := if d.magic = 0 then .err .ENODATA else .ok d.start

/-- `ca_block_device_get_request_size`, src/canbd.c:469-480. -/
def getRequestSize (d : Device) : Res Nat := if d.magic = 0 then .err .ENODATA else .ok d.len

/-- `loop_write_block` twice, src/canbd.c:506-512 and src/util.c:48-82. `fails`: after so many bytes a write or a poll fails. Delivers
what was written. -/
def writeReply (reply data : Bytes) (fails : Option (Nat × Errno)) : Bytes × Res Unit :=
  match fails with
  | none => (reply ++ data, .ok ())
  | some (n, e) => if n < (reply ++ data).length then ((reply ++ data).take n, .err e) else (reply ++ data, .ok ())

/-- `ca_block_device_put_data`, src/canbd.c:482-516. Delivers the bytes written to the socket. -/
def putData (d : Device) (offset : Nat) (data : Bytes) (fails : Option (Nat × Errno)) : Bytes × Res Device :=
  if data.length = 0 then ([], .err .EINVAL)
  else if d.magic = 0 then ([], .err .EBADR)
  else if offset ≠ d.start then ([], .err .EBADR)
  else if data.length ≠ d.len then ([], .err .EBADR)
  else
    match writeReply (beN 4 replyMagic ++ beN 4 0 ++ d.handle) data fails with
    | (w, .ok _) => (w, .ok { d with last := List.replicate 28 0 })
    | (w, .err e) => (w, .err e)
    | (w, .ub) => (w, .ub)

/-! ### The decoder of a naked file -/

/-- The states of `CaDecoder` that occur for a naked file, src/cadecoder.c:106-160. `FINALIZE` is passed within one call. -/
inductive DState
  | init | payload | prepSeek | seeking | nowhere | eof
  deriving DecidableEq, Repr

/-- The fields of `struct CaDecoder`, src/cadecoder.c:162-257, that matter for a naked file: `state`, `buffer`, `step_size`, `eof`,
`payload_offset`, `archive_offset`, `seek_offset`, and `end_offset` of the only node. The size of that node is unknown (`UINT64_MAX`), it has no
file descriptor (`mkdev` sets no base). Digests and origins are not modelled here. -/
structure Naked where
  state : DState := .init
  buf : Bytes := []
  stepSize : Nat := 0
  gotEof : Bool := false
  payloadOff : Nat := 0
  archiveOff : Nat := 0
  seekOff : Option Nat := none
  endOff : Option Nat := none

/-- The results of `ca_decoder_step` that occur for a naked file, src/cadecoder.h:16-40. -/
inductive DOut
  | finished | payload | request | seek | notFound
  deriving DecidableEq, Repr

/-- `ca_decoder_advance_buffer`, src/cadecoder.c:4378-4441. -/
def advance (d : Naked) : Res Naked :=
  if d.stepSize = 0 then .ok d
  else if d.buf.length < d.stepSize then .ub
  else .ok { d with
    payloadOff := if d.state = .payload then d.payloadOff + d.stepSize else d.payloadOff
    buf := d.buf.drop d.stepSize
    archiveOff := d.archiveOff + d.stepSize
    stepSize := 0 }

/-- `ca_decoder_step_node` in state `IN_PAYLOAD`, src/cadecoder.c:4125-4189, with `FINALIZE` (4220-4246) at the top level. -/
def payloadStep (d : Naked) : DOut × Naked :=
  if d.buf ≠ [] then (.payload, { d with stepSize := d.buf.length })
  else if d.gotEof then (.finished, { d with state := .eof })
  else (.request, d)

/-- `ca_decoder_step_node`, src/cadecoder.c:4056-4374: `INIT` (4067-4075), `IN_PAYLOAD` (4125-4189), `PREPARING_SEEK_TO_OFFSET` (4248-4260) with
`ca_decoder_apply_seek_offset` (4045-4054), `SEEKING_TO_OFFSET` (4262-4273), `NOWHERE` (4368-4369). -/
def stepNode (d : Naked) : Res (DOut × Naked) :=
  match d.state with
  | .init => .ok (payloadStep { d with state := .payload })
  | .payload => .ok (payloadStep d)
  | .prepSeek =>
    match d.seekOff with
    | none => .ub
    | some o => .ok (.seek, { d with state := .seeking, archiveOff := o, stepSize := 0, gotEof := false, buf := [] })
  | .seeking =>
    match d.seekOff with
    | none => .ub
    | some o => .ok (payloadStep { d with state := .payload, payloadOff := o, seekOff := none })
  | .nowhere => .ok (.notFound, d)
  | .eof => .ub

/-- `ca_decoder_step`, src/cadecoder.c:4443-4463. -/
def decStep (d : Naked) : Res (DOut × Naked) :=
  if d.state = .eof then .ok (.finished, d)
  else advance d >>= stepNode

/-- `ca_decoder_put_data`, src/cadecoder.c:4476-4512. -/
def decPut (d : Naked) (b : Bytes) : Res Naked :=
  if b = [] then .ok d
  else if d.gotEof then .err .EBUSY
  else .ok { d with buf := d.buf ++ b }

/-- `ca_decoder_put_eof`, src/cadecoder.c:4514-4520. -/
def decPutEof (d : Naked) : Naked := { d with gotEof := true }

/-- `ca_decoder_get_payload`, src/cadecoder.c:4522-4556. -/
def decPayload (d : Naked) : Res Bytes :=
  if d.state ≠ .payload then .err .ENODATA
  else if d.buf = [] then .err .ENODATA
  else if d.stepSize = 0 then .err .ENODATA
  else if d.buf.length < d.stepSize then .ub
  else .ok (d.buf.take d.stepSize)

/-- `ca_decoder_get_seek_offset`, src/cadecoder.c:5178-5203. -/
def decSeekOffset (d : Naked) : Res Nat :=
  if d.state ≠ .seeking then .err .ENODATA
  else
    match d.seekOff with
    | none => .err .ENODATA
    | some o => .ok o

/-- `ca_decoder_seek_offset`, src/cadecoder.c:5031-5066. -/
def decSeek (d : Naked) (offset : Nat) : Res Naked :=
  if offset = u64max then .err .EINVAL
  else
    match d.endOff with
    | none => .err .ESPIPE
    | some n =>
      if offset > n then .ok { d with state := .nowhere }
      else if offset = n then .ok { d with state := .eof }
      else .ok { d with state := .prepSeek, seekOff := some offset }

/-! ### The synchronizer -/

/-- Where the image comes from: chunks by an index (`s->index`), of which the part `pending` is still to come from a remote side, or a plain file
(`s->archive_fd`) at position `pos`; `regular` is `S_ISREG`. src/casync.c:2321-2480, 3900-3934. The content of the file does not change. -/
inductive Source
  | index (r : Sync.Reader) (pending : Bytes)
  | file (content : Bytes) (regular : Bool) (pos : Nat)

/-- `BUFFER_SIZE`, src/util.h:17. -/
def bufferSize : Nat := 65536

/-- What the outside does in a call of `ca_sync_step`: the decoder runs (with the answers of the chunk sources, and for a plain file the number of
bytes of a short read or an error), the prefetch pass runs, a part of a remote index or its end comes, or something else happens
that does not concern the decoder (seeds, network traffic). src/casync.c:3195-3237. -/
inductive Choice
  | decode (ready : Bool) (answer : Bytes → Res Bytes) (short : Nat) (ioError : Option Errno)
  | prefetch (ready : Bool) (has : Bytes → Res Bool) (ask : Bytes → Res Unit)
  | arrive (n : Nat)
  | arriveEof
  | other

/-- `ca_sync_process_decoder_request`, src/casync.c:2321-2480. A read delivers at least one byte unless the file is at its end. -/
def srcRequest (s : Source) (ready : Bool) (answer : Bytes → Res Bytes) (short : Nat) (ioError : Option Errno) : Res (Sync.Out × Source) :=
  match s with
  | .index r p => Sync.request r ready answer >>= fun x => .ok (x.1, .index x.2 p)
  | .file c g pos =>
    match ioError with
    | some e => .err e
    | none =>
      let b := (c.drop pos).take (min (max short 1) bufferSize)
      if b = [] then .ok (.eof, s) else .ok (.data b, .file c g (pos + b.length))

/-- `ca_sync_process_decoder_seek` without resetting flags, src/casync.c:2512-2535. -/
def srcSeek (s : Source) (offset : Nat) : Res Source :=
  match s with
  | .index r p => Sync.seekTo r offset >>= fun x => .ok (.index x.2 p)
  | .file c g _ => if offset ≥ 2 ^ 63 then .err .EINVAL else .ok (.file c g offset)

/-- The size of the image, src/casync.c:3909-3926. -/
def srcSize (s : Source) : Res (Nat × Source) :=
  match s with
  | .index r p => Index.getBlobSize r.index >>= fun x => .ok (x.1, .index { r with index := x.2 } p)
  | .file c g pos => if g then .ok (c.length, .file c g pos) else .err .ESPIPE

/-- `ca_sync_reset_seek`, src/casync.c:2496-2505, as far as it concerns the source. -/
def srcReset (s : Source) : Source :=
  match s with
  | .index r p => .index { r with next := none, skip := 0 } p
  | .file c g pos => .file c g pos

/-- The fields of `struct CaSync` used here, src/casync.c:60-190: the source, the decoder, `archive_eof`, `archive_size`. -/
structure Syncer where
  src : Source
  dec : Naked := {}
  archiveEof : Bool := false
  archiveSize : Option Nat := none

/-- The results of `ca_sync_step` that occur here, src/casync.h:20-40. -/
inductive SOut
  | finished | step | payload | poll | notFound
  deriving DecidableEq, Repr

/-- The switch of `ca_sync_step_decode`, src/casync.c:2635-2679, with `ca_sync_process_decoder_seek` (2507-2536). `ca_sync_install_base` does nothing
without a base. -/
def dispatch (s : Syncer) (ready : Bool) (answer : Bytes → Res Bytes) (short : Nat) (ioError : Option Errno) (o : DOut) (d : Naked) : Res (SOut × Syncer) :=
  match o with
  | .finished => .ok (.finished, { s with dec := d, archiveEof := true })
  | .payload => .ok (.payload, { s with dec := d })
  | .notFound => .ok (.notFound, { s with dec := d })
  | .request =>
    srcRequest s.src ready answer short ioError >>= fun y =>
    match y.1 with
    | .wait => .ok (.poll, { s with dec := d, src := y.2 })
    | .data b => decPut d b >>= fun d => .ok (.step, { s with dec := d, src := y.2 })
    | .eof => .ok (.step, { s with dec := decPutEof d, src := y.2 })
    | .done _ => .ub
  | .seek =>
    decSeekOffset d >>= fun o =>
    srcSeek (srcReset s.src) o >>= fun src => .ok (.step, { s with dec := d, src := src, archiveEof := false })

/-- `ca_sync_step_decode`, src/casync.c:2619-2680. -/
def stepDecode (s : Syncer) (ready : Bool) (answer : Bytes → Res Bytes) (short : Nat) (ioError : Option Errno) : Res (SOut × Syncer) :=
  if s.archiveEof then .err .EPIPE
  else decStep s.dec >>= fun x => dispatch s ready answer short ioError x.1 x.2

/-- What other parts of `ca_sync_step` do to the source: `ca_sync_remote_prefetch` (src/casync.c:2785-2870) and the arrival of index data
(2923-3000). -/
def srcOther (s : Source) : Choice → Res Source
  | .prefetch ready has ask =>
    match s with
    | .index r p => Sync.step r (.prefetch ready has ask) >>= fun x => .ok (.index x.2 p)
    | .file c g pos => .ok (.file c g pos)
  | .arrive n =>
    match s with
    | .index r p => Sync.step r (.arrive (p.take n)) >>= fun x => .ok (.index x.2 (p.drop n))
    | .file c g pos => .ok (.file c g pos)
  | .arriveEof =>
    match s with
    | .index r p => if p = [] then Sync.step r .arriveEof >>= fun x => .ok (.index x.2 p) else .ok (.index r p)
    | .file c g pos => .ok (.file c g pos)
  | .decode _ _ _ _ => .ok s
  | .other => .ok s

/-- `ca_sync_step`, src/casync.c:3195-3237: one of the things it may do. Its fixed order of attempts is one of the orders that `Choice` allows. -/
def syncStep (s : Syncer) : Choice → Res (SOut × Syncer)
  | .decode ready answer short ioError => stepDecode s ready answer short ioError
  | c => srcOther s.src c >>= fun src => .ok (.step, { s with src := src })

/-- `ca_sync_acquire_archive_size`, src/casync.c:3900-3934, and `ca_decoder_set_archive_size`, src/cadecoder.c:5224-5234. -/
def acquireSize (s : Syncer) : Res (Nat × Syncer) :=
  match s.archiveSize with
  | some n => .ok (n, s)
  | none =>
    srcSize s.src >>= fun x => .ok (x.1, { s with src := x.2, archiveSize := some x.1, dec := { s.dec with endOff := some x.1 } })

/-- `ca_sync_seek_offset`, src/casync.c:3936-3965. -/
def seekOffset (s : Syncer) (offset : Nat) : Res Syncer :=
  if offset = u64max then .err .EINVAL
  else
    acquireSize s >>= fun x =>
    decSeek x.2.dec offset >>= fun d =>
    .ok { x.2 with dec := d, archiveEof := false, src := srcReset x.2.src }

/-! ### The tool -/

/-- Where `verb_mkdev` is: in its first loop (src/casync-tool.c:2977-3033), at the head of its second loop (3096-3198), or in the loop that
collects the data for a request (3222-3339). -/
inductive Phase
  | sizing
  | waiting
  | serving (offset size : Nat) (buffer : Bytes)

/-- The state of `verb_mkdev`, src/casync-tool.c:2819-2845. -/
structure Tool where
  sync : Syncer
  dev : Device := {}
  phase : Phase := .sizing

/-- What can be seen from the outside: the device appears with so many bytes, a message was read from the socket, bytes were
written to the socket. No repo lines. -/
inductive Obs
  | attached (n : Nat)
  | received (msg : Bytes)
  | wrote (b : Bytes)
  deriving DecidableEq, Repr

/-- What the outside does in one round of the loops. No repo lines. -/
structure Env where
  choice : Choice := .other
  input : Res Bytes := .err .EAGAIN
  openError : Option Errno := none
  writeError : Option (Nat × Errno) := none

/-- src/casync-tool.c:2985: the size, rounded up to whole sectors, in 64 bit arithmetic. -/
def roundUp (size : Nat) : Nat := (size + 511) % 2 ^ 64 / 512 * 512

/-- One round of the first loop, src/casync-tool.c:2977-3033, and the opening of the device (3035-3039). -/
def sizingRound (t : Tool) (e : Env) : List Obs × Res Tool :=
  match acquireSize t.sync with
  | .ok (n, s) =>
    match setSize t.dev (roundUp n) with
    | .err e => ([], .err e)
    | .ub => ([], .ub)
    | .ok dev =>
      match openDevice dev e.openError with
      | .err e => ([], .err e)
      | .ub => ([], .ub)
      | .ok (k, dev) => ([.attached k], .ok { t with sync := s, dev := dev, phase := .waiting })
  | .ub => ([], .ub)
  | .err er =>
    if er ≠ .EAGAIN then ([], .err er)
    else
      match syncStep t.sync e.choice with
      | .err e => ([], .err e)
      | .ub => ([], .ub)
      | .ok (.finished, _) => ([], .err .EBADMSG)
      | .ok (.notFound, _) => ([], .ub)
      | .ok (_, s) => ([], .ok { t with sync := s })

/-- What `ca_block_device_step` reads in this round, if it reads. No repo lines. -/
def received (d : Device) (input : Res Bytes) : List Obs :=
  if d.magic ≠ 0 then []
  else
    match input with
    | .ok b => [.received (b.take 28)]
    | _ => []

/-- The head of the second loop, src/casync-tool.c:3096-3220: a request is read, the synchronizer is told to seek. -/
def waitingRound (t : Tool) (e : Env) : List Obs × Res Tool :=
  match devStep t.dev e.input with
  | (.err er, _) => (received t.dev e.input, .err er)
  | (.ub, _) => (received t.dev e.input, .ub)
  | (.ok .poll, dev) => (received t.dev e.input, .ok { t with dev := dev })
  | (.ok .request, dev) =>
    (received t.dev e.input,
      getRequestOffset dev >>= fun offset =>
      getRequestSize dev >>= fun size =>
      seekOffset t.sync offset >>= fun s =>
      .ok { sync := s, dev := dev, phase := .serving offset size [] })

/-- The reply is sent, src/casync-tool.c:3254-3258, 3283-3287, 3302-3306. -/
def send (t : Tool) (s : Syncer) (offset : Nat) (data : Bytes) (e : Env) : List Obs × Res Tool :=
  match putData t.dev offset data e.writeError with
  | (w, r) => ([.wrote w], r >>= fun dev => .ok { sync := s, dev := dev, phase := .waiting })

/-- One round of the inner loop, src/casync-tool.c:3222-3339. -/
def servingRound (t : Tool) (offset size : Nat) (buffer : Bytes) (e : Env) : List Obs × Res Tool :=
  match syncStep t.sync e.choice with
  | .err er => ([], .err er)
  | .ub => ([], .ub)
  | .ok (.finished, s) =>
    if size ≤ buffer.length then ([], .ub)
    else send t s offset (buffer ++ List.replicate (size - buffer.length) 0) e
  | .ok (.payload, s) =>
    match decPayload s.dec with
    | .err er => ([], .err er)
    | .ub => ([], .ub)
    | .ok p =>
      if buffer.length = 0 ∧ p.length ≥ size then send t s offset (p.take (min p.length size)) e
      else if (buffer ++ p).length ≥ size then send t s offset ((buffer ++ p).take size) e
      else ([], .ok { t with sync := s, phase := .serving offset size (buffer ++ p) })
  | .ok (.notFound, _) => ([], .err .ENOENT)
  | .ok (.step, s) => ([], .ok { t with sync := s })
  | .ok (.poll, s) => ([], .ok { t with sync := s })

/-- One round of whichever loop the tool is in. No repo lines. -/
def round (t : Tool) (e : Env) : List Obs × Res Tool :=
  match t.phase with
  | .sizing => sizingRound t e
  | .waiting => waitingRound t e
  | .serving o n b => servingRound t o n b e

/-- The tool runs: what is seen, and how it stands. The tool may be stopped by a signal at any time, the list of rounds may be of any
length. No repo lines. -/
def run (t : Tool) : List Env → List Obs × Res Tool
  | [] => ([], .ok t)
  | e :: es =>
    match round t e with
    | (o, .ok t') => (o ++ (run t' es).1, (run t' es).2)
    | (o, .err er) => (o, .err er)
    | (o, .ub) => (o, .ub)

end Casync.Nbd
