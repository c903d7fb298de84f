import Verif.Base.Bytes
import Verif.Base.Res
/-!
Model of the payload of a file or block device: the size of it (`src/fssize.c`, `src/caencoder.c`) and the loop that reads it.
-/
namespace Casync.Raw
open Casync

/-- What one `pread()` answers. No repo lines. -/
inductive Pread
  | data (b : Bytes)
  | fail (e : Errno)

/-! ### The file system size: src/fssize.c -/

/-- A little endian field of `n` bytes at `off` of the superblock (`le16toh`, `le32toh`, `le64toh` of a member of the union
src/fssize.c:14-93). -/
def field (b : Bytes) (off n : Nat) : Nat := rdLE ((b.drop off).take n)

/-- `sizeof(superblock)`: 1024 bytes to skip and 58 bytes of the ext2 superblock, src/fssize.c:69-91. -/
def superSize : Nat := 1082

/-- `ALIGN_TO`, src/util.h:536-538, with a 64 bit `size_t`: `(l + ali - 1) & ~(ali - 1)`, everything modulo 2^64. -/
def alignTo (l ali : Nat) : Nat :=
  ((l + ali + (2 ^ 64 - 1)) % 2 ^ 64) &&& (2 ^ 64 - 1 - (ali + (2 ^ 64 - 1)) % 2 ^ 64)

/-- `__builtin_popcount` of a 32 bit number. No repo lines. -/
def popcount (x : Nat) : Nat := ((List.range 32).filter x.testBit).length

/-- `IS_POWER_OF_TWO`, src/util.h:567. -/
def isPow2 (x : Nat) : Bool := popcount x == 1

/-- The size of an Android boot image, src/fssize.c:113-123: 64 bit additions of the aligned sizes. -/
def androidSize (b : Bytes) (page : Nat) : Nat :=
  (alignTo 608 page + alignTo (field b 8 4) page + alignTo (field b 16 4) page + alignTo (field b 24 4) page +
    alignTo (field b 40 4) page) % 2 ^ 64

/-- `l` of a FAT superblock, src/fssize.c:133-135. -/
def fatSize (b : Bytes) : Nat :=
  if field b 19 2 * field b 11 2 = 0 then field b 32 4 * field b 11 2 else field b 19 2 * field b 11 2

/-- The ext2/3/4 branch and the end, src/fssize.c:144-154: `10 + s_log_block_size` is an addition of 32 bit numbers. -/
def readExt (b : Bytes) : Option Nat :=
  if field b 1080 2 = 0xEF53 then
    if (10 + field b 1048 4) % 2 ^ 32 < 64 then
      some (field b 1028 4 * 2 ^ ((10 + field b 1048 4) % 2 ^ 32) % 2 ^ 64)
    else none
  else none

/-- The FAT branch and what follows, src/fssize.c:127-154. -/
def readFat (b : Bytes) : Option Nat :=
  if field b 510 2 = 0xaa55 then
    if isPow2 (field b 11 2) then
      if 0 < fatSize b then some (fatSize b) else readExt b
    else readExt b
  else readExt b

/-- The Android branch and what follows, src/fssize.c:108-154. -/
def readAndroid (b : Bytes) : Option Nat :=
  if field b 0 4 = 0x52444e41 ∧ field b 4 4 = 0x2144494f then
    if isPow2 (field b 36 4) then some (androidSize b (field b 36 4)) else readFat b
  else readFat b

/-- `read_file_system_size`, src/fssize.c:11-155: `none` is the return value 0 (unknown). `le32toh(s_magic == SQUASHFS_MAGIC)` is
taken for the comparison on a little endian machine, `signature` likewise. -/
def readSize (sb : Pread) : Res (Option Nat) :=
  match sb with
  | .fail e => .err e
  | .data b =>
    if b.length ≠ superSize then .ok none
    else if field b 0 4 = 0x73717368 then .ok (some (alignTo (field b 40 8) 4096))
    else .ok (readAndroid b)

/-! ### The payload size: src/caencoder.c -/

/-- A node whose payload is read: a regular file with `st_size`, or a block device with `device_size` (`none` is `(uint64_t) -1`, not
known yet), src/caencoder.c:60-110. Other types have no payload (ENOTTY); the descriptor is open. -/
inductive Node
  | reg (size : Nat)
  | blk (deviceSize : Option Nat)

/-- What the kernel answers in one turn: `BLKGETSIZE`, the `pread()` of the superblock, the `pread()` of the payload (by offset and
length), and the size the caller suggests (`none` is `UINT64_MAX`). No repo lines. -/
structure Turn where
  blkSize : Except Errno Nat
  super : Pread
  payload : Nat → Nat → Pread
  suggested : Option Nat

/-- `ca_encoder_node_read_device_size`, src/caencoder.c:569-597, for a block device whose size is not known yet. The second component
is `device_size` afterwards: it is set before the superblock is read and stays when that fails. -/
def readDeviceSize (t : Turn) : Res Nat × Option Nat :=
  match t.blkSize with
  | .error e => (.err e, none)
  | .ok u =>
    match readSize t.super with
    | .err e => (.err e, some (u * 512 % 2 ^ 64))
    | .ub => (.ub, some (u * 512 % 2 ^ 64))
    | .ok none => (.ok (u * 512 % 2 ^ 64), some (u * 512 % 2 ^ 64))
    | .ok (some f) =>
      if u * 512 % 2 ^ 64 > f then (.ok f, some f) else (.ok (u * 512 % 2 ^ 64), some (u * 512 % 2 ^ 64))

/-- `ca_encoder_node_get_payload_size`, src/caencoder.c:1917-1937, with the node afterwards. -/
def payloadSize (t : Turn) (n : Node) : Res Nat × Node :=
  match n with
  | .reg size => (.ok size, n)
  | .blk (some d) => (.ok d, n)
  | .blk none => ((readDeviceSize t).1, .blk (readDeviceSize t).2)

/-- `BUFFER_SIZE`, src/def.h:8. -/
def bufferSize : Nat := 65536

/-- `k`, src/caencoder.c:2311-2313. -/
def want (t : Turn) (left : Nat) : Nat :=
  match t.suggested with
  | none => min bufferSize left
  | some s => if min bufferSize left > s then s else min bufferSize left

/-- `ca_encoder_get_payload_data`, src/caencoder.c:2290-2334, after the size is known: `ok none` is the end of the file. -/
def payloadData (t : Turn) (size off : Nat) : Res (Option Bytes) :=
  if off ≥ size then .ok none
  else
    match t.payload off (want t (size - off)) with
    | .fail e => .err e
    | .data b => if b.length ≠ want t (size - off) then .err .EIO else .ok (some b)

/-- The encoder in the state IN_PAYLOAD: the node, `payload_offset`, and the buffer with the data of the last turn
(src/caencoder.c:140-200). -/
structure Enc where
  node : Node
  off : Nat := 0
  buf : Bytes := []

/-- What one turn ends in. No repo lines. -/
inductive Next
  | finished
  | failed (e : Errno)
  | crashed
  | piece (b : Bytes) (s : Enc)

/-- `ca_encoder_get_data` in the state IN_PAYLOAD, src/caencoder.c:2907-3023, called with `ret` (data is wanted) and an empty buffer. -/
def getData (t : Turn) (n : Node) (off : Nat) : Next :=
  match payloadSize t n with
  | (.err e, _) => .failed e
  | (.ub, _) => .crashed
  | (.ok size, n') =>
    match payloadData t size off with
    | .err e => .failed e
    | .ub => .crashed
    | .ok none => .finished
    | .ok (some b) => .piece b { node := n', off := off, buf := b }

/-- One turn of the user of the encoder: `ca_encoder_step` (src/caencoder.c:2270-2288: `ca_encoder_advance_buffer`, 2248-2268, then
the state IN_PAYLOAD, 2128-2151, of a naked file) and, when that says PAYLOAD, `ca_encoder_get_data`. The two are one turn here: the
kernel answers the same questions alike within it. -/
def turn (t : Turn) (s : Enc) : Next :=
  match payloadSize t s.node with
  | (.err e, _) => .failed e
  | (.ub, _) => .crashed
  | (.ok size, n) => if s.off + s.buf.length ≥ size then .finished else getData t n (s.off + s.buf.length)

/-- How far the encoding of a payload got. No repo lines. -/
inductive Outcome
  | done (image : Bytes)
  | error (e : Errno)
  | crash
  | more (sofar : Bytes) (s : Enc)

/-- The turns of one encoding: what is delivered is appended to the image (as `ca_sync_step_encode`, src/casync.c:1690-1720, does with
the pieces). -/
def run : List Turn → Enc → Bytes → Outcome
  | [], s, out => .more out s
  | t :: ts, s, out =>
    match turn t s with
    | .finished => .done out
    | .failed e => .error e
    | .crashed => .crash
    | .piece b s' => run ts s' (out ++ b)

end Casync.Raw
