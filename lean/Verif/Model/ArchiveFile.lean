import Verif.Model.Decoder
import Verif.Spec.Decoder
/-!
Decoding an archive that is a file: the data comes from `read()`, what is not wanted is skipped with `lseek()`.

Sources: src/casync.c:2415-2480 (the branch `archive_fd >= 0` of `ca_sync_process_decoder_request`), 2538-2566, 2619-2681; src/util.c:1206-1242.

`uint64_t` arithmetic on the offset in the archive is modulo 2^64 here. Random access (seeks) is not part of it. The file does not change.
-/
namespace Casync.ArchiveFile
open Casync Archive

/-- The open archive: its content, the position of the file descriptor, and whether it is a file that can be positioned (not a pipe). No repo lines. -/
structure Fd where
  content : Bytes
  pos : Nat := 0
  seekable : Bool := true
  deriving DecidableEq, Repr

/-- `read()` of up to `BUFFER_SIZE` (64K, src/def.h:8) bytes, of which the kernel delivers `k`, at least one unless the file is at its end;
src/casync.c:2419-2427. -/
def readFd (f : Fd) (k : Nat) : Bytes := (f.content.drop f.pos).take (min (max k 1) 65536)

/-- What becomes of a `uint64_t` that is converted to `off_t`. No repo lines. -/
def signed64 (n : Nat) : Int := if n % 2 ^ 64 < 2 ^ 63 then ((n % 2 ^ 64 : Nat) : Int) else ((n % 2 ^ 64 : Nat) : Int) - 2 ^ 64

/-- `lseek(fd, n, SEEK_CUR)` of a `uint64_t n`, which becomes a signed number; a position before the start or beyond the largest `off_t` is
refused. No repo lines. -/
def lseekCur (f : Fd) (n : Nat) : Res Fd :=
  if !f.seekable then .err .ESPIPE
  else
    let to : Int := (f.pos : Int) + signed64 n
    if to < 0 ∨ 2 ^ 63 ≤ to then .err .EINVAL
    else .ok { f with pos := to.toNat }

/-- `skip_bytes_fd()`, src/util.c:1206-1242. The loop over `read()` at its end is dead code, because `errno`, which is positive, is compared
with `-ESPIPE`. -/
def skipBytesFd (f : Fd) (n : Nat) : Res Fd :=
  if n = 0 then .ok f else lseekCur f n

/-- The offset in the archive is a `uint64_t`, src/cadecoder.c:4191, 4439. -/
def wrap (d : Dec) : Dec := { d with archiveOff := d.archiveOff % 2 ^ 64 }

/-- What comes of one turn of the loop: it goes on, with what was seen, or it is over. No repo lines. -/
inductive Turn
  | on (d : Dec) (f : Fd) (seen : List Obs)
  | over (o : Outcome)
  deriving DecidableEq, Repr

/-- src/casync.c:2415-2480: the answer to a request. After the end of the file the decoder is told so; if it asks again although it knows,
this goes on for ever (src/casync.c:2429-2433), which is the outcome `starved`. -/
def answer (d : Dec) (f : Fd) (k : Nat) : Turn :=
  let x := readFd f k
  if x = [] then (if d.eof then .over .starved else .on (putEof d) f [])
  else match putData d x with
    | .ok d' => .on d' { f with pos := f.pos + x.length } []
    | .err e => .over (.error e)
    | .ub => .over .crash

/-- `ca_sync_process_decoder_skip()`, src/casync.c:2538-2566, for an archive that is a file. -/
def processSkip (d : Dec) (f : Fd) : Turn :=
  match skipBytesFd f d.skip with
  | .ok f' => .on d f' []
  | .err e => .over (.error e)
  | .ub => .over .crash

/-- src/casync.c:2619-2681 `ca_sync_step_decode()`: what is done about the result of `ca_decoder_step()`. -/
def react (f : Fd) (k : Nat) (d : Dec) : Res Ev → Turn
  | .err e => .over (.error e)
  | .ub => .over .crash
  | .ok .finished => .over .finished
  | .ok .request => answer d f k
  | .ok .skip => processSkip d f
  | .ok .step => .on d f (observe d .step)
  | .ok .nextFile => .on d f (observe d .nextFile)
  | .ok .doneFile => .on d f (observe d .doneFile)
  | .ok .payload => .on d f (observe d .payload)

/-- One turn of the loop of `ca_sync_step()`, src/casync.c:2619-2681, when the next `read()` delivers `k` bytes. -/
def turn (d : Dec) (f : Fd) (k : Nat) : Turn := react f k (wrap (step d).1) (step d).2

/-- `n` turns, in each of which `read()` delivers a full buffer if there is so much: what was seen, unless the loop is over by then. No repo
lines. -/
def turns : Nat → Dec → Fd → Option (Dec × Fd × List Obs)
  | 0, d, f => some (d, f, [])
  | n + 1, d, f =>
    match turn d f 65536 with
    | .over _ => none
    | .on d' f' s => (turns n d' f').map fun x => (x.1, x.2.1, s ++ x.2.2)

end Casync.ArchiveFile
