import Verif.Model.Number
import Verif.Model.ChunkId
/-!
Model of the request queue of `src/caremote.c`: a farm of symbolic links in the cache directory. The directory belongs to
this process alone (its name is random, src/caremote.c:676, or chosen by the caller), so the model has no other writers, and
system calls fail only for the reasons given here (no I/O errors, no full disk).
-/
namespace Casync.Remote
open Casync

/-- "high-priority/", src/caremote.c:731 and 841. -/
abbrev hiName : Bytes := [104, 105, 103, 104, 45, 112, 114, 105, 111, 114, 105, 116, 121, 47]
/-- "low-priority/", src/caremote.c:734 and 845. -/
abbrev loName : Bytes := [108, 111, 119, 45, 112, 114, 105, 111, 114, 105, 116, 121, 47]
/-- "chunks/", src/caremote.c:739. -/
abbrev chunksName : Bytes := [99, 104, 117, 110, 107, 115, 47]

/-- The queue part of `struct CaRemote`, src/caremote.c:54 and 67-68, together with the symbolic links (`links`, path to
target) and subdirectories (`dirs`) of the cache directory. -/
structure Q where
  cache : Bool
  links : Bytes → Option Bytes
  dirs : Bytes → Bool
  startHi : Nat
  startLo : Nat
  endHi : Nat
  endLo : Nat

/-- The queue of a new object, src/caremote.c:96-121, over a cache directory that has no links yet. -/
def Q.new : Q := ⟨false, fun _ => none, fun _ => false, 0, 0, 0, 0⟩

/-- `queue_name`, src/caremote.c:730-736. -/
def qname (high : Bool) : Bytes := if high then hiName else loName

/-- The name of a queue position, src/caremote.c:785 and 850. -/
def posName (high : Bool) (n : Nat) : Bytes := qname high ++ Number.dec n

/-- The name of a chunk's own link, src/caremote.c:739. -/
def chunkName (id : Bytes) : Bytes := chunksName ++ ChunkId.format id

/-- `startswith`, src/util.h: what follows the prefix, if it is one. -/
def startswith (s pre : Bytes) : Option Bytes := if s.take pre.length = pre then some (s.drop pre.length) else none

/-- `mkdirat` with ignored result, src/caremote.c:791-792. -/
def mkdir (q : Q) (d : Bytes) : Q := { q with dirs := fun x => if x = d then true else q.dirs x }

/-- `symlinkat`: `path` is in the subdirectory `dir`. -/
def symlink (q : Q) (target dir path : Bytes) : Res Q :=
  if !q.dirs dir then .err .ENOENT
  else if (q.links path).isSome then .err .EEXIST
  else .ok { q with links := fun x => if x = path then some target else q.links x }

/-- `unlinkat`. -/
def unlink (q : Q) (path : Bytes) : Res Q :=
  if (q.links path).isNone then .err .ENOENT
  else .ok { q with links := fun x => if x = path then none else q.links x }

/-- src/caremote.c:785-814, the second half of `ca_remote_enqueue_request`. -/
def insert (q : Q) (id : Bytes) (high : Bool) (position : Nat) : Res Bool × Q :=
  let qpos := posName high position
  let q := if position = 0 then mkdir (mkdir q chunksName) (qname high) else q
  match symlink q qpos chunksName (chunkName id) with
  | .err e => (.err e, q)
  | .ub => (.ub, q)
  | .ok q =>
    match symlink q (ChunkId.format id) (qname high) qpos with
    | .err e => (.err e, q)
    | .ub => (.ub, q)
    | .ok q =>
      (.ok true, if high then { q with endHi := (q.endHi + 1) % 2 ^ 64 } else { q with endLo := (q.endLo + 1) % 2 ^ 64 })

/-- `ca_remote_enqueue_request`, src/caremote.c:707-819: whether the id was queued. `ca_remote_init_cache` (line 715)
succeeds. -/
def enqueue (q : Q) (id : Bytes) (high requeue : Bool) : Res Bool × Q :=
  let q := { q with cache := true }
  let position := if high then q.endHi else q.endLo
  match q.links (chunkName id) with
  | none => insert q id high position
  | some qpos =>
    if (startswith qpos (qname high)).isSome then (.ok false, q)
    else if !high then (.ok false, q)
    else match startswith qpos loName with
      | none => (.err .EBADMSG, q)
      | some p => match Number.atou64 p with
        | .err e => (.err e, q)
        | .ub => (.ub, q)
        | .ok old =>
          if old < q.startLo && !requeue then (.ok false, q)
          else match unlink q (chunkName id) with
            | .err e => (.err e, q)
            | .ub => (.ub, q)
            | .ok q => match unlink q qpos with
              | .err e => (.err e, q)
              | .ub => (.ub, q)
              | .ok q => insert q id high position

/-- Which queue the next turn of `ca_remote_dequeue_request` looks at, src/caremote.c:838-847. `only` is
`only_high_priority`: `none` for -1. -/
def pick (q : Q) (only : Option Bool) : Option Bool :=
  if q.startHi < q.endHi ∧ only ≠ some false then some true
  else if q.startLo < q.endLo ∧ only ≠ some true then some false
  else none

/-- src/caremote.c:860-864 and 877-880. -/
def bump (q : Q) (high : Bool) : Q :=
  if high then { q with startHi := (q.startHi + 1) % 2 ^ 64 } else { q with startLo := (q.startLo + 1) % 2 ^ 64 }

/-- The loop of `ca_remote_dequeue_request` and what follows, src/caremote.c:835-884. Every turn that does not end advances
one of the two positions, so the fuel suffices. -/
def dequeueLoop (only : Option Bool) : Nat → Q → Res (Bytes × Bool) × Q
  | 0, q => (.ub, q)
  | fuel + 1, q =>
    match pick q only with
    | none => (.err .ENODATA, q)
    | some high =>
      let position := if high then q.startHi else q.startLo
      match q.links (posName high position) with
      | none => dequeueLoop only fuel (bump q high)
      | some ids =>
        match ChunkId.parse ids with
        | .ok (some id) => (.ok (id, high), bump q high)
        | .ok none => (.err .EBADMSG, q)
        | .err e => (.err e, q)
        | .ub => (.ub, q)

/-- `ca_remote_dequeue_request`, src/caremote.c:821-885: the id and whether it was a high priority request. -/
def dequeue (q : Q) (only : Option Bool) : Res (Bytes × Bool) × Q :=
  if !q.cache then (.err .ENODATA, q)
  else dequeueLoop only ((q.endHi - q.startHi) + (q.endLo - q.startLo) + 1) q

/-- `ca_remote_forget_chunk`, src/caremote.c:2725-2790. `rm` is the result of `ca_chunk_file_remove` (line 2778). If the
chunk has no link then the pointer that is freed at the end (line 2785) was never set. -/
def forget (q : Q) (id : Bytes) (rm : Res Unit) : Res Unit × Q :=
  if !q.cache then (.ok (), q)
  else match q.links (chunkName id) with
    | none => (.ub, q)
    | some qpos =>
      match (startswith qpos loName).or (startswith qpos hiName) with
      | none => (.err .EBADMSG, q)
      | some p => match Number.atou64 p with
        | .err e => (.err e, q)
        | .ub => (.ub, q)
        | .ok _ => match unlink q (chunkName id) with
          | .err e => (.err e, q)
          | .ub => (.ub, q)
          | .ok q => match unlink q qpos with
            | .err e => (.err e, q)
            | .ub => (.ub, q)
            | .ok q => match rm with
              | .err .ENOENT => (.ok (), q)
              | .err e => (.err e, q)
              | .ub => (.ub, q)
              | .ok () => (.ok (), q)

/-- `ca_remote_has_pending_requests`, src/caremote.c:2590-2604. -/
def hasPending (q : Q) : Bool := q.cache && (q.startHi < q.endHi || q.startLo < q.endLo)

/-- A call of one of the functions above. No repo lines: histories are what the properties range over. -/
inductive Op
  | enqueue (id : Bytes) (high requeue : Bool)
  | dequeue (only : Option Bool)
  | forget (id : Bytes) (rm : Res Unit)

/-- What a call returned. No repo lines. -/
inductive Out
  | enqueued (r : Res Bool)
  | dequeued (r : Res (Bytes × Bool))
  | forgotten (r : Res Unit)
  deriving DecidableEq

/-- One call. No repo lines. -/
def step (q : Q) : Op → Out × Q
  | .enqueue id h r => let x := enqueue q id h r; (.enqueued x.1, x.2)
  | .dequeue o => let x := dequeue q o; (.dequeued x.1, x.2)
  | .forget id rm => let x := forget q id rm; (.forgotten x.1, x.2)

/-- A history of calls. No repo lines. -/
def runQ (q : Q) : List Op → List Out × Q
  | [] => ([], q)
  | o :: os => let x := step q o; let y := runQ x.2 os; (x.1 :: y.1, y.2)

end Casync.Remote
