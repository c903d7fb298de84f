import Verif.Model.Remote
/-!
The helper `casync-http`, which serves an archive, an index and chunks from a server to a client that speaks the remote protocol.
libcurl is whatever it delivers.
-/
namespace Casync.Http
open Casync Remote ChunkFile

/-- `arg_protocol`, src/casync-http.c:23-29: HTTPS is as HTTP here. -/
inductive Protocol
  | http | ftp | sftp
  deriving DecidableEq, Repr

/-- `ProcessUntil`, src/casync-http.c:31-38. -/
inductive Until
  | written | canPutChunk | canPutIndex | canPutArchive | haveRequest | finished
  deriving DecidableEq, Repr

/-- What one turn of the loop of `process_remote` meets: the answers of the system calls in `ca_remote_step`, and of `ca_remote_poll` if it is
called. No repo lines. -/
structure Tick where
  answers : Answers
  poll : Res Unit

/-- The remote protocol object, its world, and what the next turns will meet. No repo lines. -/
structure M (W : Type) where
  ticks : List Tick
  w : W
  r : R

/-- How a function ended: 0, `-EPIPE`, another error, not yet (nothing more is known of the environment), undefined behaviour. No repo lines. -/
inductive Ret
  | ok | epipe | fail | waiting | ub
  deriving DecidableEq, Repr

/-- The conditions of `process_remote`, src/casync-http.c:81-153, with `ca_remote_has_unwritten`, src/caremote.c:2670-2677. -/
def check (u : Until) (r : R) : Res Bool :=
  match u with
  | .canPutChunk => canPutChunk r
  | .canPutIndex => canPutFile r false
  | .canPutArchive => canPutFile r true
  | .haveRequest => .ok (hasPending r.queue)
  | .written => if r.state = .eof then .err .EPIPE else .ok (decide (r.output ≠ []))
  | .finished => .ok false

/-- What is made of the result of `ca_remote_step`, src/casync-http.c:155-171: `none` is another turn. An error that the peer chose may be
32, `EPIPE`, as well. -/
def afterStep (u : Until) (rc : Rc) (poll : Res Unit) : Option Ret :=
  match rc with
  | .ok .finished => some (if u = .finished then .ok else .epipe)
  | .err .EPIPE => some (if u = .finished then .ok else .epipe)
  | .peer code => some (if code = 32 then (if u = .finished then .ok else .epipe) else .fail)
  | .err _ => some .fail
  | .ub => some .ub
  | .ok .poll => match poll with
    | .ok () => none
    | .err _ => some .fail
    | .ub => some .ub
  | .ok _ => none

/-- `process_remote`, src/casync-http.c:74-173. -/
def processRemote {W} (e : World W) (u : Until) : List Tick → W → R → Ret × M W
  | ts, w, r =>
    match check u r with
    | .err x => (if x = .EPIPE then .epipe else .fail, ⟨ts, w, r⟩)
    | .ub => (.ub, ⟨ts, w, r⟩)
    | .ok true => (.ok, ⟨ts, w, r⟩)
    | .ok false =>
      match ts with
      | [] => (.waiting, ⟨[], w, r⟩)
      | t :: ts =>
        match afterStep u (step' e w r t.answers).1 t.poll with
        | some x => (x, ⟨ts, (step' e w r t.answers).2.2, (step' e w r t.answers).2.1⟩)
        | none => processRemote e u ts (step' e w r t.answers).2.2 (step' e w r t.answers).2.1

/-- Something that is put after `process_remote` said that it can be. No repo lines of its own. -/
def putWhen {W} (e : World W) (u : Until) (put : R → Res Unit × R) (m : M W) : Ret × M W :=
  match processRemote e u m.ticks m.w m.r with
  | (.ok, m) => (match (put m.r).1 with | .ok () => .ok | .err x => if x = .EPIPE then .epipe else .fail | .ub => .ub, { m with r := (put m.r).2 })
  | x => x

/-- `write_index`, src/casync-http.c:175-191. -/
def writeIndex {W} (e : World W) (buffer : Bytes) (m : M W) : Ret × M W := putWhen e .canPutIndex (putFile · false buffer) m
/-- `write_index_eof`, `write_archive_eof`, src/casync-http.c:193-207, 229-243. -/
def writeEof {W} (e : World W) (archive : Bool) (m : M W) : Ret × M W :=
  putWhen e (if archive then .canPutArchive else .canPutIndex) (putFileEof · archive) m

/-- The calls of `write_archive`, src/casync-http.c:209-227, for these pieces: it returns 0 if something goes wrong, which is an error for libcurl
unless the piece is empty. -/
def writePieces {W} (e : World W) : List Bytes → M W → Ret × M W
  | [], m => (.ok, m)
  | d :: ds, m =>
    match putWhen e .canPutArchive (putFile · true d) m with
    | (.ok, m) => writePieces e ds m
    | (.waiting, m) => (.waiting, m)
    | (.ub, m) => (.ub, m)
    | (_, m) => if d = [] then writePieces e ds m else (.fail, m)

/-- The calls of `write_buffer`, src/casync-http.c:245-269, for these pieces; allocations succeed and sizes do not wrap around. -/
def fill : List Bytes → Bytes → Option Bytes
  | [], buffer => some buffer
  | d :: ds, buffer =>
    if buffer.length + d.length > SIZE_MAX - 56 then (if d = [] then fill ds buffer else none)
    else fill ds (buffer ++ d)

/-- `chunk_url`, src/casync-http.c:271-293: the store's address up to the first `?` or `;` without slashes at the end; the suffix is `.cacnk`. -/
def chunkUrl (store id : Bytes) : Bytes :=
  ((store.takeWhile fun b => b != 63 && b != 59).reverse.dropWhile (· == 47)).reverse ++
    (47 :: ((ChunkId.format id).take 4 ++ (47 :: (ChunkId.format id ++ cacnk))))

/-- What libcurl does for one address: how often it cannot connect, the pieces that it delivers, and the response code, if the transfer succeeds.
No repo lines. -/
structure Transfer where
  refused : Nat := 0
  pieces : List Bytes
  status : Option Nat
  deriving DecidableEq, Repr

/-- The number of attempts of `robust_curl_easy_perform`, src/casync-http.c:40-72. If it cannot connect then nothing is delivered. -/
abbrev ATTEMPTS : Nat := 9

/-- Which response codes are a success, src/casync-http.c:338, 353, 366, 633-635. -/
def good : Protocol → Nat → Bool
  | .http, s => s == 200
  | .ftp, s => decide (200 ≤ s) && decide (s ≤ 299)
  | .sftp, s => s == 0

/-- The protocol's name in messages. No repo lines of its own. -/
def protocolName : Protocol → Bytes
  | .http => [72, 84, 84, 80]
  | .ftp => [70, 84, 80]
  | .sftp => [83, 70, 84, 80]

/-- The text for `ca_remote_abort`, src/casync-http.c:344, 359, 372: "HTTP request on %s failed with status %li". -/
def failureText (p : Protocol) (url : Bytes) (status : Nat) : Bytes :=
  protocolName p ++
    [32, 114, 101, 113, 117, 101, 115, 116, 32, 111, 110, 32] ++ url ++
    [32, 102, 97, 105, 108, 101, 100, 32, 119, 105, 116, 104, 32, 115, 116, 97, 116, 117, 115, 32] ++ Number.dec status

/-- The errno for `ca_remote_abort`, src/casync-http.c:347, 362, 375: `ENOMEDIUM` and `EBADR`. -/
def failureCode (p : Protocol) (status : Nat) : Nat := if p = .http ∧ status = 404 then 123 else 53

/-- The end of `acquire_file`, src/casync-http.c:326-381, after the transfer: whether to go on, or to finish. -/
def judge (p : Protocol) (url : Bytes) (status : Option Nat) (r : R) : Option Bool × R :=
  match status with
  | none => (none, r)
  | some s => if good p s then (some true, r) else (some false, (abort r (failureCode p s) (failureText p url s)).2)

/-- How the program ends: with 0, with an error, not yet, undefined behaviour. No repo lines. -/
inductive Exit
  | success | failure | waiting | ub
  deriving DecidableEq, Repr

/-- A result of a function that ends the program, with a negative result as a failure. No repo lines. -/
def Ret.exit : Ret → Exit
  | .ok => .success
  | .epipe => .failure
  | .fail => .failure
  | .waiting => .waiting
  | .ub => .ub

/-- The same where `-EPIPE` is a success, src/casync-http.c:553-556, 625-628, 652-655. -/
def Ret.exitPipe (x : Ret) : Exit := if x = .epipe then .success else x.exit

/-- `flush`, src/casync-http.c:661-662. -/
def flush {W} (e : World W) (m : M W) : Exit × M W :=
  ((processRemote e .finished m.ticks m.w m.r).1.exit, (processRemote e .finished m.ticks m.w m.r).2)

/-- `ca_remote_next_request`, src/caremote.c:2189-2202. -/
def nextRequest (r : R) : Res Bytes × R :=
  if !has r.remoteFlags PULL_CHUNKS && !has r.localFlags PUSH_INDEX_CHUNKS then (.err .ENOTTY, r)
  else if r.state = .eof then (.err .EPIPE, r)
  else match dequeue r.queue none with
    | (.ok x, q) => (.ok x.1, { r with queue := q })
    | (.err x, q) => (.err x, { r with queue := q })
    | (.ub, q) => (.ub, { r with queue := q })

/-- The answer to a request, src/casync-http.c:633-649. -/
def answer (p : Protocol) (id : Bytes) (status : Nat) (buffer : Bytes) (r : R) : Res Unit × R :=
  if good p status then putChunk r id .compressed buffer else putMissing r id

/-- The part of the loop of `run` after the request `id` was taken, src/casync-http.c:569-656, up to `PROCESS_UNTIL_WRITTEN`: `none` is another turn. -/
def serveOne {W} (e : World W) (p : Protocol) (id : Bytes) (t : Transfer) (m : M W) : Option Exit × M W :=
  if t.refused ≥ ATTEMPTS then (some .failure, m)
  else match fill t.pieces [] with
    | none => (some .failure, m)
    | some buffer =>
      match t.status with
      | none => (some .failure, m)
      | some s =>
        match processRemote e .canPutChunk m.ticks m.w m.r with
        | (.ok, m) =>
          match answer p id s buffer m.r with
          | (.err _, r) => (some .failure, { m with r := r })
          | (.ub, r) => (some .ub, { m with r := r })
          | (.ok (), r) =>
            match processRemote e .written m.ticks m.w r with
            | (.ok, m) => (none, m)
            | (x, m) => (some x.exitPipe, m)
        | (x, m) => (some x.exitPipe, m)

/-- The loop of `run`, src/casync-http.c:536-657, with at least one store. `stores` begins with the writable store if there is one; `current_store`
is never changed (line 578 is a comment).  `quits` are the values of `quit` in the turns that are looked at, `n` the number of transfers so far. -/
def serve {W} (e : World W) (p : Protocol) (stores : List Bytes) (server : Nat → Bytes → Transfer) : List Bool → Nat → M W → Exit × M W
  | [], _, m => (.waiting, m)
  | true :: _, _, m => (.success, m)
  | false :: quits, n, m =>
    match processRemote e .haveRequest m.ticks m.w m.r with
    | (.ok, m) =>
      match nextRequest m.r with
      | (.err x, r) => if x = .ENODATA then serve e p stores server quits n { m with r := r } else (.failure, { m with r := r })
      | (.ub, r) => (.ub, { m with r := r })
      | (.ok id, r) =>
        match serveOne e p id (server n (chunkUrl (stores.headD []) id)) { m with r := r } with
        | (none, m) => serve e p stores server quits (n + 1) m
        | (some x, m) => (x, m)
    | (x, m) => (x.exitPipe, m)

/-- src/casync-http.c:505-517: the archive. `none` is to go on. -/
def serveArchive {W} (e : World W) (p : Protocol) (url : Bytes) (t : Transfer) (m : M W) : Option Exit × M W :=
  if t.refused ≥ ATTEMPTS then (some .failure, m)
  else match writePieces e t.pieces m with
    | (.ok, m) =>
      match judge p url t.status m.r with
      | (none, r) => (some .failure, { m with r := r })
      | (some false, r) => (some (flush e { m with r := r }).1, (flush e { m with r := r }).2)
      | (some true, r) =>
        match writeEof e true { m with r := r } with
        | (.ok, m) => (none, m)
        | (x, m) => (some x.exit, m)
    | (.waiting, m) => (some .waiting, m)
    | (.ub, m) => (some .ub, m)
    | (_, m) => (some .failure, m)

/-- src/casync-http.c:519-534: the index. -/
def serveIndex {W} (e : World W) (p : Protocol) (url : Bytes) (t : Transfer) (m : M W) : Option Exit × M W :=
  if t.refused ≥ ATTEMPTS then (some .failure, m)
  else match fill t.pieces [] with
    | none => (some .failure, m)
    | some buffer =>
      match judge p url t.status m.r with
      | (none, r) => (some .failure, { m with r := r })
      | (some false, r) => (some (flush e { m with r := r }).1, (flush e { m with r := r }).2)
      | (some true, r) =>
        match writeIndex e buffer { m with r := r } with
        | (.ok, m) =>
          match writeEof e false m with
          | (.ok, m) => (none, m)
          | (x, m) => (some x.exit, m)
        | (x, m) => (some x.exit, m)

/-- The local feature flags, src/casync-http.c:411-414. -/
def flags (archive index : Option Bytes) (stores : List Bytes) : Nat :=
  (if stores ≠ [] then READABLE_STORE else 0) ||| (if index.isSome then READABLE_INDEX else 0) ||| (if archive.isSome then READABLE_ARCHIVE else 0)

/-- The rest of `run` after the index. No repo lines of its own. -/
def runStores {W} (e : World W) (p : Protocol) (stores : List Bytes) (server : Nat → Bytes → Transfer) (quits : List Bool) (n : Nat) (m : M W) :
    Exit × M W :=
  if stores = [] then (match quits with | true :: _ => (.success, m) | [] => (.waiting, m) | false :: _ => flush e m)
  else serve e p stores server quits n m

/-- The rest of `run` after the archive. No repo lines of its own. -/
def runIndex {W} (e : World W) (p : Protocol) (index : Option Bytes) (stores : List Bytes) (server : Nat → Bytes → Transfer) (quits : List Bool)
    (n : Nat) (m : M W) : Exit × M W :=
  match index with
  | none => runStores e p stores server quits n m
  | some url =>
    match serveIndex e p url (server n url) m with
    | (some x, m) => (x, m)
    | (none, m) => runStores e p stores server quits (n + 1) m

/-- `run`, src/casync-http.c:384-668, without base URL and with something to do, on a new object. `server` is what libcurl does for the n-th
transfer if the address is this one. -/
def run {W} (e : World W) (p : Protocol) (archive index : Option Bytes) (stores : List Bytes) (server : Nat → Bytes → Transfer) (quits : List Bool)
    (ticks : List Tick) (w : W) : Exit × M W :=
  let m : M W := ⟨ticks, w, R.new (flags archive index stores) false false⟩
  match archive with
  | none => runIndex e p index stores server quits 0 m
  | some url =>
    match serveArchive e p url (server 0 url) m with
    | (some x, m) => (x, m)
    | (none, m) => runIndex e p index stores server quits 1 m

end Casync.Http
