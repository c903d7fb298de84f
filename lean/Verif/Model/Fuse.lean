import Verif.Spec.Seek
/-!
The file system of `casync mount`: `src/cafuse.c`, over the decoder with random access of `Model/Seek.lean`.

Every call of the kernel is answered by a loop over `ca_sync_step()`.  What these calls meet (which data has arrived, which remotes and workers have
something to do, what fails) is a list with one item per call, `Env`.

Not modelled: how the bytes of the archive are found (index, store, remotes: the properties C39 and C53); seeds (`casync mount` has them only if asked to, and
they are finished before the decoder gets its first data); `casync_ioctl()`, `casync_statfs()`; mounting itself; the log.
`ca_sync_acquire_archive_size()` sets the size in the decoder at the first seek; here it is set from the start (only seeks look at it, and they are
refused until it has been acquired).  `struct stat` without times other than the one stored.
-/
namespace Casync.Fuse
open Casync Flags Archive

/-- What the fields of `CaSync` (src/casync.c) that matter here hold: the decoder, `archive_eof`, and `archive_size != UINT64_MAX`. -/
structure Mount where
  dec : SDec
  eof : Bool := false
  sized : Bool := false
  deriving DecidableEq, Repr

/-- What the source of the archive has when the decoder needs it: at least one and at most `n + 1` bytes (or the end); nothing yet; it fails. -/
inductive Source
  | bytes (n : Nat)
  | later
  | fail (e : Errno)
  deriving DecidableEq, Repr

/-- What one call of `ca_sync_step()` does: the decoder makes a step; something else has happened or nothing (`CA_SYNC_STEP`, `CA_SYNC_POLL` followed by a
`sync_poll_sigset()`, events of seeds); something else has failed, or the program has been told to stop (`-ESHUTDOWN`). -/
inductive Env
  | run (s : Source)
  | idle
  | fail (e : Errno)
  deriving DecidableEq, Repr

/-- src/casync.h:16-27, the results of `ca_sync_step()`; `go` are those the loops below pass over. -/
inductive Out
  | finished | go | nextFile | doneFile | payload | found | notFound
  deriving DecidableEq, Repr

/-- Another decoder. -/
def put (m : Mount) (d : SDec) : Mount := { m with dec := d }

/-- src/casync.c:2321-2440 `ca_sync_process_decoder_request`. -/
def feed (A : Bytes) (m : Mount) : Source → Mount × Res Out
  | .later => (m, .ok .go)
  | .fail e => (m, .err e)
  | .bytes n =>
    let p := (A.drop (requestOffset m.dec)).take (n + 1)
    if p = [] then (put m (withCore m.dec (putEof m.dec.core)), .ok .go)
    else match putData m.dec.core p with
      | .ok c => (put m (withCore m.dec c), .ok .go)
      | .err e => (m, .err e)
      | .ub => (m, .ub)

/-- src/casync.c:2507-2536 `ca_sync_process_decoder_seek` and 2538-2566 `ca_sync_process_decoder_skip`: the source is moved to another place, which can
fail. -/
def move (m : Mount) : Source → Mount × Res Out
  | .fail e => (m, .err e)
  | _ => (m, .ok .go)

/-- src/casync.c:2619-2680 `ca_sync_step_decode` and 3195-3237 `ca_sync_step`. -/
def sync (A : Bytes) (m : Mount) : Env → Mount × Res Out
  | .idle => (m, .ok .go)
  | .fail e => (m, .err e)
  | .run src =>
    if m.eof then (m, .err .EPIPE)
    else
      let r := sStep m.dec
      let m := put m r.1
      match r.2 with
      | .err e => (m, .err e)
      | .ub => (m, .ub)
      | .ok .found => (m, .ok .found)
      | .ok .notFound => (m, .ok .notFound)
      | .ok .seek => move m src
      | .ok (.plain .skip) => move m src
      | .ok (.plain .request) => feed A m src
      | .ok (.plain .step) => (m, .ok .go)
      | .ok (.plain .nextFile) => (m, .ok .nextFile)
      | .ok (.plain .doneFile) => (m, .ok .doneFile)
      | .ok (.plain .payload) => (m, .ok .payload)
      | .ok (.plain .finished) => ({ m with eof := true }, .ok .finished)

/-- src/casync.c:3967-4058 `ca_sync_seek_path`, `ca_sync_seek_path_offset`, `ca_sync_seek_next_sibling`, with 3900-3934 `ca_sync_acquire_archive_size`;
`size` is set if the size cannot be found out now. -/
def seekWith (m : Mount) (size : Option Errno) (f : SDec → SDec × Res Bool) : Mount × Res Unit :=
  match m.sized, size with
  | false, some e => (m, .err e)
  | _, _ =>
    let r := f m.dec
    match r.2 with
    | .ok _ => ({ dec := r.1, eof := false, sized := true }, .ok ())
    | .err e => ({ m with dec := r.1, sized := true }, .err e)
    | .ub => ({ m with dec := r.1, sized := true }, .ub)

/-- src/casync.c:363-380 `ca_sync_set_payload`. -/
def setPayload (m : Mount) (on : Bool) : Mount :=
  put m (withCore m.dec { m.dec.core with cfg := { m.dec.core.cfg with wantPayload := on } })

/-- `struct stat` as `fill_stat()` makes it; `st_rdev` as major and minor. -/
structure Stat where
  mode : Word
  nlink : Nat
  size : Nat
  rdev : Nat × Nat
  uid : Nat
  gid : Nat
  mtime : Nat
  deriving DecidableEq, Repr

/-- What was parsed at the current node has been asked for one of its fields, under the flags `need` (src/cadecoder.c:4651-4675, 4700-4746). -/
def field (d : SDec) (need : Word) (f : Entry → Nat) : Nat :=
  if has d.core.ff.replay need then
    match curParsed d.core with
    | some p => f p.entry
    | none => 0
  else 0

/-- src/cadecoder.c:4677-4698 `ca_decoder_current_size` (`UINT64_MAX` if it is not known). -/
def curSize (d : SDec) : Nat :=
  match d.core.nodes with
  | n :: _ => (nodeSize n).getD u64max
  | [] => 0

/-- src/cadecoder.c:4829-4850 `ca_decoder_current_rdev`. -/
def curRdev (d : SDec) : Nat × Nat :=
  match curParsed d.core with
  | some p => (match p.term with | .device x y => (x, y) | _ => (0, 0))
  | none => (0, 0)

/-- src/cafuse.c:88-126 `fill_stat`. -/
def fillStat (d : SDec) : Res Stat :=
  match curMode d with
  | none => .err .ENODATA
  | some mode => .ok {
      mode := mode
      nlink := if isType mode ifDir then 2 else 1
      size := if isType mode ifReg then curSize d else 0
      rdev := if isType mode ifBlk || isType mode ifChr then curRdev d else (0, 0)
      uid := field d (with16BitUids ||| with32BitUids) Entry.uid
      gid := field d (with16BitUids ||| with32BitUids) Entry.gid
      mtime := field d (withNsecTime ||| withUsecTime ||| withSecTime ||| with2SecTime) Entry.mtime }

/-- src/cafuse.c:30-73 `iterate_until_file`; `none` if the list is too short: the loop is still running. -/
def untilFile (A : Bytes) : List Env → Mount → Mount × Option (Res Unit)
  | [], m => (m, none)
  | e :: es, m =>
    let r := sync A m e
    match r.2 with
    | .err e => (r.1, some (.err e))
    | .ub => (r.1, some .ub)
    | .ok .finished => (r.1, some (.err .EIO))
    | .ok .nextFile => (r.1, some (.ok ()))
    | .ok .notFound => (r.1, some (.err .ENOENT))
    | .ok _ => untilFile A es r.1

/-- src/cafuse.c:75-86 `seek_to_path`. -/
def toPath (A : Bytes) (m : Mount) (p : Bytes) (size : Option Errno) (es : List Env) : Mount × Option (Res Unit) :=
  let r := seekWith m size (seekPath · p)
  match r.2 with
  | .ok _ => untilFile A es r.1
  | .err e => (r.1, some (.err e))
  | .ub => (r.1, some .ub)

/-- src/cafuse.c:598-643, the loop of `feature_flags_warning()`, which is run once before the first call: until the feature flags are known. -/
def warmUp (A : Bytes) : List Env → Mount → Mount × Option (Res Unit)
  | es, m =>
    if m.dec.core.ff.ff ≠ none64 then (m, some (.ok ()))
    else match es with
      | [] => (m, none)
      | e :: es =>
        let r := sync A m e
        match r.2 with
        | .err e => (r.1, some (.err e))
        | .ub => (r.1, some .ub)
        | .ok .finished => (r.1, some (.err .EIO))
        | .ok _ => warmUp A es r.1

/-- GNU `basename()`. -/
def baseName (p : Bytes) : Bytes := (p.reverse.takeWhile (· != 47)).reverse

/-- The entries of a directory with what is known of them, as they are given to `filler()`. -/
abbrev Listing := List (Bytes × Option Stat)

/-- src/cafuse.c:212-278, the loop of `casync_readdir()`.  `room` is how many entries the buffer takes. -/
def listing (A : Bytes) (room : Nat) : List Env → Mount → Bool → Listing → Mount × Option (Res Listing)
  | [], m, _, _ => (m, none)
  | e :: es, m, top, acc =>
    let r := sync A m e
    match r.2 with
    | .err e => (r.1, some (.err e))
    | .ub => (r.1, some .ub)
    | .ok .finished => (r.1, some (.ok acc))
    | .ok .notFound => (r.1, some (.err .ENOENT))
    | .ok .nextFile =>
      if !top then listing A room es r.1 true acc
      else
        match fillStat r.1.dec with
        | .err e => (r.1, some (.err e))
        | .ub => (r.1, some .ub)
        | .ok st =>
          if acc.length ≥ room then (r.1, some (.err .ENOBUFS))
          else
            let s := seekWith r.1 none seekNextSibling
            match s.2 with
            | .ok _ => listing A room es s.1 true (acc ++ [(baseName (pathString (currentPath r.1.dec.core)), some st)])
            | .err e => (s.1, some (.err e))
            | .ub => (s.1, some .ub)
    | .ok _ => listing A room es r.1 top acc

/-- src/cafuse.c:186-283 `casync_readdir`.  46 is ".". -/
def readdir (A : Bytes) (m : Mount) (p : Bytes) (room : Nat) (size : Option Errno) (es : List Env) : Mount × Option (Res Listing) :=
  if room < 2 then (m, some (.err .ENOBUFS))
  else
    let r := seekWith (setPayload m false) size (seekPath · p)
    match r.2 with
    | .ok _ => listing A room es r.1 false [([46], none), ([46, 46], none)]
    | .err e => (r.1, some (.err e))
    | .ub => (r.1, some .ub)

/-- src/cafuse.c:323-384, the loop of `casync_read()`: `size` is what is left, `acc` what has been copied. -/
def content (A : Bytes) : List Env → Mount → Nat → Bytes → Mount × Option (Res Bytes)
  | es, m, size, acc =>
    if size = 0 then (m, some (.ok acc))
    else match es with
      | [] => (m, none)
      | e :: es =>
        let r := sync A m e
        match r.2 with
        | .err e => (r.1, some (.err e))
        | .ub => (r.1, some .ub)
        | .ok .finished => (r.1, some (.ok acc))
        | .ok .notFound => (r.1, some (.err .ENOENT))
        | .ok .payload =>
          let b := (getPayload r.1.dec.core).take size
          content A es r.1 (size - b.length) (acc ++ b)
        | .ok _ => content A es r.1 size acc

/-- src/cafuse.c:305-389 `casync_read`. -/
def read (A : Bytes) (m : Mount) (p : Bytes) (len offset : Nat) (size : Option Errno) (es : List Env) : Mount × Option (Res Bytes) :=
  if offset = u64max then (setPayload m true, some (.err .EINVAL))
  else
    let r := seekWith (setPayload m true) size (seekPathOffset · p offset)
    match r.2 with
    | .ok _ => content A es r.1 len []
    | .err e => (r.1, some (.err e))
    | .ub => (r.1, some .ub)

/-- The extended attributes of the current node. -/
def curXattrs (d : SDec) : List (Bytes × Bytes) :=
  match curParsed d.core with
  | some p => p.attrs.xattrs
  | none => []

/-- src/cadecoder.c:4626-4649 `ca_decoder_current_target`. -/
def curTarget (d : SDec) : Res Bytes :=
  match curMode d, curParsed d.core with
  | some m, some p => if !isType m ifLnk then .err .ENODATA else (match p.term with | .symlink t => .ok t | _ => .err .ENODATA)
  | _, _ => .err .ENODATA

/-- What is asked of the file system; a buffer of `size` bytes is given with some. -/
inductive Call
  | getattr (p : Bytes)
  | readlink (p : Bytes) (size : Nat)
  | readdir (p : Bytes) (room : Nat)
  | open (p : Bytes) (readOnly : Bool)
  | read (p : Bytes) (size offset : Nat)
  | getxattr (p name : Bytes) (size : Nat)
  | listxattr (p : Bytes) (size : Nat)
  deriving DecidableEq, Repr

/-- What is given back; `denied` is `-EACCES`. -/
inductive Reply
  | stat (s : Stat)
  | target (b : Bytes)
  | listing (l : Listing)
  | opened
  | denied
  | data (b : Bytes)
  | length (n : Nat)
  | failed (e : Errno)
  | crash
  deriving DecidableEq, Repr

/-- The end of a call that goes to a path first. -/
def thenAt (r : Mount × Option (Res Unit)) (f : SDec → Reply) : Mount × Option Reply :=
  match r.2 with
  | none => (r.1, none)
  | some (.err e) => (r.1, some (.failed e))
  | some .ub => (r.1, some .crash)
  | some (.ok _) => (r.1, some (f r.1.dec))

/-- A result as a reply. -/
def reply {α : Type} (f : α → Reply) : Res α → Reply
  | .ok a => f a
  | .err e => .failed e
  | .ub => .crash

/-- src/cafuse.c:515-537, the answer of `casync_getxattr()` once the path has been reached. -/
def xattrReply (l : List (Bytes × Bytes)) (name : Bytes) (size : Nat) : Reply :=
  match l.find? (fun x => x.1 == name) with
  | none => .failed .ENODATA
  | some x => if size = 0 then .length x.2.length else if size < x.2.length then .failed .ERANGE else .data x.2

/-- src/cafuse.c:552-583, the answer of `casync_listxattr()` once the path has been reached: the names, each with a NUL. -/
def listReply (l : List (Bytes × Bytes)) (size : Nat) : Reply :=
  let b := l.flatMap fun x => x.1 ++ [0]
  if size = 0 then .length b.length else if size < b.length then .failed .ERANGE else .data b

/-- src/cafuse.c:132-583: the calls; `size` and `es` are what they meet. -/
def serve (A : Bytes) (m : Mount) (c : Call) (size : Option Errno) (es : List Env) : Mount × Option Reply :=
  match c with
  | .getattr p => thenAt (toPath A m p size es) fun d => reply .stat (fillStat d)
  | .readlink p n => thenAt (toPath A m p size es) fun d => reply (fun b => .target (b.take n)) (curTarget d)
  | .open p ro => thenAt (toPath A m p size es) fun _ => if ro then .opened else .denied
  | .getxattr p name n => thenAt (toPath A m p size es) fun d => xattrReply (curXattrs d) name n
  | .listxattr p n => thenAt (toPath A m p size es) fun d => listReply (curXattrs d) n
  | .readdir p room =>
    let r := readdir A m p room size es
    (r.1, r.2.map (reply .listing))
  | .read p n off =>
    let r := read A m p n off size es
    (r.1, r.2.map (reply .data))

end Casync.Fuse
