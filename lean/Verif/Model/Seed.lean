import Verif.Model.Origin
import Verif.Model.Chunker
import Verif.Model.ChunkId
/-!
Seeds (`src/caseed.c`): a directory tree (or file) whose chunks are looked up by id.

The encoder that serializes the tree is an arbitrary machine here (`Encoder`): nothing is assumed about it, so that the files of the seed
may change at any time.  (The encoder itself is modelled in Model/Encoder.lean.)  Hardlink entries (`cache_hardlink`) are only modelled as far as
the lookup is concerned.  Allocation failures, reference counts and statistics are left out.
-/
namespace Casync.Seed
open Casync

/-- Results of `ca_encoder_step()` and `ca_encoder_seek_location()`: `CA_ENCODER_FINISHED`, or any of `CA_ENCODER_DATA`, `_NEXT_FILE`,
`_DONE_FILE`, `_PAYLOAD`, which are handled alike, src/caseed.c:513-516 and 643-646. -/
inductive EStep
  | finished | data
  deriving DecidableEq, Repr

/-- The encoder as the seed uses it: `ca_encoder_step()`, `ca_encoder_get_data()`, `ca_encoder_current_location()`,
`ca_encoder_seek_location()`, `src/caencoder.h`. -/
structure Encoder (σ : Type) where
  step : σ → Res EStep × σ
  getData : σ → Res Bytes
  location : σ → Nat → Res Location.Location
  seek : σ → Location.Location → Res EStep × σ

/-- An entry of the cache directory: a symbolic link, a regular file, or something else. -/
inductive Ent
  | link (target : Bytes)
  | file (content : Bytes)
  | other
  deriving DecidableEq, Repr

/-- The cache directory: path relative to it, entry. -/
abbrev Cache := Bytes → Option Ent

/-- The system calls that create an entry. No repo lines. -/
inductive Sys
  | symlink | write
  deriving DecidableEq, Repr

/-- What fails for reasons that are not modelled (no space, no permission, …). No repo lines. -/
abbrev Fail := Bytes → Sys → Option Errno

/-- src/caseed.c:29-55 `struct CaSeed`, the parts used; `opened`: `cache_fd >= 0`. -/
structure Seed (σ : Type) where
  cacheChunks : Bool := true
  opened : Bool := false
  ready : Bool := false
  enc : σ
  chunker : Chunker.Chunker
  buffer : Bytes := []
  bufLoc : Option Location.Location := none
  cache : Cache := fun _ => none

/-- The path of the entry for an id, src/caseed.c:276-277, 568-569, 748-749, 786-787. -/
def entryPath (id : Bytes) : Bytes := (ChunkId.format id).take 4 ++ 47 :: ChunkId.format id

/-- A changed entry. No repo lines. -/
def Cache.set (c : Cache) (p : Bytes) (e : Ent) : Cache := fun q => if q = p then some e else c q

/-- The longest target of a symbolic link, `PATH_MAX - 1` of Linux. No repo lines. -/
abbrev linkMax : Nat := 4095

/-- `symlinkat()`: the length of the target is checked first. The directory was just created (src/caseed.c:279). No repo lines. -/
def symlinkat (fail : Fail) (c : Cache) (target path : Bytes) : Res Cache :=
  match fail path .symlink with
  | some e => .err e
  | none =>
    if target.length > linkMax then .err .ENAMETOOLONG
    else if (c path).isSome then .err .EEXIST
    else .ok (c.set path (.link target))

/-- `ca_seed_write_cache_entry`, src/caseed.c:250-317. `H` is the chunk digest. The temporary file (293-313) is written and renamed to the
path, which replaces what was there; its own failures are `fail path .write`. -/
def writeEntry (fail : Fail) (H : Bytes → Bytes) (c : Cache) (loc : Location.Location) (data : Bytes) : Res Cache :=
  let loc := Location.patchSize loc data.length
  let t := Location.format loc Location.withAll
  let path := entryPath (H data)
  match symlinkat fail c t path with
  | .ok c => .ok c
  | .ub => .ub
  | .err .EEXIST => .ok c
  | .err .ENAMETOOLONG =>
    match fail path .write with
    | some e => .err e
    | none => .ok (c.set path (.file t))
  | .err e => .err e

/-- `if (!s->buffer_location) …`, src/caseed.c:340-344. -/
def startLocation {σ : Type} (E : Encoder σ) (s : Seed σ) (offset : Nat) : Res Location.Location :=
  match s.bufLoc with
  | some l => .ok l
  | none => E.location s.enc offset

/-- The loop of `ca_seed_cache_chunks`, src/caseed.c:336-376; the fuel bounds the number of rounds, running out of it is `ub`. -/
def cacheLoop {σ : Type} (E : Encoder σ) (fail : Fail) (H : Bytes → Bytes) : Nat → Seed σ → Nat → Bytes → Res (Seed σ)
  | _, s, _, [] => .ok s
  | 0, _, _, _ :: _ => .ub
  | fuel + 1, s, offset, p@(_ :: _) =>
    match startLocation E s offset with
    | .err e => .err e
    | .ub => .ub
    | .ok l =>
      match Chunker.scan s.chunker p with
      | .err e => .err e
      | .ub => .ub
      | .ok (none, c) => .ok { s with chunker := c, bufLoc := some l, buffer := s.buffer ++ p }
      | .ok (some k, c) =>
        match writeEntry fail H s.cache l (s.buffer ++ p.take k) with
        | .err e => .err e
        | .ub => .ub
        | .ok cache => cacheLoop E fail H fuel { s with chunker := c, bufLoc := none, buffer := [], cache := cache } (offset + k) (p.drop k)

/-- `ca_seed_cache_chunks`, src/caseed.c:319-379. -/
def cacheChunks {σ : Type} (E : Encoder σ) (fail : Fail) (H : Bytes → Bytes) (s : Seed σ) : Res (Seed σ) :=
  match E.getData s.enc with
  | .err .ENODATA => .ok s
  | .err e => .err e
  | .ub => .ub
  | .ok p => if !s.cacheChunks then .ok s else cacheLoop E fail H p.length s 0 p

/-- `ca_seed_cache_final_chunk`, src/caseed.c:381-403: a failure is ignored. -/
def cacheFinal {σ : Type} (fail : Fail) (H : Bytes → Bytes) (s : Seed σ) : Res (Seed σ) :=
  if !s.cacheChunks then .ok s
  else if s.buffer = [] then .ok s
  else match s.bufLoc with
    | none => .ok s
    | some l =>
      match writeEntry fail H s.cache l s.buffer with
      | .err _ => .ok s
      | .ub => .ub
      | .ok cache => .ok { s with cache := cache, buffer := [], bufLoc := none }

/-- `ca_seed_step`, src/caseed.c:468-535, without hardlink entries and for an encoder that could be set up; `true`: `CA_SEED_READY`. The
state is lost on error. -/
def seedStep {σ : Type} (E : Encoder σ) (fail : Fail) (H : Bytes → Bytes) (s : Seed σ) : Res (Bool × Seed σ) :=
  if s.ready then .err .EALREADY
  else if !s.cacheChunks then .ok (true, { s with ready := true })
  else
    match E.step s.enc with
    | (.err e, _) => .err e
    | (.ub, _) => .ub
    | (.ok .finished, enc) =>
      match cacheFinal fail H { s with opened := true, enc := enc } with
      | .err e => .err e
      | .ub => .ub
      | .ok s => .ok (true, { s with ready := true })
    | (.ok .data, enc) =>
      match cacheChunks E fail H { s with opened := true, enc := enc } with
      | .err e => .err e
      | .ub => .ub
      | .ok s => .ok (false, s)

/-- The limit for entries that are files, src/caseed.c:580. -/
abbrev fileMax : Nat := 1024 * 1024

/-- The text of the entry for an id, src/caseed.c:571-597: `readlinkat()`, or else the content of the file. -/
def readEntry (c : Cache) (id : Bytes) : Res Bytes :=
  match c (entryPath id) with
  | none => .err .ENOENT
  | some (.link t) => .ok t
  | some .other => .err .EISDIR
  | some (.file b) =>
    if b.length > fileMax then .err .E2BIG
    else if (0 : UInt8) ∈ b then .err .EINVAL
    else .ok b

/-- Record where `m` bytes came from, src/caseed.c:661-682. -/
def putOrigin (root : Nat) (o : Origin.Origin) (l : Location.Location) (m : Nat) : Res Origin.Origin :=
  Origin.put o { Location.patchSize l m with root := some root }

/-- `if (origin) { … }`, src/caseed.c:661-682. -/
def noteOrigin {σ : Type} (E : Encoder σ) (root : Nat) (enc : σ) (m : Nat) : Option Origin.Origin → Res (Option Origin.Origin)
  | none => .ok none
  | some o =>
    match E.location enc 0 with
    | .err e => .err e
    | .ub => .ub
    | .ok l => match putOrigin root o l m with
      | .ok o => .ok (some o)
      | .err e => .err e
      | .ub => .ub

/-- The loop of `ca_seed_get`, src/caseed.c:636-725. `step` is the result of the last step or seek, `p` what has been copied so far, `origin` is
`none` if the caller does not want one. The result is `none` if the loop is still running after `fuel` rounds. -/
def getLoop {σ : Type} (E : Encoder σ) (H : Bytes → Bytes) (root : Nat) (id : Bytes) (size : Nat) :
    Nat → Res EStep × σ → Bytes → Option Origin.Origin → Option (Res (Bytes × Option Origin.Origin) × σ)
  | 0, _, _, _ => none
  | _ + 1, (.err e, enc), _, _ => some (.err e, enc)
  | _ + 1, (.ub, enc), _, _ => some (.ub, enc)
  | _ + 1, (.ok .finished, enc), _, _ => some (.err .ESTALE, enc)
  | fuel + 1, (.ok .data, enc), p, origin =>
    match E.getData enc with
    | .err .ENODATA => getLoop E H root id size fuel (E.step enc) p origin
    | .err e => some (.err e, enc)
    | .ub => some (.ub, enc)
    | .ok q =>
      let m := min q.length (size - p.length)
      let p := p ++ q.take m
      match noteOrigin E root enc m origin with
      | .err e => some (.err e, enc)
      | .ub => some (.ub, enc)
      | .ok origin =>
        if p.length ≥ size then
          if ChunkId.equal id (H p) then some (.ok (p, origin), enc) else some (.err .ESTALE, enc)
        else getLoop E H root id size fuel (E.step enc) p origin

/-- The result of the seek as `ca_seed_get()` looks at it, src/caseed.c:617-620. -/
def seekResult : Res EStep → Res EStep
  | .err .ENXIO => .err .ESTALE
  | r => r

/-- `ca_seed_get`, src/caseed.c:537-730; `want`: the origin is asked for. The file root (`ca_seed_get_file_root()`) exists as soon as there is an
encoder. -/
def get {σ : Type} (E : Encoder σ) (H : Bytes → Bytes) (root : Nat) (s : Seed σ) (fuel : Nat) (id : Bytes) (want : Bool) :
    Option (Res (Bytes × Option Origin.Origin) × σ) :=
  if !s.opened then some (.err .EUNATCH, s.enc)
  else if !s.cacheChunks then some (.err .ENOMEDIUM, s.enc)
  else match readEntry s.cache id with
    | .err e => some (.err e, s.enc)
    | .ub => some (.ub, s.enc)
    | .ok target =>
      match Location.parse target with
      | .err e => some (.err e, s.enc)
      | .ub => some (.ub, s.enc)
      | .ok l =>
        if l.size = u64max then some (.err .ENOENT, s.enc)
        else if l.size > s.chunker.max then some (.err .EINVAL, s.enc)
        else
          match E.seek s.enc l with
          | (r, enc) => getLoop E H root id l.size fuel (seekResult r, enc) [] (if want then some Origin.empty else none)

/-- `ca_seed_has`, src/caseed.c:732-759. -/
def has {σ : Type} (s : Seed σ) (id : Bytes) : Res Bool :=
  if !s.opened then .err .EUNATCH
  else if !s.cacheChunks then .err .ENOMEDIUM
  else .ok (s.cache (entryPath id)).isSome

/-- `ca_seed_get_hardlink_target`, src/caseed.c:761-813: the path, empty for the root. `readlinkat()` of a file that is not a link is
`EINVAL`. -/
def hardlinkTarget {σ : Type} (s : Seed σ) (cacheHardlink : Bool) (id : Bytes) : Res Bytes :=
  if !s.opened then .err .EUNATCH
  else if !cacheHardlink then .err .ENOMEDIUM
  else match s.cache (entryPath id) with
    | none => .err .ENOENT
    | some (.file _) => .err .EINVAL
    | some .other => .err .EINVAL
    | some (.link t) =>
      match Location.parse t with
      | .err e => .err e
      | .ub => .ub
      | .ok l => if l.designator ≠ 101 ∨ l.offset ≠ 0 ∨ l.size ≠ u64max then .err .ENOENT else .ok l.path

end Casync.Seed
