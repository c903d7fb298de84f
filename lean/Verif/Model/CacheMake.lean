import Verif.Model.Resume
import Verif.Model.Cache
import Verif.Model.Chunker
/-!
Making an index with the chunk cache: `ca_sync_step_encode()` of `src/casync.c`, with a store, an index and a cache, and without an archive file,
a remote archive or digests (only then the cache is used for reading, src/casync.c:1280-1299).

What the cache answers is an input of each step (`look`): other programs may change it at any time, see `Model/Cache.lean`.  Failures of the store,
of the index, and of adding and removing cache entries are left out; they end the session.  So are the statistics.
-/
namespace Casync.CacheMake
open Resume

/-- src/casync.c:45-66 `CaCacheState`; `off` is for sessions that only fill the cache. -/
inductive CState | off | check | verify | failed | succeeded | idle
  deriving DecidableEq, Repr

/-- The cache entry in use: `current_cache_chunk_id`, `current_cache_chunk_size`, `current_cache_start_location` and `current_cache_origin`, the part
of the origin that was not seen yet. -/
structure Hit where
  id : Bytes
  size : Nat
  start : Location.Location
  origin : Origin.Origin
  deriving DecidableEq

/-- What does not change during a session: what is outside of the encoder, the chunk digest, and `original_chunker`. -/
structure Cfg where
  env : Env
  digest : Bytes → Bytes
  chunker : Chunker.Chunker

/-- The part of `struct CaSync` the encoding uses.  `origin` is `buffer_origin`, with `NULL` for an empty one.  `index`, `stored` and `puts` are what
was written to the index, to the store and to the cache, `removed` the keys of the cache entries that were removed.

Two fields are not in the code: `sought` says that the encoder was moved by a seek and did no step since; `again` counts the bytes that are emitted
twice, see `pieces`. -/
structure Drv where
  enc : REnc
  chunker : Chunker.Chunker
  buffer : Bytes := []
  origin : Origin.Origin := Origin.empty
  cst : CState
  hit : Option Hit := none
  index : List (Bytes × Nat) := []
  stored : List Bytes := []
  puts : List (Origin.Origin × Bytes) := []
  removed : List Location.Location := []
  eof : Bool := false
  sought : Bool := false
  again : Nat := 0

/-- The return values of `ca_sync_step_encode()`. -/
inductive SEv | poll | step | nextFile | payload | doneFile | finished
  deriving DecidableEq, Repr

/-- src/casync.c:1602-1612: a new session; `use` is `ca_sync_use_cache()`. -/
def dStart (cfg : Cfg) (r : Obj) (use : Bool) : Drv :=
  { enc := { cur := opened r [] }, chunker := cfg.chunker, cst := if use then .check else .off }

/-- src/casync.c:1638-1690 `ca_sync_write_one_chunk`.  The cache is read if it is in use, which is what `cst ≠ off` says. -/
def writeOne (cfg : Cfg) (d : Drv) (chunk : Bytes) (origin : Origin.Origin) : Res Drv := do
  Res.assert (decide (origin.nBytes = chunk.length))
  if origin.items = [] then .err .EINVAL
  else .ok { d with
    index := d.index ++ [(cfg.digest chunk, chunk.length)]
    stored := d.stored ++ [chunk]
    puts := d.puts ++ [(origin, cfg.digest chunk)]
    cst := if d.cst = .off then .off else .check }

/-- src/casync.c:1715-1761, the loop of `ca_sync_write_chunks`.  Every turn takes at least a byte; `fuel` is the number of bytes. -/
def writeLoop (cfg : Cfg) : Nat → Drv → Bytes → Res Drv
  | _, d, [] => .ok d
  | 0, _, _ :: _ => .ub
  | fuel + 1, d, b :: p =>
    match Chunker.scan d.chunker (b :: p) with
    | .ub => .ub
    | .err e => .err e
    | .ok (none, c) => .ok { d with chunker := c, buffer := d.buffer ++ b :: p }
    | .ok (some k, c) =>
      let chunk := d.buffer ++ (b :: p).take k
      if chunk.length = d.origin.nBytes then
        match writeOne cfg { d with chunker := c, origin := Origin.empty } chunk d.origin with
        | .ok d => writeLoop cfg fuel { d with buffer := [] } ((b :: p).drop k)
        | .err e => .err e
        | .ub => .ub
      else
        match Origin.extractBytes d.origin chunk.length, Origin.advanceBytes d.origin chunk.length with
        | .ok o, .ok rest =>
          (match writeOne cfg { d with chunker := c, origin := rest } chunk o with
          | .ok d => writeLoop cfg fuel { d with buffer := [] } ((b :: p).drop k)
          | .err e => .err e
          | .ub => .ub)
        | .ok _, .err e => .err e
        | .ok _, .ub => .ub
        | .err e, _ => .err e
        | .ub, _ => .ub

/-- src/casync.c:1692-1764 `ca_sync_write_chunks`, with the location of the data. -/
def writeChunks (cfg : Cfg) (d : Drv) (p : Bytes) (l : Location.Location) : Res Drv :=
  match Origin.put d.origin l with
  | .ok o => writeLoop cfg p.length { d with origin := o } p
  | .err e => .err e
  | .ub => .ub

/-- src/casync.c:1766-1795 `ca_sync_write_final_chunk` and 2074-2096: the end. -/
def finish (cfg : Cfg) (d : Drv) : Res (Drv × SEv) :=
  if d.buffer = [] then .ok ({ d with eof := true }, .finished)
  else match writeOne cfg d d.buffer d.origin with
    | .ok d => .ok ({ d with eof := true }, .finished)
    | .err e => .err e
    | .ub => .ub

/-- The cache: the id and the origin of an entry, `.err .ENOENT` if there is none. -/
abbrev Look := Location.Location → Res (Bytes × Origin.Origin)

/-- src/casync.c:1837-1862 `ca_sync_cache_get`; `none` is a miss. -/
def cacheGet (look : Look) (d : Drv) (l : Location.Location) : Res (Option Drv) :=
  if d.hit.isSome then .ub
  else match look l with
    | .ok (id, o) => .ok (some { d with hit := some { id := id, size := o.nBytes, start := l, origin := o } })
    | .err .ENOENT => .ok none
    | .err e => .err e
    | .ub => .ub

/-- The return value for an event with data, src/casync.c:2270-2273. -/
def seenAs : Archive.EEv → SEv
  | .nextFile => .nextFile
  | .payload => .payload
  | _ => .step

/-- src/casync.c:2233-2268: get the data and write it.  `l` is the location, if it is known already, `extra` the bytes to leave out; `skipped` says
that the content of a file was skipped, it cannot be had any more then. -/
def fresh (cfg : Cfg) (d : Drv) (l : Option Location.Location) (extra : Nat) (skipped : Bool) : Res Drv :=
  if skipped then .err .EKEYREVOKED
  else match getData cfg.env d.enc none with
    | (_, .err e) => .err e
    | (_, .ub) => .ub
    | (s, .ok x) =>
      match (match l with | some l => (Res.ok l : Res Location.Location) | none => currentLocation cfg.env s 0) with
      | .err e => .err e
      | .ub => .ub
      | .ok l => writeChunks cfg { d with enc := s } (x.drop extra) (Location.patchSize l (x.drop extra).length)

/-- src/casync.c:2173-2227, the loop after data was generated for a cache entry that matches: `n` bytes at `l` that are not accounted for yet.  What
is to be done with the data: nothing more, or write it, the location and the bytes to leave out.

The code leaves out only the bytes that belong to the last cache entry that was used up (2225, `extra_offset = sz`), although all of the `used` bytes
before are in the same buffer. -/
def pieces (look : Look) : Nat → Drv → Location.Location → Nat → Nat → Res (Drv × Option (Location.Location × Nat))
  | 0, _, _, _, _ => .ub
  | fuel + 1, d, l, n, used =>
    match d.hit with
    | none => .ub
    | some h =>
      match h.origin.items with
      | [] => .ub
      | cached :: more =>
        if n ≤ cached.size then
          match Origin.advanceBytes h.origin n with
          | .ok o => .ok ({ d with hit := some { h with origin := o } }, none)
          | .err e => .err e
          | .ub => .ub
        else if more ≠ [] then .ok ({ d with cst := .failed }, none)
        else
          match Location.advance l cached.size with
          | .err e => .err e
          | .ub => .ub
          | .ok l' =>
            match cacheGet look { d with index := d.index ++ [(h.id, h.size)], hit := none } l' with
            | .err e => .err e
            | .ub => .ub
            | .ok none => .ok ({ d with index := d.index ++ [(h.id, h.size)], hit := none, cst := .idle, again := d.again + used }, some (l', cached.size))
            | .ok (some d') => pieces look fuel d' l' (n - cached.size) (used + cached.size)

/-- src/casync.c:2135-2230, `CA_SYNC_CACHE_VERIFY` with data from the encoder. -/
def verifyData (cfg : Cfg) (look : Look) (d : Drv) (l : Location.Location) (ev : Archive.EEv) : Res (Drv × SEv) :=
  if d.buffer ≠ [] ∨ d.origin.nBytes ≠ 0 then .ub
  else match d.hit with
  | none => .ub
  | some h =>
    match h.origin.items with
    | [] => .ub
    | cached :: _ =>
      if !Location.equal l cached Cache.withState then .ok ({ d with cst := .failed }, .step)
      else if cached.size = u64max ∨ cached.size = 0 then .ub
      else match skipData cfg.env d.enc (some cached.size) with
        | (_, .err e) => .err e
        | (_, .ub) => .ub
        | (s, .ok x) =>
          match pieces look (x.length + 1) { d with enc := s } l x.length 0 with
          | .err e => .err e
          | .ub => .ub
          | .ok (d, none) => .ok (d, if d.cst = .failed then .step else seenAs ev)
          | .ok (d, some (l', extra)) =>
            match fresh cfg d (some l') extra (decide (d.enc.state = .inPayload)) with
            | .ok d => .ok (d, seenAs ev)
            | .err e => .err e
            | .ub => .ub

/-- src/casync.c:2091-2274: there is data. -/
def gotData (cfg : Cfg) (look : Look) (d : Drv) (ev : Archive.EEv) : Res (Drv × SEv) :=
  match d.cst with
  | .failed => .ub
  | .succeeded => .ub
  | .check =>
    if d.buffer ≠ [] ∨ d.origin.nBytes ≠ 0 then .ub
    else (match currentLocation cfg.env d.enc 0 with
    | .err e => .err e
    | .ub => .ub
    | .ok l =>
      match cacheGet look d l with
      | .err e => .err e
      | .ub => .ub
      | .ok none =>
        (match fresh cfg { d with cst := .idle } (some l) 0 false with
        | .ok d => .ok (d, seenAs ev)
        | .err e => .err e
        | .ub => .ub)
      | .ok (some d) => verifyData cfg look { d with cst := .verify } l ev)
  | .verify =>
    (match currentLocation cfg.env d.enc 0 with
    | .err e => .err e
    | .ub => .ub
    | .ok l => verifyData cfg look d l ev)
  | _ =>
    match fresh cfg d none 0 false with
    | .ok d => .ok (d, seenAs ev)
    | .err e => .err e
    | .ub => .ub

/-- src/casync.c:2059-2280: what is done with an event of the encoder. -/
def arrived (cfg : Cfg) (look : Look) (d : Drv) (ev : Archive.EEv) : Res (Drv × SEv) :=
  match ev with
  | .finished =>
    if d.cst = .verify then .ok ({ d with cst := .failed }, .step)
    else if d.cst = .failed ∨ d.cst = .succeeded then .ub
    else finish cfg d
  | .doneFile => .ok (d, .doneFile)
  | .nextFile => gotData cfg look d ev
  | .payload => gotData cfg look d ev
  | .data => gotData cfg look d ev

/-- src/casync.c:2053-2057. -/
def proceed (cfg : Cfg) (look : Look) (d : Drv) : Res (Drv × SEv) :=
  match step cfg.env d.enc with
  | (_, .err e) => .err e
  | (_, .ub) => .ub
  | (s, .ok ev) => arrived cfg look { d with enc := s, sought := false } ev

/-- src/casync.c:1957-1997, `CA_SYNC_CACHE_VERIFY` with data in the buffer. -/
def verifyBuffer (d : Drv) (h : Hit) : Res (Drv × SEv) :=
  match h.origin.items, d.origin.items with
  | a :: _, b :: _ =>
    if !Location.equal a b Cache.withState then .ok ({ d with cst := .failed }, .step)
    else if a.size = u64max ∨ a.size = 0 ∨ b.size = u64max ∨ b.size = 0 then .ub
    else
      let sz := min a.size b.size
      (match Origin.advanceBytes h.origin sz, Origin.advanceBytes d.origin sz with
      | .ok o, .ok rest =>
        if sz > d.buffer.length then .err .EINVAL
        else .ok ({ d with hit := some { h with origin := o }, origin := rest, buffer := d.buffer.drop sz }, .step)
      | .ok _, .err e => .err e
      | .ok _, .ub => .ub
      | .err e, _ => .err e
      | .ub, _ => .ub)
  | _, _ => .ub

/-- src/casync.c:1878-2290 `ca_sync_step_encode`. -/
def dStep (cfg : Cfg) (look : Look) (d : Drv) : Res (Drv × SEv) :=
  if d.eof then .ok (d, .poll)
  else match d.cst with
  | .off => proceed cfg look d
  | .idle => proceed cfg look d
  | .check =>
    if d.buffer = [] then proceed cfg look d
    else (match d.origin.items with
    | [] => .ub
    | l :: _ =>
      match cacheGet look d l with
      | .err e => .err e
      | .ub => .ub
      | .ok none => proceed cfg look { d with cst := .idle }
      | .ok (some d) => .ok ({ d with cst := .verify }, .step))
  | .verify =>
    (match d.hit with
    | none => .ub
    | some h =>
      if h.origin.nBytes = 0 then .ok ({ d with cst := .succeeded }, .step)
      else if d.buffer = [] then proceed cfg look d
      else verifyBuffer d h)
  | .succeeded =>
    (match d.hit with
    | none => .ub
    | some h => .ok ({ d with index := d.index ++ [(h.id, h.size)], hit := none, cst := .check }, .step))
  | .failed =>
    (match d.hit with
    | none => .ub
    | some h =>
      match seekLocation d.enc h.start with
      | .err e => .err e
      | .ub => .ub
      | .ok (s, ev) =>
        arrived cfg look { d with enc := s, hit := none, cst := .idle, buffer := [], origin := Origin.empty, chunker := cfg.chunker,
                                  removed := d.removed ++ [h.start], sought := true } ev)

end Casync.CacheMake
