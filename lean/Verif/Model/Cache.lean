import Verif.Model.Seed
/-!
The chunk cache (`src/cacache.c`): from the locations a chunk was made of to the id of the chunk.

The cache directory is the map of Model/Seed.lean (`Seed.Cache`): path relative to it, entry.  It can always be opened (`ca_cache_open`).
Allocation failures are left out.  `H` is the chunk digest.
-/
namespace Casync.Cache
open Casync

/-- `".cachi"` -/
def suffix : Bytes := [46, 99, 97, 99, 104, 105]

/-- The path of the entry for a location, src/cacache.c:172-176, 309-313, 425-429. -/
def keyPath (H : Bytes → Bytes) (l : Location.Location) : Bytes := ChunkId.formatPath [] (H (Location.idInput l false)) suffix

/-- The NUL terminated strings in a buffer, and what follows the last NUL byte; the `memchr()` of src/cacache.c:235 and the
`realloc_buffer_advance()` of 263, over all rounds. -/
def pieces : Bytes → List Bytes × Bytes
  | [] => ([], [])
  | b :: r =>
    match pieces r with
    | (ps, rest) =>
      if b = 0 then ([] :: ps, rest)
      else match ps with
        | [] => ([], b :: rest)
        | p :: ps => ((b :: p) :: ps, rest)

/-- One location of an entry, src/cacache.c:252-269. -/
def addItem (o : Origin.Origin) (t : Bytes) : Res Origin.Origin :=
  match Location.parse t with
  | .err e => .err e
  | .ub => .ub
  | .ok item =>
    if item.size = u64max then .err .EINVAL
    else if item.mtime = u64max then .err .EINVAL
    else Origin.put o item

/-- The loop over the locations of an entry, src/cacache.c:227-270; `rest` is what follows the last NUL byte. -/
def readItems (o : Origin.Origin) : List Bytes → Bytes → Res Origin.Origin
  | [], rest => if rest = [] then .ok o else .err .EINVAL
  | t :: ts, rest =>
    match addItem o t with
    | .err e => .err e
    | .ub => .ub
    | .ok o => readItems o ts rest

/-- `CA_LOCATION_WITH_MTIME|CA_LOCATION_WITH_FEATURE_FLAGS` -/
def withState : Location.With := ⟨false, true, true, false, false⟩

/-- The end of `ca_cache_get`, src/cacache.c:223-288, for the id and the bytes after it. -/
def finish (l : Location.Location) (id : Bytes) (b : Bytes) : Res (Bytes × Origin.Origin) :=
  match readItems Origin.empty (pieces b).1 (pieces b).2 with
  | .err e => .err e
  | .ub => .ub
  | .ok o =>
    if o.nBytes = 0 then .err .EINVAL
    else match o.items with
      | [] => .err .EINVAL
      | first :: _ => if Location.equal l first withState then .ok (id, o) else .err .EINVAL

/-- `ca_cache_get`, src/cacache.c:144-289. The target of a symbolic link has no NUL bytes; its text includes the final NUL byte (203). -/
def get (H : Bytes → Bytes) (c : Seed.Cache) (l : Location.Location) : Res (Bytes × Origin.Origin) :=
  if l.mtime = u64max then .ub
  else match c (keyPath H l) with
    | none => .err .ENOENT
    | some .other => .err .EISDIR
    | some (.file b) => if b.length < 32 then .err .EINVAL else finish l (b.take 32) (b.drop 32)
    | some (.link t) =>
      if t.length + 1 < 65 then .err .EINVAL
      else if (t ++ [0])[64]? ≠ some 58 then .err .EINVAL
      else match ChunkId.parse (t.take 64) with
        | .err e => .err e
        | .ub => .ub
        | .ok none => .err .EINVAL
        | .ok (some id) => finish l id (t.drop 65 ++ [0])

/-- What is written into an entry that is a file, src/cacache.c:362-391. -/
def fileContent (id : Bytes) (items : List Location.Location) : Bytes :=
  id ++ (items.map (fun l => Location.format l Location.withAll ++ [0])).flatten

/-- The target of an entry that is a symbolic link, src/cacache.c:329-337. -/
def linkTarget (id : Bytes) (l : Location.Location) : Bytes := ChunkId.format id ++ 58 :: Location.format l Location.withAll

/-- src/cacache.c:354-405: the temporary file, and the rename, which replaces what is there. -/
def putFile (fail : Seed.Fail) (env : Seed.Cache → Seed.Cache) (c : Seed.Cache) (path : Bytes) (id : Bytes) (items : List Location.Location) :
    Res (Bool × Seed.Cache) :=
  match fail path .write with
  | some e => .err e
  | none => .ok (true, (env c).set path (.file (fileContent id items)))

/-- `ca_cache_put`, src/cacache.c:291-406; the result says whether an entry was added. `env` is what other processes do to the directory
between the check for the entry and the rename. -/
def put (fail : Seed.Fail) (env : Seed.Cache → Seed.Cache) (H : Bytes → Bytes) (c : Seed.Cache) (o : Origin.Origin) (id : Bytes) :
    Res (Bool × Seed.Cache) :=
  match o.items with
  | [] => .err .EINVAL
  | [first] =>
    match Seed.symlinkat fail c (linkTarget id first) (keyPath H first) with
    | .ok c => .ok (true, c)
    | .ub => .ub
    | .err .EEXIST => .ok (false, c)
    | .err .ENAMETOOLONG => putFile fail env c (keyPath H first) id [first]
    | .err e => .err e
  | first :: more =>
    if (c (keyPath H first)).isSome then .ok (false, c) else putFile fail env c (keyPath H first) id (first :: more)

/-- `ca_cache_remove`, src/cacache.c:408-441; removing the directory of the entry, if it is empty, is left out. -/
def remove (H : Bytes → Bytes) (c : Seed.Cache) (l : Location.Location) : Res Seed.Cache :=
  match c (keyPath H l) with
  | none => .err .ENOENT
  | some .other => .err .EISDIR
  | some _ => .ok (fun q => if q = keyPath H l then none else c q)

end Casync.Cache
