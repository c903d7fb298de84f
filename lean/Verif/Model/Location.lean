import Verif.Model.NameTable
/-!
Locations (calocation.c): a position in the serialization of a directory tree, and their text form.
-/
namespace Casync.Location
open Casync Number

/-- `CaLocation`, calocation.h:54-86.  `path` empty stands for `NULL` (`ca_location_new()` and `ca_location_parse()` store `NULL` for an
empty path).  `root` is the identity of the root object, if there is one.  `generation` carries `generation_valid`; the number is the
unsigned reading of the `int`.  Unknown values are `UINT64_MAX` as in the code.  Reference count and cached text are in `Obj` below. -/
structure Location where
  path : Bytes := []
  designator : UInt8
  offset : Nat := u64max
  size : Nat := u64max
  root : Option Nat := none
  mtime : Nat := u64max
  inode : Nat := 0
  generation : Option Nat := none
  nameTable : NameTable.Chain := []
  archiveOffset : Nat := u64max
  featureFlags : Nat := u64max
  deriving DecidableEq, Repr

/-- `CA_LOCATION_VOID` -/
abbrev void : UInt8 := 118

/-- `CA_LOCATION_DESIGNATOR_VALID()`, calocation.h:29-36: `e`, `p`, `n`, `g`, `v`. -/
def designatorValid (d : UInt8) : Bool := d == 101 || d == 112 || d == 110 || d == 103 || d == 118

/-- `ca_location_new()`, calocation.c:30-70; the path argument `none` is `NULL`. -/
def new (path : Option Bytes) (designator : UInt8) (offset size : Nat) : Res Location :=
  if !designatorValid designator then .err .EINVAL
  else if (path.getD []).head? = some 47 then .err .EINVAL
  else if offset = u64max then .err .EINVAL
  else if size = 0 then .err .EINVAL
  else if designator = void ∧ path.isSome then .err .EINVAL
  else if size ≠ u64max ∧ (offset + size) % 2 ^ 64 < offset then .err .EINVAL
  else .ok { path := path.getD [], designator, offset := if designator = void then 0 else offset, size }

/-- `ca_location_new_void()`, calocation.h:97-99. -/
def newVoid (size : Nat) : Res Location := new none void 0 size

/-- `CaLocationWith`, calocation.h:38-46. -/
structure With where
  size : Bool
  mtime : Bool
  featureFlags : Bool
  archiveOffset : Bool
  nameTable : Bool
  deriving DecidableEq, Repr

/-- `CA_LOCATION_WITH_ALL` -/
def withAll : With := ⟨true, true, true, true, true⟩

/-- The `:` part, calocation.c:161-165. -/
def fmtSize (l : Location) (w : With) : Bytes := if w.size ∧ l.size ≠ u64max then 58 :: dec l.size else []

/-- The `@` part, calocation.c:167-179. -/
def fmtMtime (l : Location) (w : With) : Bytes :=
  if w.mtime ∧ l.mtime ≠ u64max then
    64 :: dec l.inode ++ (46 :: dec l.mtime ++ (match l.generation with
      | some g => 46 :: dec g
      | none => []))
  else []

/-- The `%` part, calocation.c:181-185. -/
def fmtFlags (l : Location) (w : With) : Bytes := if w.featureFlags ∧ l.featureFlags ≠ u64max then 37 :: hex l.featureFlags else []

/-- The `#` part, calocation.c:187-191. -/
def fmtArchiveOffset (l : Location) (w : With) : Bytes :=
  if w.archiveOffset ∧ l.archiveOffset ≠ u64max then 35 :: dec l.archiveOffset else []

/-- The `$` part, calocation.c:193-200. -/
def fmtNameTable (l : Location) (w : With) : Bytes :=
  if w.nameTable ∧ l.nameTable ≠ [] then 36 :: NameTable.format l.nameTable else []

/-- `ca_location_format_full()`, calocation.c:127-210, without the cache of the last text (see `Obj.format`). -/
def format (l : Location) (w : With) : Bytes :=
  l.path ++ (43 :: l.designator :: (dec l.offset ++ (fmtSize l w ++ (fmtMtime l w ++ (fmtFlags l w ++
    (fmtArchiveOffset l w ++ fmtNameTable l w))))))

/-- `strrchr()`: what precedes and follows the last `c`. -/
def splitLast (c : UInt8) : Bytes → Option (Bytes × Bytes)
  | [] => none
  | b :: r =>
    match splitLast c r with
    | some (x, y) => some (b :: x, y)
    | none => if b = c then some ([], r) else none

/-- `strchr()` and `strndupa()`: the text before the first `c`, and what follows it if there is one. -/
def cut (c : UInt8) (s : Bytes) : Bytes × Option Bytes :=
  match s.dropWhile (· ≠ c) with
  | [] => (s, none)
  | _ :: r => (s.takeWhile (· ≠ c), some r)

/-- An optional number that must not be `UINT64_MAX`, calocation.c:249-259 (`#`) and 261-271 (`%`). -/
def optNumber (read : Bytes → Res Nat) : Option Bytes → Res Nat
  | none => .ok u64max
  | some s =>
    match read s with
    | .ok v => if v = u64max then .err .EINVAL else .ok v
    | r => r

/-- The `@` suffix, calocation.c:273-313: mtime, inode, generation. -/
def parseMtime : Option Bytes → Res (Nat × Nat × Option Nat)
  | none => .ok (u64max, 0, none)
  | some s =>
    match cut 46 s with
    | (_, none) => .err .EINVAL
    | (w, some z) => do
      let inode ← atou64 w
      let (zm, k) := cut 46 z
      let generation ← (match k with
        | none => (Res.ok none : Res (Option Nat))
        | some k => match atou k with
          | .ok g => .ok (some g)
          | .err e => .err e
          | .ub => .ub)
      let mtime ← atou64 zm
      if mtime = u64max then .err .EINVAL else .ok (mtime, inode, generation)

/-- The `:` suffix, calocation.c:315-325. -/
def parseSizeField : Option Bytes → Res Nat
  | none => .ok u64max
  | some s =>
    match atou64 s with
    | .ok v => if v = 0 ∨ v = u64max then .err .EINVAL else .ok v
    | r => r

/-- The `$` suffix, calocation.c:238-247. -/
def parseNameTable : Option Bytes → Res NameTable.Chain
  | none => .ok []
  | some s => NameTable.parse s

/-- `ca_location_parse()`, calocation.c:212-371. -/
def parse (text : Bytes) : Res Location :=
  match splitLast 43 text with
  | none => .err .EINVAL
  | some (path, u) =>
    if path ≠ [] ∧ text.head? = some 47 then .err .EINVAL
    else match u with
    | [] => .err .EINVAL
    | d :: u =>
      if !designatorValid d then .err .EINVAL
      else do
        let (u, q) := cut 36 u
        let nt ← parseNameTable q
        let (u, q) := cut 35 u
        let archiveOffset ← optNumber atou64 q
        let (u, q) := cut 37 u
        let features ← optNumber atox64 q
        let (u, q) := cut 64 u
        let (mtime, inode, generation) ← parseMtime q
        let (u, q) := cut 58 u
        let size ← parseSizeField q
        let offset ← atou64 u
        if offset = u64max then .err .EINVAL
        else if size ≠ u64max ∧ (offset + size) % 2 ^ 64 < offset then .err .EINVAL
        else if d = void ∧ path ≠ [] then .err .EINVAL
        else .ok { path, designator := d, offset := if d = void then 0 else offset, size, root := none, mtime, inode, generation,
                   nameTable := nt, archiveOffset, featureFlags := features }

/-- `ca_location_equal()`, calocation.c:637-689. -/
def equal (a b : Location) (w : With) : Bool :=
  a.designator == b.designator && a.offset == b.offset && a.path == b.path &&
  (!w.size || a.size == b.size) &&
  (!w.mtime || (a.mtime == b.mtime && (a.mtime == u64max ||
    (a.inode == b.inode && a.generation.isSome == b.generation.isSome && (a.generation.isNone || a.generation == b.generation))))) &&
  (!w.featureFlags || a.featureFlags == b.featureFlags) &&
  (!w.nameTable || NameTable.equal a.nameTable b.nameTable)

/-- `ca_location_patch_size()`, calocation.c:373-401, on the value. -/
def patchSize (l : Location) (size : Nat) : Location := { l with size }

/-- `ca_location_advance()`, calocation.c:431-469, on the value. -/
def advance (l : Location) (n : Nat) : Res Location :=
  if n = 0 then .ok l
  else if l.size ≠ u64max ∧ n > l.size then .err .ESPIPE
  else .ok { l with
    offset := if l.designator ≠ void then (l.offset + n) % 2 ^ 64 else l.offset
    archiveOffset := if l.archiveOffset ≠ u64max then (l.archiveOffset + n) % 2 ^ 64 else l.archiveOffset
    size := if l.size ≠ u64max then l.size - n else l.size }

/-- `ca_location_merge()`, calocation.c:471-527, on the value: `none` when the locations are not contiguous (return value 0). -/
def merge (a b : Location) : Res (Option Location) :=
  if a.size = u64max then .err .EINVAL
  else if b.size = u64max then .err .EINVAL
  else if a.root ≠ b.root then .ok none
  else if a.path ≠ b.path then .ok none
  else if a.designator ≠ b.designator then .ok none
  else if a.designator ≠ void ∧ (a.offset + a.size) % 2 ^ 64 ≠ b.offset then .ok none
  else if a.mtime ≠ b.mtime then .ok none
  else if a.mtime ≠ u64max ∧ (a.inode ≠ b.inode ∨ a.generation.isSome ≠ b.generation.isSome ∨
      (a.generation.isSome ∧ a.generation ≠ b.generation)) then .ok none
  else .ok (some { a with size := (a.size + b.size) % 2 ^ 64 })

/-- What `ca_location_id_make()` feeds into the digest, calocation.c:602-635 (`ca_digest_write_u64()` writes little endian, u32 likewise). -/
def idInput (l : Location) (includeSize : Bool) : Bytes :=
  l.path ++ (l.designator :: (le64 l.offset ++ ((if includeSize ∧ l.size ≠ u64max then le64 l.size else []) ++
    ((if l.mtime ≠ u64max then le64 l.mtime ++ (le64 l.inode ++ (match l.generation with
        | some g => leN 4 g
        | none => [])) else []) ++
      (if l.featureFlags ≠ u64max then le64 l.featureFlags else [])))))

/-! ### The object with its cached text -/

/-- A reference counted `CaLocation` as one holder sees it: `shared` says that somebody else holds a reference, `cache` are `formatted`
and `formatted_with`. -/
structure Obj where
  loc : Location
  shared : Bool
  cache : Option (With × Bytes)

/-- `ca_location_format_full()` with the cache, calocation.c:152-153 and 205-207. -/
def Obj.format (o : Obj) (w : With) : Bytes × Obj :=
  match o.cache with
  | some (w', t) =>
    if w' = w then (t, o) else (Location.format o.loc w, { o with cache := some (w, Location.format o.loc w) })
  | none => (Location.format o.loc w, { o with cache := some (w, Location.format o.loc w) })

/-- Making an object writable: alone, the cached text is dropped; otherwise a copy without a cached text is taken, calocation.c:384-397,
446-457, 511-522.  (`ca_location_copy()` goes through `ca_location_new()`, which the caller's object already passed.) -/
def Obj.writable (o : Obj) : Obj := { o with shared := false, cache := none }

/-- `ca_location_patch_size()`, calocation.c:373-401. -/
def Obj.patchSize (o : Obj) (size : Nat) : Obj :=
  if o.loc.size = size then o else { o.writable with loc := Location.patchSize o.loc size }

/-- `ca_location_patch_root()`, calocation.c:403-429: with a single reference the cached text is kept. -/
def Obj.patchRoot (o : Obj) (root : Option Nat) : Obj :=
  if o.loc.root = root then o
  else if o.shared then { o.writable with loc := { o.loc with root } }
  else { o with loc := { o.loc with root } }

/-- `ca_location_advance()`, calocation.c:431-469. -/
def Obj.advance (o : Obj) (n : Nat) : Res Obj :=
  match Location.advance o.loc n with
  | .ok l => if n = 0 then .ok o else .ok { o.writable with loc := l }
  | .err e => .err e
  | .ub => .ub

/-- `ca_location_merge()`, calocation.c:471-527. -/
def Obj.merge (o : Obj) (b : Location) : Res (Bool × Obj) :=
  match Location.merge o.loc b with
  | .ok (some l) => .ok (true, { o.writable with loc := l })
  | .ok none => .ok (false, o)
  | .err e => .err e
  | .ub => .ub

end Casync.Location
