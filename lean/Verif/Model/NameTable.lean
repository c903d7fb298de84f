import Verif.Model.Number
/-!
Name tables (canametable.c): for a directory being serialized, the hashes of the names of its entries with the archive offsets of their
serializations, chained to the tables of the parent directories.
-/
namespace Casync.NameTable
open Casync Number

/-- `CaNameItem`, canametable.h:16-20. -/
structure Item where
  hash : Nat
  start : Nat
  «end» : Nat
  deriving DecidableEq, Repr

/-- One `CaNameTable` object without the link to its parent, canametable.h:22-34; reference count, allocation and the cached text are left
out. -/
structure Level where
  entryOffset : Nat
  items : List Item
  deriving DecidableEq, Repr

/-- A table followed by its parents up to the root directory; the empty list is a `NULL` pointer. -/
abbrev Chain := List Level

/-- One item, canametable.c:124-131. -/
def formatItem (i : Item) : Bytes := 72 :: hex i.hash ++ (83 :: hex i.start ++ (88 :: hex i.end))

/-- One level, canametable.c:118-132. -/
def formatLevel (l : Level) : Bytes := 79 :: hex l.entryOffset ++ (l.items.map formatItem).flatten

/-- `ca_name_table_format_realloc_buffer()`, canametable.c:107-136. -/
def format (t : Chain) : Bytes := (t.map formatLevel).flatten

/-- A tag letter and the hexadecimal number after it (`strspn(x, HEXDIGITS)`, `safe_atox64()`), canametable.c:175-185, 187-196, 198-207 and
the start of `ca_name_table_parse()`, 231-246. -/
def field (tag : UInt8) (x : Bytes) : Res (Nat × Bytes) :=
  match x with
  | [] => .err .EINVAL
  | c :: x =>
    if c ≠ tag then .err .EINVAL
    else match atox64 (x.takeWhile (isDigit 16)) with
      | .ok v => .ok (v, x.dropWhile (isDigit 16))
      | .err e => .err e
      | .ub => .ub

/-- `parse_one()`, canametable.c:161-217. -/
def parseOne (x : Bytes) : Res (Item × Bytes) := do
  let (h, x) ← field 72 x
  let (s, x) ← field 83 x
  let (e, x) ← field 88 x
  return (⟨h, s, e⟩, x)

/-- The loop of `ca_name_table_parse()`, canametable.c:248-277, up to the end of the text or the start of the next level.  Every turn
consumes text, the length of it is enough fuel. -/
def parseItems : Nat → Bytes → Res (List Item × Bytes)
  | 0, _ => .ub
  | fuel + 1, x =>
    match x with
    | [] => .ok ([], [])
    | 79 :: r => .ok ([], 79 :: r)
    | x => do
      let (i, x') ← parseOne x
      let (is, x'') ← parseItems fuel x'
      return (i :: is, x'')

/-- `ca_name_table_parse()`, canametable.c:219-285. -/
def parseLevels : Nat → Bytes → Res Chain
  | 0, _ => .ub
  | fuel + 1, x => do
    let (o, x) ← field 79 x
    let (is, x) ← parseItems (x.length + 1) x
    if x = [] then return [⟨o, is⟩]
    else do
      let parents ← parseLevels fuel x
      return ⟨o, is⟩ :: parents

/-- `ca_name_table_parse()` on a whole text. -/
def parse (x : Bytes) : Res Chain := parseLevels (x.length + 1) x

/-- `ca_name_table_equal()`, canametable.c:374-408: same offsets and items on every level, same number of levels. -/
def equal : Chain → Chain → Bool
  | [], [] => true
  | a :: as, b :: bs => a.entryOffset == b.entryOffset && a.items == b.items && equal as bs
  | _, _ => false

end Casync.NameTable
