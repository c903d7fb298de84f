import Verif.Model.Location
/-!
Where a byte came from.
-/
namespace Casync.OriginSpec
open Casync Location

/-- The provenance of one byte: nowhere, or a position in a kind of data (payload, entry, file name, goodbye) of a file, with the state of
the file when it was read, if known (mtime, inode, generation). -/
inductive Prov
  | nowhere
  | at (root : Option Nat) (path : Bytes) (kind : UInt8) (state : Option (Nat × Nat × Option Nat)) (position : Nat)
  deriving DecidableEq

/-- The `i`th byte a location describes. -/
def byteOf (l : Location) (i : Nat) : Prov :=
  if l.designator = void then .nowhere
  else .at l.root l.path l.designator (if l.mtime = u64max then none else some (l.mtime, l.inode, l.generation)) (l.offset + i)

/-- The bytes of a location with a known size. -/
def bytesOf (l : Location) : List Prov := (List.range l.size).map (byteOf l)

/-- The bytes of a sequence of locations. -/
def allBytes (ls : List Location) : List Prov := (ls.map bytesOf).flatten

end Casync.OriginSpec
