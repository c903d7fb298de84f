import Verif.Model.Reflink
/-!
What a user relies on when the data of extracted files is shared with the files of a seed.
-/
namespace Casync.ReflinkSpec
open Casync Location Reflink

/-- Where in an extracted file each place it came from begins. -/
def placed : Nat → List (Location × Place × Env) → List (Nat × Location × Place × Env)
  | _, [] => []
  | off, x :: r => (off, x) :: placed (off + x.1.size) r

/-- The file has the identity it had when it was read. -/
def SameIdentity (l : Location) (f : File) : Prop :=
  l.mtime = u64max ∨ (f.inode = l.inode ∧ f.mtime = l.mtime ∧ (l.generation = none ∨ f.generation = l.generation))

/-- The file is still a regular file that has the `l.size` bytes at `l.offset` that were extracted to `off`. -/
def SameContent (l : Location) (f : File) (extracted : Bytes) (off : Nat) : Prop :=
  f.kind = .reg ∧ f.bytes.length < 2 ^ 63 ∧ l.offset + l.size ≤ f.bytes.length ∧ (f.bytes.drop l.offset).take l.size = (extracted.drop off).take l.size

/-- A place the content came from has not changed (or has been removed), and the system calls on it work, but for the cloning itself. -/
def Unchanged (extracted : Bytes) : Nat × Location × Place × Env → Prop
  | (off, l, p, v) => l.designator = payload →
    v.stat = none ∧ v.before = true ∧ v.after = true ∧ l.root ≠ none ∧ p.invalidated = false ∧
    (p.found = .err .ENOENT ∨ ∃ f, p.found = .ok f ∧ SameIdentity l f ∧ SameContent l f extracted off)

end Casync.ReflinkSpec
