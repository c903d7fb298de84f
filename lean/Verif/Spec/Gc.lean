import Verif.Spec.Os
import Verif.Spec.Index
import Verif.Model.Gc
/-!
What garbage collection is about.
-/
namespace Casync.Gc
open Casync Os ChunkFile

/-- `id` is referenced by one of the index files. -/
def Referenced (indexes : List Bytes) (id : Bytes) : Prop :=
  ∃ f ∈ indexes, ∃ cs i, Index.readAll f = .ok (cs, i) ∧ ∃ c ∈ cs, c.id = id

/-- The name of a compressed chunk: 64 hexadecimal digits and ".cacnk". -/
def chunkName (id : Bytes) : Bytes := ChunkId.format id ++ cacnk

/-- File names in directories have no slash and no NUL. -/
def Names (l : Listing) : Prop :=
  ∀ s ∈ l.subs, ∀ d ∈ s.entries, (47 : UInt8) ∉ d.name ∧ (0 : UInt8) ∉ d.name

/-- The name starts with the 64 digits of `id` followed by a dot, and ends in ".cacnk". -/
def Looks (id name : Bytes) : Prop :=
  id.length = 32 ∧ (∃ rest, name = ChunkId.format id ++ 46 :: rest) ∧ cacnk <:+ name

/-- The listing went through without errors. -/
def Clean (l : Listing) : Prop := l.err = none ∧ ∀ s ∈ l.subs, s.openErr = none ∧ s.readErr = none

/-- The listing has the entry `name` in the subdirectory `sub`, as a file. -/
def Lists (l : Listing) (sub name : Bytes) : Prop :=
  ∃ s ∈ l.subs, s.name = sub ∧ ∃ d ∈ s.entries, d.name = name ∧ (d.type = .reg ∨ d.type = .lnk ∨ d.type = .unknown)

/-- Every chunk file of the store is in the listing, in its subdirectory. -/
def Covers (root : Bytes) (fs : FS) (l : Listing) : Prop :=
  ∀ id, id.length = 32 → fs.names (ChunkId.formatPath root id cacnk) ≠ none →
    Lists l ((ChunkId.format id).take 4) (chunkName id)

/-- Every file that is listed exists. -/
def Sound (root parent : Bytes) (fs : FS) (l : Listing) : Prop :=
  ∀ s ∈ l.subs, ∀ d ∈ s.entries, fs.names (resolve root parent s.name ++ d.name) ≠ none

end Casync.Gc
