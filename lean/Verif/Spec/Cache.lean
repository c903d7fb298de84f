import Verif.Model.Seed
import Verif.Spec.Origin
/-!
What an entry of the chunk cache says, and which locations are the same place in the same state of a file.
-/
namespace Casync.CacheSpec
open Casync

/-- The entry says: the chunk `id` was made of the locations with these texts.  Either a symbolic link `<id>:<location>`, or a file with the
binary id and the texts, each followed by a NUL byte. -/
inductive Says : Seed.Ent → Bytes → List Bytes → Prop
  | link (id t : Bytes) : id.length = 32 → Says (.link (ChunkId.format id ++ 58 :: t)) id [t]
  | file (id : Bytes) (ts : List Bytes) : id.length = 32 → (∀ t ∈ ts, (0 : UInt8) ∉ t) → Says (.file (id ++ (ts.map (· ++ [0])).flatten)) id ts

/-- The same kind of data at the same offset of the same file, in the same state (mtime, inode, generation), serialized with the same feature
flags. -/
def Same (a b : Location.Location) : Prop :=
  a.path = b.path ∧ a.designator = b.designator ∧ a.offset = b.offset ∧ a.mtime = b.mtime ∧
    (a.mtime ≠ u64max → a.inode = b.inode ∧ a.generation = b.generation) ∧ a.featureFlags = b.featureFlags

/-- Texts and the locations they stand for. -/
inductive Reads : List Bytes → List Location.Location → Prop
  | nil : Reads [] []
  | cons {t l ts ls} : Location.parse t = .ok l → Reads ts ls → Reads (t :: ts) (l :: ls)

/-- The number of bytes of all locations. -/
def total (ls : List Location.Location) : Nat := (ls.map (·.size)).sum

end Casync.CacheSpec
