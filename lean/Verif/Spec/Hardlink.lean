import Verif.Model.Hardlink
import Verif.Spec.Digest
import Verif.Props.Location
/-!
Hard links to seeds: what a seed knows, and when a file is what was archived.
-/
namespace Casync.Hardlink
open Casync Flags Archive

/-- The bytes that the hard link digest of an object covers. -/
def covered (t : Tree) : Bytes := headBytes t ++ content t

/-- The caches of a seed of the tree `s`: empty at first; whenever an object of the tree is left, an entry may be made for it; and entries for
chunks are made at any time. -/
inductive Seeded (H : Bytes → Bytes) (s : Tree) : Seed.Cache → Prop
  | empty : Seeded H s (fun _ => none)
  | object {c c' : Seed.Cache} {fail : Seed.Fail} {path : List Bytes} {t : Tree} : Seeded H s c → (path, t) ∈ postorder [] s →
      cacheHardlink fail c t.entry.mode (digestsOf H t).2 (joinPath path) = .ok c' → Seeded H s c'
  | chunk {c c' : Seed.Cache} {fail : Seed.Fail} {loc : Location.Location} {data : Bytes} : Seeded H s c →
      Location.WellFormed (Location.patchSize loc data.length) → data.length < u64max → Seed.writeEntry fail H c loc data = .ok c' → Seeded H s c'

/-- With this configuration, an encoder records the file with this metadata. -/
def Recorded (cfg : Meta.Cfg) (db : Meta.Names) (x : Inode) (e : Entry) (a : Attrs) : Prop := ∃ k k', Meta.gather cfg db k x.info = .ok (e, a, k')

/-- The files of a seed are still what they were when the seed was read. -/
def Unchanged (cfg : Meta.Cfg) (db : Meta.Names) (s : Tree) (files : Bytes → Option Nat) (inode : Nat → Inode) : Prop :=
  ∀ path e a api c, (path, Tree.file e a api c) ∈ postorder [] s → api = false ∧
    ∃ i, files (joinPath path) = some i ∧ Recorded cfg db (inode i) e a ∧ (inode i).content = c

/-- A seed with which a link is attempted: its number, its state, the failures of the attempt, and the temporary name that is chosen. -/
structure Attempt where
  number : Nat
  cache : Seed.Cache
  env : Env
  temp : Bytes

/-- A seed that has been read, as `ca_seed_get_hardlink_target()` needs it. -/
def seedOf (c : Seed.Cache) : Seed.Seed Unit := { opened := true, ready := true, enc := (), chunker := Chunker.init, cache := c }

/-- `ca_sync_try_hardlink()` with these seeds, for the file `n` with this digest. -/
def attempt (ff : Word) (n : Node) (digest : Bytes) (l : List Attempt) (fs : FS) : FS × Res Bool :=
  trySeeds ff n (l.map fun x => (x.number, Seed.hardlinkTarget (seedOf x.cache) true digest, x.env, x.temp)) fs

/-- The seed was read from a tree, its files have not been changed since, and the digest tells them from the archived file `t`. -/
def Genuine (H : Bytes → Bytes) (cfg : Meta.Cfg) (db : Meta.Names) (t : Tree) (fs : FS) (x : Attempt) : Prop :=
  ∃ s ff, areNormalized ff = .ok true ∧ Storable ff s ∧
    (∀ path e a api c, (path, Tree.file e a api c) ∈ postorder [] s → (stored api c).length < 2 ^ 62) ∧
    Seeded H s x.cache ∧ Unchanged cfg db s (fs.seeds x.number) fs.inode ∧
    ∀ path u, (path, u) ∈ postorder [] s → H (covered u) = H (covered t) → covered u = covered t

end Casync.Hardlink
