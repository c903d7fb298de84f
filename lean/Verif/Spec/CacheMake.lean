import Verif.Model.CacheMake
import Verif.Spec.Resume
import Verif.Spec.Cache
import Verif.Spec.Chunker
/-!
What making an index with the chunk cache has to achieve, and what is assumed of the cache.
-/
namespace Casync.CacheMake
open Resume

/-- Byte `i` of the archive is at the place `l`: an encoder for the tree reports it for this byte. -/
def LocAt (env : Env) (R : Obj) (i : Nat) (l : Location.Location) : Prop :=
  ∃ pos m due s x add, Hist env R pos m due s ∧ Data env due s x ∧ add < x.length ∧ currentLocation env s add = .ok l ∧ i = dataPos due pos x + add

/-- The place `j` bytes after the beginning of a location. -/
def byteLoc (l : Location.Location) (j : Nat) : Location.Location :=
  { l with offset := l.offset + j, archiveOffset := l.archiveOffset + j, size := u64max }

/-- The place of byte `j` of a sequence of locations. -/
def locOf : List Location.Location → Nat → Option Location.Location
  | [], _ => none
  | l :: ls, j => if j < l.size then some (byteLoc l j) else locOf ls (j - l.size)

/-- The origin describes the bytes of the archive from `a` on: each one is at the place the origin says, in the same state of the file. -/
def Covers (env : Env) (R : Obj) (o : Origin.Origin) (a : Nat) : Prop :=
  ∀ j, j < o.nBytes → ∃ l q, LocAt env R (a + j) l ∧ locOf o.items j = some q ∧ CacheSpec.Same l q

/-- `n` bytes from `a` on. -/
def slice (A : Bytes) (a n : Nat) : Bytes := (A.drop a).take n

/-- What a cache entry says is true of this tree: where the archive has the places of the origin, the chunk `id` is the one with the bytes there. -/
def Truthful (cfg : Cfg) (R : Obj) (id : Bytes) (o : Origin.Origin) : Prop :=
  ∀ a, Covers cfg.env R o a → cfg.digest (slice (archiveOf cfg.env R) a o.nBytes) = id

/-- A location with a known size that is not 0 and that does not reach over the end of the number range. -/
def Sized (l : Location.Location) : Prop := l.size ≠ 0 ∧ l.size < u64max ∧ (l.designator ≠ Location.void → l.offset + l.size < 2 ^ 64)

/-- What the cache delivers: an origin that begins at the place asked for (see `C35_delivered`) and, if it fits the tree, the right id. -/
def Honest (cfg : Cfg) (R : Obj) (look : Look) : Prop :=
  ∀ l id o, look l = .ok (id, o) → (∃ f r, o.items = f :: r ∧ CacheSpec.Same l f) ∧ (∀ x ∈ o.items, Sized x) ∧
    o.nBytes = CacheSpec.total o.items ∧ o.nBytes < u64max ∧ Truthful cfg R id o

/-- A seek that `C41_seek_partial` covers: not to the name of a directory that is open, and not right after a seek. -/
def SafeSeek (d : Drv) : Prop :=
  ∀ h, d.hit = some h → d.cst = .failed → d.sought = false ∧ (h.start.designator = 110 → ¬ Open d.enc h.start.path)

/-- A session: steps until nothing is left to do.  `K` says what the cache may answer. -/
inductive Session (cfg : Cfg) (R : Obj) (use : Bool) (K : Look → Prop) : Drv → Prop
  | start : Session cfg R use K (dStart cfg R use)
  | step {look d d' ev} : Session cfg R use K d → K look → SafeSeek d → dStep cfg look d = .ok (d', ev) → Session cfg R use K d'

/-- The cache answers with one of the entries `E` only, and only with one that begins at the place asked for (see `C35_delivered`); it need not have all of them. -/
def Answers (E : List (Origin.Origin × Bytes)) (look : Look) : Prop :=
  ∀ l id o, look l = .ok (id, o) → (o, id) ∈ E ∧ ∃ f r, o.items = f :: r ∧ CacheSpec.Same l f

/-- Wherever the archives of two trees have a byte at the same place, in the same state of the file, it is the same byte. -/
def Agree (env : Env) (R : Obj) (env' : Env) (R' : Obj) : Prop :=
  ∀ i i' l l', LocAt env R i l → LocAt env' R' i' l' → CacheSpec.Same l l' → (archiveOf env R)[i]? = (archiveOf env' R')[i']?

/-- Any number of sessions one after the other, with one cache and one store that are empty at first: the entries that were put into the cache and the
chunks that were stored.  The chunk sizes may differ from session to session, entries may get lost, and a session may end at any time.  `V` says which
trees are made indexes of. -/
inductive Sessions (digest : Bytes → Bytes) (V : Env → Obj → Prop) : List (Origin.Origin × Bytes) → List Bytes → Prop
  | none : Sessions digest V [] []
  | session {E S cfg R use d} : Sessions digest V E S → V cfg.env R → cfg.digest = digest → Chunker.Spec.Fresh cfg.chunker → Session cfg R use (Answers E) d → d.again = 0 →
      Sessions digest V (E ++ d.puts) (S ++ d.stored)

end Casync.CacheMake
