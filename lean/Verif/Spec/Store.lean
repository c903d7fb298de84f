import Verif.Model.Store
/-!
Vocabulary for the store properties (C13, C14, C43).
-/
namespace Casync.Store
open Casync Os ChunkFile

/-- The bytes `d`, delivered as compressed or uncompressed, stand for the chunk `u`. -/
def Represents (cd : Codec) : Compression → Bytes → Bytes → Prop
  | .uncompressed, d, u => d = u
  | .compressed, d, u => cd.dec d = .ok u
  | .asIs, _, _ => False

/-- The chunk `u` belongs to `id`: under the configured digest, or under one of the supported ones if none is
configured. -/
def Matches (dg : Digest) (configured : Option Nat) (id u : Bytes) : Prop :=
  match configured with
  | some t => dg t u = id
  | none => dg 0 u = id ∨ dg 1 u = id

/-- No system call fails in this environment. -/
def NoFaults (env : Nat → Choice) : Prop := ∀ t, (env t).fail = none

/-- Reads deliver as many bytes as asked for, if the file has that many. -/
def FullReads (env : Nat → Choice) : Prop := ∀ t, BUF ≤ (env t).n

/-- The compression library inverts itself and never delivers nothing for something. -/
structure CodecOk (cd : Codec) (t : Nat) : Prop where
  inv : ∀ d, cd.dec (cd.enc t d) = .ok d
  pos : ∀ d, d ≠ [] → cd.enc t d ≠ []

end Casync.Store

namespace Casync.Store
open Casync Os ChunkFile

/-- One call of `ca_store_put` with the environment it runs in. -/
structure PutCall where
  store : Store
  fresh : Bytes
  id : Bytes
  eff : Compression
  tmp : Bytes
  data : Bytes
  env : Nat → Choice

namespace PutCall
variable (c : PutCall)
/-- The directory of the store. -/
def root : Bytes := c.store.root.getD c.fresh
/-- The complete run. -/
noncomputable def run (cd : Codec) (fs : FS) : (Res Unit × Store) × FS :=
  exec c.env 0 fs (put cd c.store c.fresh c.id c.eff c.tmp c.data)
/-- Ids have 32 bytes; the temporary suffix (".<random>.tmp") is neither empty nor ".cacnk". -/
def Valid : Prop := c.id.length = 32 ∧ c.tmp ≠ [] ∧ c.tmp ≠ cacnk
end PutCall

/-- The file system after a sequence of puts, whatever their results. -/
noncomputable def afterPuts (cd : Codec) : FS → List PutCall → FS
  | fs, [] => fs
  | fs, c :: l => afterPuts cd (c.run cd fs).2 l

/-- A chunk of a size that all paths of the store handle: compressed and uncompressed forms are shorter than the limit. -/
structure Sizes (cd : Codec) (types : List Nat) (u data : Bytes) : Prop where
  pos : 1 ≤ u.length
  posData : 1 ≤ data.length
  lt : u.length < MAX
  ltData : data.length < MAX
  ltEnc : ∀ t ∈ types, (cd.enc t u).length < MAX

/-- Some file of the chunk is in the store: compressed or not (or marked as missing). -/
def Present (fs : FS) (root id : Bytes) : Prop :=
  fs.names (ChunkId.formatPath root id cacnk) ≠ none ∨ fs.names (ChunkId.formatPath root id []) ≠ none

end Casync.Store
