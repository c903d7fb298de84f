import Verif.Model.Make
import Verif.Spec.SyncRead
import Verif.Props.StorePut
/-!
Vocabulary for C38: making an index with its store, and reading the stream back.
-/
namespace Casync.Make
open Casync Os ChunkFile Store

/-- An intact file of the chunk `x` is in the store at `root`: exactly one of the two file names of the id exists, its content stands for `x`, and
its length is within the limits. -/
def Kept (cd : Codec) (fs : FS) (root id x : Bytes) : Prop :=
  ∃ fc b, Holds cd fs root id fc b x ∧ 1 ≤ b.length ∧ b.length < MAX

/-- The directories of the stores. -/
def roots (c : Cfg) (m : Maker) : List Bytes :=
  (m.wstore.toList ++ m.cacheStore.toList).map fun s => s.root.getD c.fresh

/-- Two stores whose files and directories are not the same. -/
def Apart (r r' : Bytes) : Prop :=
  ∀ id id' suf suf' : Bytes, id.length = 32 → id'.length = 32 →
    ChunkId.formatPath r id suf ≠ ChunkId.formatPath r' id' suf' ∧ ChunkId.formatPath r id suf ≠ r' ∧
      ChunkId.formatPath r id suf ≠ dirOf r' id'

/-- What is assumed about digest, temporary names and compression for the chunks `xs`: ids have 32 bytes, no two chunks of the stream
share an id, temporary suffixes (".<random>.tmp") differ from the suffixes of chunk files, the compressor of each store
inverts itself, and the chunks are below the size limit, compressed or not. -/
structure Fits (c : Cfg) (m : Maker) (xs : List Bytes) : Prop where
  len : ∀ x ∈ xs, (c.digest x).length = 32
  inj : ∀ x ∈ xs, ∀ y ∈ xs, c.digest x = c.digest y → x = y
  tmp : ∀ n, c.tmp n ≠ [] ∧ c.tmp n ≠ cacnk
  codec : ∀ s ∈ m.wstore.toList ++ m.cacheStore.toList, CodecOk c.cd s.compressionType
  small : ∀ x ∈ xs, x.length < MAX ∧ ∀ s ∈ m.wstore.toList ++ m.cacheStore.toList, (c.cd.enc s.compressionType x).length < MAX

/-- What is assumed about the disk before: in each store every chunk of the stream is either not there or intact, and the random
temporary names are not taken. -/
structure Ready (c : Cfg) (rs : List Bytes) (xs : List Bytes) (fs : FS) : Prop where
  wf : WF fs
  intact : ∀ r ∈ rs, ∀ x ∈ xs, ¬ Present fs r (c.digest x) ∨ Kept c.cd fs r (c.digest x) x
  free : ∀ r ∈ rs, ∀ x ∈ xs, ∀ n, fs.names (ChunkId.formatPath r (c.digest x) (c.tmp n)) = none

/-- The chunks the chunker makes of a stream, with the final one. -/
def chunks (ch : Chunker.Chunker) (blocks : List Bytes) : List Bytes :=
  match Chunker.writeAll { chunker := ch, buffer := [], out := [] } blocks with
  | .ok w => Chunker.writeFinal w
  | _ => []

/-- What a get of the uncompressed chunk from the store `s` on the disk `fs` answers. -/
noncomputable def fromStore (cd : Codec) (dg : Digest) (s : Store.Store) (fs : FS) (env : Nat → Choice) (id : Bytes) : Res Bytes :=
  (exec env 0 fs (Store.get cd dg s id .uncompressed)).1.1 >>= fun d => .ok d.1

/-- A source says for the id of the chunk `x` either the chunk, or that it cannot help: it does not have it, or, if it is a seed, that
the file has changed since or that it is gone. -/
def Honest (src : Sync.Kind × (Bytes → Res Bytes)) (id x : Bytes) : Prop :=
  src.2 id = .ok x ∨ src.2 id = .err .ENOENT ∨ (src.1 = .seed ∧ (src.2 id = .err .ESTALE ∨ src.2 id = .err .ENOLINK))

/-- What the requests gave back, one after the other. -/
def answers (l : List (Sync.Op × Res Sync.Out)) : List (Res Sync.Out) := l.map (·.2)

/-- All bytes that were delivered. -/
def delivered : List (Res Sync.Out) → Bytes
  | [] => []
  | .ok (.data b) :: l => b ++ delivered l
  | _ :: l => delivered l

end Casync.Make
