import Verif.Model.Store
import Verif.Model.Index
import Verif.Model.Chunker
/-!
Model of the part of `src/casync.c` that turns a stream into chunks in a store and an index.

The cache (`ca_cache_put`, casync.c:1675-1683, and the cache hits of 1796-1840) is off here; it is the subject of Model/Cache.lean.
Statistics are left out. The index file is the byte list of Model/Index.lean; how it gets to its final name is Model/Install.lean.
-/
namespace Casync.Make
open Casync Os ChunkFile

/-- What the outside provides: the compression library, the digest (`ca_chunk_id_make`), the directory name that a cache store without one
makes up, and the random suffix of the temporary file of each put. -/
structure Cfg where
  cd : Codec
  digest : Bytes → Bytes
  fresh : Bytes
  tmp : Nat → Bytes

/-- The fields of `struct CaSync` that the functions below use, src/casync.c:60-190; `count` is the number of chunks so far. -/
structure Maker where
  wstore : Option Store.Store := none
  cacheStore : Option Store.Store := none
  index : Option Index.Index := none
  count : Nat := 0

/-- src/casync.c:1656-1668: the chunk is put into a store, if there is one; that it is there already is not an error. -/
def putChunk (c : Cfg) (s : Option Store.Store) (n : Nat) (id x : Bytes) : Prog (Res Unit × Option Store.Store) :=
  match s with
  | none => .ret (.ok (), none)
  | some s =>
    Prog.bind (Store.put c.cd s c.fresh id .uncompressed (c.tmp n) x) fun r =>
      .ret (if r.1 = .err .EEXIST then .ok () else r.1, some r.2)

/-- src/casync.c:1670-1674: the record in the index, if there is one. -/
def record (i : Option Index.Index) (id : Bytes) (size : Nat) : Res (Option Index.Index) :=
  match i with
  | none => .ok none
  | some i => Index.writeChunk i id size >>= fun i => .ok (some i)

/-- `ca_sync_write_one_chunk`, src/casync.c:1638-1690. -/
def writeOne (c : Cfg) (m : Maker) (x : Bytes) : Prog (Res Maker) :=
  let id := c.digest x
  Prog.bind (putChunk c m.wstore (2 * m.count) id x) fun r =>
    match r.1 with
    | .err e => .ret (.err e)
    | .ub => .ret .ub
    | .ok () =>
      Prog.bind (putChunk c m.cacheStore (2 * m.count + 1) id x) fun r' =>
        match r'.1 with
        | .err e => .ret (.err e)
        | .ub => .ret .ub
        | .ok () =>
          match record m.index id x.length with
          | .err e => .ret (.err e)
          | .ub => .ret .ub
          | .ok i => .ret (.ok { wstore := r.2, cacheStore := r'.2, index := i, count := m.count + 1 })

/-- The calls of `ca_sync_write_one_chunk` for the chunks `xs`, up to the first failure (src/casync.c:1750-1752, 1777-1779). -/
def writeList (c : Cfg) (m : Maker) : List Bytes → Prog (Res Maker)
  | [] => .ret (.ok m)
  | x :: xs =>
    Prog.bind (writeOne c m x) fun
      | .err e => .ret (.err e)
      | .ub => .ret .ub
      | .ok m => writeList c m xs

/-- src/casync.c:1783-1787: the end of the index. (`ca_index_install` follows.) -/
def finishIndex (m : Maker) : Res Maker :=
  match m.index with
  | none => .ok m
  | some i => Index.writeEof i >>= fun i => .ok { m with index := some i }

/-- A whole run: `ca_sync_write_chunks`, src/casync.c:1692-1764, for each block that the encoder produces, then
`ca_sync_write_final_chunk`, 1766-1795. The chunker is run first and the chunks are written afterwards; a failure of a write ends both in the
program and in the model everything, and the chunker does not depend on the writes. -/
def make (c : Cfg) (ch : Chunker.Chunker) (m : Maker) (blocks : List Bytes) : Prog (Res Maker) :=
  if m.wstore.isNone ∧ m.cacheStore.isNone ∧ m.index.isNone then .ret (.ok m)
  else
    match Chunker.writeAll { chunker := ch, buffer := [], out := [] } blocks with
    | .err e => .ret (.err e)
    | .ub => .ret .ub
    | .ok w =>
      Prog.bind (writeList c m (Chunker.writeFinal w)) fun
        | .err e => .ret (.err e)
        | .ub => .ret .ub
        | .ok m => .ret (finishIndex m)

end Casync.Make
