import Verif.Model.ChunkFile
import Verif.Model.Index
/-!
Model of `src/gc.c` and of the store iterator, `src/castore.c:326-409`.
-/
namespace Casync.Gc
open Casync Os ChunkFile

/-! ## Collecting the ids in use -/

/-- `struct CaChunkCollection`, src/gc.c:9-13, with `gc_add_chunk_id`, 69-84: the set of ids, here a list of which only the
members count (the hash table is modelled in `Model/Hashmap`, see `C52_gc`; the hash function, src/gc.c:15-28, is arbitrary there), and the number of references. -/
structure Coll where
  nUsed : Nat := 0
  used : List Bytes := []

/-- `ca_chunk_collection_add_index`, src/gc.c:86-123, of an index with the given contents. An error when opening (which reads the
head) is returned; an error when reading a chunk is an assertion failure (108-110), that is, `ub`. -/
def addIndex (c : Coll) (file : Bytes) : Res Coll :=
  match Index.openIndex (Index.newRead file) with
  | .err e => .err e
  | .ub => .ub
  | .ok _ =>
    match Index.readAll file with
    | .ok (cs, _) => .ok { nUsed := c.nUsed + cs.length, used := c.used ++ cs.map (·.id) }
    | _ => .ub

/-- src/casync-tool.c:3947-3953, all indexes in turn -/
def addIndexes (c : Coll) : List Bytes → Res Coll
  | [] => .ok c
  | f :: fs => addIndex c f >>= fun c => addIndexes c fs

/-! ## Iterating over the store -/

/-- `d_type` of a directory entry. -/
inductive DType
  | reg | lnk | unknown | dir | other
  deriving DecidableEq, Repr

structure Dirent where
  name : Bytes
  type : DType

/-- What reading one entry of the store directory and opening it as a directory delivered: the errors of `openat`,
`fdopendir` and of the final `readdir`. -/
structure Sub where
  name : Bytes
  openErr : Option Errno := none
  entries : List Dirent
  readErr : Option Errno := none

/-- Everything `readdir` delivered in the course of an iteration, which may be anything while other processes change the
store. `err` is the error that ends the iteration, if one does (`opendir` or `readdir`). -/
structure Listing where
  subs : List Sub
  err : Option Errno := none

/-- `dirent_is_file_with_suffix(de, ".cacnk")`, src/dirent-util.c:27-40 -/
def isChunkEntry (d : Dirent) : Bool :=
  (d.type = .reg || d.type = .lnk || d.type = .unknown) && d.name.head? ≠ some 46 && cacnk.isSuffixOf d.name

/-- The directory that the entry `sub` of the store directory `root` leads to; `parent` is the directory that contains the
store. The root and the parent end in a slash, as the result does. -/
def resolve (root parent sub : Bytes) : Bytes :=
  if sub = [46] then root else if sub = [46, 46] then parent else root ++ sub ++ [47]

/-- `unlinkat(rootdir_fd, subdir, AT_REMOVEDIR)`, src/gc.c:178: "." and ".." cannot be removed. The result is ignored except for a
counter. -/
def removeDir (root sub : Bytes) (k : Prog (Res Unit)) : Prog (Res Unit) :=
  if sub = [46] ∨ sub = [46, 46] then k else .call (.rmdir (root ++ sub)) fun _ => k

/-- src/gc.c:143-185, the body of the loop for the chunk file `name` in the directory `sub`. The assertion that there is a dot cannot fail
since the name ends in ".cacnk". -/
def visit (root parent : Bytes) (used : List Bytes) (dry : Bool) (sub name : Bytes) (k : Prog (Res Unit)) : Prog (Res Unit) :=
  match ChunkId.parse (name.takeWhile (· ≠ 46)) with
  | .ok (some id) =>
    if used.contains id then k
    else if dry then k
    else .call (.unlink (resolve root parent sub ++ name)) fun
      | .err _ => k
      | _ => removeDir root sub k
  | .ok none => k
  | _ => .ret .ub

/-- The entries of one directory. -/
def visitEntries (root parent : Bytes) (used : List Bytes) (dry : Bool) (sub : Bytes) (k : Prog (Res Unit)) :
    List Dirent → Prog (Res Unit)
  | [] => k
  | d :: ds =>
    if isChunkEntry d then visit root parent used dry sub d.name (visitEntries root parent used dry sub k ds)
    else visitEntries root parent used dry sub k ds

/-- `ca_store_iterator_next`, src/castore.c:349-409, together with the loop of `ca_gc_cleanup_unused`, src/gc.c:136-186 -/
def cleanupLoop (root parent : Bytes) (used : List Bytes) (dry : Bool) (err : Option Errno) : List Sub → Prog (Res Unit)
  | [] => .ret (match err with | some e => .err e | none => .ok ())
  | s :: ss =>
    match s.openErr with
    | some .EISDIR => cleanupLoop root parent used dry err ss
    | some e => .ret (.err e)
    | none =>
      visitEntries root parent used dry s.name
        (match s.readErr with
         | some e => .ret (.err e)
         | none => cleanupLoop root parent used dry err ss) s.entries

/-- `ca_gc_cleanup_unused`, src/gc.c:125-194 -/
def cleanup (root parent : Bytes) (c : Coll) (dry : Bool) (l : Listing) : Prog (Res Unit) :=
  cleanupLoop root parent c.used dry l.err l.subs

/-- `verb_gc`, src/casync-tool.c:3913-3971: all indexes, then the clean up. An abort of the process is `ub`. -/
def gc (root parent : Bytes) (indexes : List Bytes) (dry : Bool) (l : Listing) : Prog (Res Unit) :=
  match addIndexes {} indexes with
  | .ok c => cleanup root parent c dry l
  | .err e => .ret (.err e)
  | .ub => .ret .ub

end Casync.Gc
