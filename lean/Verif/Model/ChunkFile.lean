import Verif.Model.Os
import Verif.Model.ChunkId
/-!
Model of `src/cachunk.c` (chunk files), `rename_noreplace()` and `loop_write()` of `src/util.c`, as programs over the
system calls of Model/Os.lean.

Compression libraries are a parameter (`Codec`): what a complete run of encoder or decoder delivers. The C loops check the
size of the output after every block; as the output only grows this is the same as checking at the end, which is what the
model does (for the loaders; the savers write as they go and are modelled with their own loop).
-/
namespace Casync.ChunkFile
open Casync Os

/-- `CA_CHUNK_SIZE_LIMIT_MAX`, src/cachunk.h:11. -/
abbrev MAX : Nat := 128 * 1024 * 1024
/-- `BUFFER_SIZE`, src/def.h:8. -/
abbrev BUF : Nat := 64 * 1024

/-- src/cachunk.h:14-19 `CaChunkCompression`. -/
inductive Compression
  | uncompressed | compressed | asIs
  deriving DecidableEq, Repr

/-- The compression library: `enc t d` is the compressed form of `d` under algorithm `t`, `dec d` what `compressor_decode`
delivers for the complete input `d` after `detect_compression` (src/compressor.c:11-40) chose the algorithm. -/
structure Codec where
  enc : Nat → Bytes → Bytes
  dec : Bytes → Res Bytes

/-- `ca_compressed_chunk_suffix`, src/cautil.c:242-258: ".cacnk" (the environment variable is not modelled). -/
abbrev cacnk : Bytes := [46, 99, 97, 99, 110, 107]

/-- `loop_write`, src/util.c:25-46, on a descriptor. -/
def loopWrite (ino : Nat) (p : Bytes) : Prog (Res Unit) :=
  if _h : p = [] then .ret (.ok ())
  else .call (.write ino p) fun
    | .err e => .ret (.err e)
    | .count n => loopWrite ino (p.drop (max 1 n))
    | _ => .ret .ub
termination_by p.length
decreasing_by
  have : 0 < p.length := List.length_pos_iff.2 _h
  rw [List.length_drop]; omega

/-- `ca_load_fd`, src/cachunk.c:15-50: `acc` is what has been read, `fuel` bounds the number of reads. -/
def loadLoop (ino : Nat) : Nat → Bytes → Prog (Res Bytes)
  | 0, _ => .ret .ub
  | fuel + 1, acc =>
    if acc.length ≥ MAX then .ret (.err .EBADMSG)
    else .call (.read ino acc.length BUF) fun
      | .err e => .ret (.err e)
      | .data d =>
        if d.length = 0 then .ret (if acc.length < 1 then .err .EBADMSG else .ok acc)
        else loadLoop ino fuel (acc ++ d)
      | _ => .ret .ub

/-- `ca_load_fd`, src/cachunk.c:15-50. Every read but the last delivers at least one byte, and at most `MAX` bytes are
accepted, so the fuel suffices. -/
def loadFd (ino : Nat) : Prog (Res Bytes) := loadLoop ino (MAX + 2) []

/-- The read loop of `ca_load_and_decompress_fd` (src/cachunk.c:63-87 and 112-126): everything the descriptor delivers,
refusing more than the limit (a first block never reaches it). -/
def slurpLoop (ino : Nat) : Nat → Bytes → Prog (Res Bytes)
  | 0, _ => .ret .ub
  | fuel + 1, acc =>
    .call (.read ino acc.length BUF) fun
      | .err e => .ret (.err e)
      | .data d =>
        if d.length = 0 then .ret (.ok acc)
        else if (acc ++ d).length ≥ MAX then .ret (.err .EBADMSG)
        else slurpLoop ino fuel (acc ++ d)
      | _ => .ret .ub

/-- The read loop of `ca_load_and_compress_fd` (src/cachunk.c:151-197): a read that delivers less than a full buffer counts
as the end of the file. -/
def slurpShortLoop (ino : Nat) : Nat → Bytes → Prog (Res Bytes)
  | 0, _ => .ret .ub
  | fuel + 1, acc =>
    .call (.read ino acc.length BUF) fun
      | .err e => .ret (.err e)
      | .data d =>
        if (acc ++ d).length ≥ MAX then .ret (.err .EBADMSG)
        else if d.length < BUF then .ret (.ok (acc ++ d))
        else slurpShortLoop ino fuel (acc ++ d)
      | _ => .ret .ub

/-- `ca_load_and_decompress_fd`, src/cachunk.c:52-134. The `return 0` on a failing `compressor_input` (line 93) cannot be
reached, `compressor_input` fails only for a library that is not compiled in, which `compressor_start_decode` has already
refused. An empty file is `EPIPE` (line 71). -/
def loadAndDecompressFd (cd : Codec) (ino : Nat) : Prog (Res Bytes) :=
  Prog.bind (slurpLoop ino (MAX + 2) []) fun
    | .ok c =>
      if c = [] then .ret (.err .EPIPE)
      else match cd.dec c with
        | .ok d => .ret (if d.length ≥ MAX then .err .EBADMSG else if d.length < 1 then .err .EBADMSG else .ok d)
        | .err e => .ret (.err e)
        | .ub => .ret .ub
    | .err e => .ret (.err e)
    | .ub => .ret .ub

/-- `ca_load_and_compress_fd`, src/cachunk.c:136-203. -/
def loadAndCompressFd (cd : Codec) (t : Nat) (ino : Nat) : Prog (Res Bytes) :=
  Prog.bind (slurpShortLoop ino (MAX + 2) []) fun
    | .ok d =>
      let c := cd.enc t d
      .ret (if c.length ≥ MAX then .err .EBADMSG else if c.length < 1 ∨ d.length < 1 then .err .EBADMSG else .ok c)
    | .err e => .ret (.err e)
    | .ub => .ret .ub

/-- The write loop of `ca_save_and_compress_fd` / `ca_save_and_decompress_fd` (src/cachunk.c:247-268 and 309-330): the output
`d` is written in blocks of at most 64K; after each one the number of bytes so far (`cnt`) is checked. -/
def saveBlocks (ino : Nat) (cnt : Nat) (d : Bytes) : Prog (Res Unit) :=
  Prog.bind (loopWrite ino (d.take BUF)) fun
    | .ok () =>
      if cnt + (d.take BUF).length ≥ MAX then .ret (.err .EINVAL)
      else if _h : d.length ≤ BUF then
        .ret (if cnt + (d.take BUF).length < 1 then .err .EINVAL else .ok ())
      else saveBlocks ino (cnt + (d.take BUF).length) (d.drop BUF)
    | .err e => .ret (.err e)
    | .ub => .ret .ub
termination_by d.length
decreasing_by
  simp only [BUF] at _h
  rw [List.length_drop]; simp only [BUF]; omega

/-- `ca_save_and_compress_fd`, src/cachunk.c:218-273. -/
def saveAndCompressFd (cd : Codec) (t : Nat) (ino : Nat) (d : Bytes) : Prog (Res Unit) :=
  if d.length < 1 ∨ d.length > MAX then .ret (.err .EINVAL) else saveBlocks ino 0 (cd.enc t d)

/-- `ca_save_and_decompress_fd`, src/cachunk.c:275-337. A decoder error may come after some output has been written; that
output is not modelled (the file is removed). -/
def saveAndDecompressFd (cd : Codec) (ino : Nat) (d : Bytes) : Prog (Res Unit) :=
  if d.length < 1 ∨ d.length > MAX then .ret (.err .EINVAL)
  else match cd.dec d with
    | .ok u => saveBlocks ino 0 u
    | .err e => .ret (.err e)
    | .ub => .ret .ub

/-- `ca_chunk_file_access`, src/cachunk.c:491-504: `some true` is 1, `some false` 0. -/
def fileAccess (pre id suf : Bytes) : Prog (Res Bool) :=
  .call (.access (ChunkId.formatPath pre id suf)) fun
    | .ok => .ret (.ok true)
    | .err .ENOENT => .ret (.ok false)
    | .err e => .ret (.err e)
    | _ => .ret .ub

/-- `ca_chunk_file_test`, src/cachunk.c:755-769. -/
def fileTest (pre id : Bytes) : Prog (Res Bool) :=
  Prog.bind (fileAccess pre id cacnk) fun
    | .ok false => fileAccess pre id []
    | r => .ret r

/-- The directory part of a chunk path: everything before the last slash (src/cachunk.c:463-464). -/
def dirOf (pre id : Bytes) : Path := pre ++ (ChunkId.format id).take 4

/-- `ca_chunk_file_open` with `O_CREAT|O_EXCL`, src/cachunk.c:445-489. -/
def fileCreate (pre id suf : Bytes) : Prog (Res Nat) :=
  .call (.mkdir (dirOf pre id)) fun a =>
    match a with
    | .err e =>
      if e ≠ .EEXIST then .ret (.err e)
      else .call (.creat (ChunkId.formatPath pre id suf)) fun
        | .fd i => .ret (.ok i)
        | .err e => .ret (.err e)
        | _ => .ret .ub
    | _ => .call (.creat (ChunkId.formatPath pre id suf)) fun
        | .fd i => .ret (.ok i)
        | .err e => .call (.rmdir (dirOf pre id)) fun _ => .ret (.err e)
        | _ => .ret .ub

/-- `ca_chunk_file_open` for reading, src/cachunk.c:445-489. -/
def fileOpen (pre id suf : Bytes) : Prog (Res Nat) :=
  .call (.openRd (ChunkId.formatPath pre id suf)) fun
    | .fd i => .ret (.ok i)
    | .err e => .ret (.err e)
    | _ => .ret .ub

/-- `ca_chunk_file_unlink`, src/cachunk.c:506-527. -/
def fileUnlink (pre id suf : Bytes) : Prog (Res Unit) :=
  .call (.unlink (ChunkId.formatPath pre id suf)) fun
    | .err e => .ret (.err e)
    | _ => .call (.rmdir (dirOf pre id)) fun _ => .ret (.ok ())

/-- `ERRNO_IS_UNSUPPORTED`, src/util.h:773-774. -/
def unsupported (e : Errno) : Bool :=
  e = .ENOTTY || e = .ENOSYS || e = .EBADF || e = .EOPNOTSUPP || e = .EINVAL

/-- `rename_noreplace`, src/util.c:1255-1289. -/
def renameNoreplace (a b : Path) : Prog (Res Unit) :=
  .call (.rename2 a b) fun
    | .err e =>
      if !unsupported e then .ret (.err e)
      else .call (.link a b) fun
        | .err e =>
          if !unsupported e then .ret (.err e)
          else .call (.access b) fun
            | .err .ENOENT => .call (.rename a b) fun
              | .err e => .ret (.err e)
              | _ => .ret (.ok ())
            | .err e => .ret (.err e)
            | _ => .ret (.err .EEXIST)
        | _ => .call (.unlink a) fun
          | .err e => .call (.unlink b) fun _ => .ret (.err e)
          | _ => .ret (.ok ())
    | _ => .ret (.ok ())

/-- src/cachunk.c:668-678, the part of `ca_chunk_file_save` that writes the data. -/
def saveData (cd : Codec) (t : Nat) (ino : Nat) (eff des : Compression) (p : Bytes) : Prog (Res Unit) :=
  if des = eff then loopWrite ino p
  else if des = .compressed then saveAndCompressFd cd t ino p
  else saveAndDecompressFd cd ino p

/-- `ca_chunk_file_save`, src/cachunk.c:627-694. `rnd` is the random part of the temporary suffix (".<hex>.tmp", line 659),
the argument checks are those of lines 641-655 that the types do not exclude. -/
def fileSave (cd : Codec) (pre id : Bytes) (eff des : Compression) (t : Nat) (tmp : Bytes) (p : Bytes) :
    Prog (Res Unit) :=
  if eff = .asIs then .ret (.err .EINVAL)
  else if p = [] then .ret (.err .EINVAL)
  else
    Prog.bind (fileTest pre id) fun
      | .err e => .ret (.err e)
      | .ub => .ret .ub
      | .ok true => .ret (.err .EEXIST)
      | .ok false =>
        Prog.bind (fileCreate pre id tmp) fun
          | .err e => .ret (.err e)
          | .ub => .ret .ub
          | .ok ino =>
            let des := if des = .asIs then eff else des
            let fail (e : Errno) : Prog (Res Unit) :=
              Prog.bind (fileUnlink pre id tmp) fun _ => .ret (.err e)
            Prog.bind (saveData cd t ino eff des p) fun
              | .err e => fail e
              | .ub => .ret .ub
              | .ok () =>
                Prog.bind (renameNoreplace (ChunkId.formatPath pre id tmp)
                    (ChunkId.formatPath pre id (if des = .compressed then cacnk else []))) fun
                  | .err e => fail e
                  | .ub => .ret .ub
                  | .ok () => .ret (.ok ())

/-- `ca_chunk_file_load`, src/cachunk.c:554-625: the data and the effective compression. -/
def fileLoad (cd : Codec) (pre id : Bytes) (des : Compression) (t : Nat) : Prog (Res (Bytes × Compression)) :=
  let first : Bytes := if des = .uncompressed then [] else cacnk
  let second : Bytes := if des = .uncompressed then cacnk else []
  let firstC : Compression := if des = .uncompressed then .uncompressed else .compressed
  let secondC : Compression := if des = .uncompressed then .compressed else .uncompressed
  let load (ino : Nat) (fc : Compression) : Prog (Res (Bytes × Compression)) :=
    Prog.bind
      (if des = .uncompressed ∧ fc = .compressed then loadAndDecompressFd cd ino
       else if des = .compressed ∧ fc = .uncompressed then loadAndCompressFd cd t ino
       else loadFd ino) fun
      | .ok d => .ret (.ok (d, if des = .asIs then fc else des))
      | .err e => .ret (.err e)
      | .ub => .ret .ub
  Prog.bind (fileOpen pre id first) fun
    | .ok ino => load ino firstC
    | .ub => .ret .ub
    | .err .ELOOP => .ret (.err .EADDRNOTAVAIL)
    | .err .ENOENT =>
      Prog.bind (fileOpen pre id second) fun
        | .ok ino => load ino secondC
        | .ub => .ret .ub
        | .err .ELOOP => .ret (.err .EADDRNOTAVAIL)
        | .err e => .ret (.err e)
    | .err e => .ret (.err e)

/-- `ca_chunk_file_mark_missing`, src/cachunk.c:696-742. -/
def fileMarkMissing (pre id : Bytes) : Prog (Res Unit) :=
  Prog.bind (fileTest pre id) fun
    | .err e => .ret (.err e)
    | .ub => .ret .ub
    | .ok true => .ret (.err .EEXIST)
    | .ok false =>
      .call (.mkdir (dirOf pre id)) fun a =>
        match a with
        | .err e =>
          if e ≠ .EEXIST then .ret (.err e)
          else .call (.symlink (ChunkId.formatPath pre id [])) fun
            | .err e => .ret (.err e)
            | _ => .ret (.ok ())
        | _ => .call (.symlink (ChunkId.formatPath pre id [])) fun
            | .err e => .call (.rmdir (dirOf pre id)) fun _ => .ret (.err e)
            | _ => .ret (.ok ())

/-- `ca_chunk_file_remove`, src/cachunk.c:771-784. -/
def fileRemove (pre id : Bytes) : Prog (Res Unit) :=
  Prog.bind (fileUnlink pre id []) fun
    | .err .ENOENT => fileUnlink pre id cacnk
    | .err _ => .ret (.err .EINVAL)
    | .ub => .ret .ub
    | .ok () => fileUnlink pre id cacnk

end Casync.ChunkFile
