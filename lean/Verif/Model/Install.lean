import Verif.Model.ChunkFile
import Verif.Model.Index
/-!
Files that are written under a temporary name and then renamed: indexes (`caindex.c`), index and archive files received
from or sent to a remote (`caremote.c`), and archives (`casync.c`).

`t` is the temporary path (`tempfn_random`, src/util.c:463-501, chosen at random next to the final path), `path` the final
path.
-/
namespace Casync.Install
open Casync Os ChunkFile

/-! ## Index files -/

/-- `struct CaIndex`, src/caindex.c:27-53: the part in Model/Index.lean, whether `temporary_path` is set, and `fd`. -/
structure IdxFile where
  idx : Index.Index
  temp : Bool := false
  fd : Option Nat := none

/-- The calls that write to an index. -/
inductive IOp
  | chunk (id : Bytes) (size : Nat)     -- ca_index_write_chunk
  | eof                                 -- ca_index_write_eof
  | incWrite (data : Bytes)             -- ca_index_incremental_write
  | incEof                              -- ca_index_incremental_eof

/-- The effect of a call on the index, when all writes succeed (Model/Index.lean). -/
def applyOp (i : Index.Index) : IOp → Res Index.Index
  | .chunk id size => Index.writeChunk i id size
  | .eof => Index.writeEof i
  | .incWrite data => Index.incWrite i data
  | .incEof => Index.incEof i

/-- `ca_index_open_fd`, src/caindex.c:190-241, for writable modes (`O_CREAT|O_EXCL`, 82, 110, 124). -/
def openFd (t : Path) (s : IdxFile) : Prog (Res Nat × IdxFile) :=
  match s.fd with
  | some n => .ret (.ok n, s)
  | none =>
    let s := { s with temp := true }
    .call (.creat t) fun
      | .fd n => .ret (.ok n, { s with fd := some n })
      | .err e => .ret (.err e, s)
      | _ => .ret (.ub, s)

/-- One of the calls `ca_index_write_chunk` (src/caindex.c:425-469), `ca_index_write_eof` (471-503),
`ca_index_incremental_write` (702-735), `ca_index_incremental_eof` (737-754): open the descriptor, then append what the
call writes. Simplifications: a call that is refused because of its arguments does not create the temporary file; the
head and the record that follow each other are written by one loop; `pwrite` at the end of the file is a loop as well
(the code reports EIO for a short `pwrite`). -/
def idxCall (t : Path) (s : IdxFile) (op : IOp) : Prog (Res Unit × IdxFile) :=
  match applyOp s.idx op with
  | .err e => .ret (.err e, s)
  | .ub => .ret (.ub, s)
  | .ok i =>
    Prog.bind (openFd t s) fun
      | (.err e, s) => .ret (.err e, s)
      | (.ub, s) => .ret (.ub, s)
      | (.ok n, s) =>
        Prog.bind (loopWrite n (i.file.drop s.idx.file.length)) fun
          | .err e => .ret (.err e, s)
          | .ub => .ret (.ub, s)
          | .ok () => .ret (.ok (), { s with idx := i })

/-- `ca_index_install`, src/caindex.c:405-423 -/
def idxInstall (t path : Path) (s : IdxFile) : Prog (Res Unit × IdxFile) :=
  if s.idx.mode = .read then .ret (.err .ENOTTY, s)
  else if !s.idx.wroteEof then .ret (.err .EBUSY, s)
  else if !s.temp then .ret (.ok (), s)
  else .call (.rename t path) fun
    | .ok => .ret (.ok (), { s with temp := false })
    | .err e => .ret (.err e, s)
    | _ => .ret (.ub, s)

/-- `ca_index_unref`, src/caindex.c:131-145: the temporary file is removed if it is still there. -/
def idxUnref (t : Path) (s : IdxFile) : Prog Unit :=
  if s.temp then .call (.unlink t) fun _ => .ret () else .ret ()

/-- The calls one after the other, up to the first failure. -/
def idxCalls (t : Path) (s : IdxFile) : List IOp → Prog (Res Unit × IdxFile)
  | [] => .ret (.ok (), s)
  | op :: ops =>
    Prog.bind (idxCall t s op) fun
      | (.ok (), s) => idxCalls t s ops
      | (r, s) => .ret (r, s)

/-- What a user of the interface does with an index it writes (src/casync.c:1638-1690, 1766-1790 for a locally made index,
2180-2320 for one that is received): the calls, then install, then unref; after the first failure only unref. -/
def idxSession (t path : Path) (i : Index.Index) (ops : List IOp) : Prog (Res Unit) :=
  Prog.bind (idxCalls t { idx := i } ops) fun
    | (.ok (), s) =>
      Prog.bind (idxInstall t path s) fun (r, s) => Prog.bind (idxUnref t s) fun _ => .ret r
    | (r, s) => Prog.bind (idxUnref t s) fun _ => .ret r

/-! ## Files in the remote protocol -/

/-- `CaRemoteFile`, src/caremote.c:33-38, of a file that is received; `fd` is open whenever data arrives here. -/
structure RFile where
  temp : Bool := false
  complete : Bool := false

/-- Messages about a file. -/
inductive FMsg
  | data (b : Bytes)    -- CA_PROTOCOL_INDEX, CA_PROTOCOL_ARCHIVE
  | eof                 -- CA_PROTOCOL_INDEX_EOF, CA_PROTOCOL_ARCHIVE_EOF

/-- `ca_remote_file_process` (src/caremote.c:1208-1230) and `ca_remote_file_process_eof` (1232-1241) -/
def fileMsg (n : Nat) (f : RFile) : FMsg → Prog (Res Unit × RFile)
  | .data b =>
    if f.complete then .ret (.err .EBADMSG, f)
    else Prog.bind (loopWrite n b) fun r => .ret (r, f)
  | .eof =>
    if f.complete then .ret (.err .EBADMSG, f) else .ret (.ok (), { f with complete := true })

/-- The messages one after the other, up to the first failure. -/
def fileMsgs (n : Nat) (f : RFile) : List FMsg → Prog (Res Unit × RFile)
  | [] => .ret (.ok (), f)
  | m :: ms =>
    Prog.bind (fileMsg n f m) fun
      | (.ok (), f) => fileMsgs n f ms
      | (r, f) => .ret (r, f)

/-- `ca_remote_file_install`, src/caremote.c:1363-1379 -/
def fileInstall (t path : Path) (f : RFile) : Prog (Res Unit × RFile) :=
  if !f.complete then .ret (.ok (), f)
  else if !f.temp then .ret (.ok (), f)
  else .call (.rename t path) fun
    | .ok => .ret (.ok (), { f with temp := false })
    | .err e => .ret (.err e, f)
    | _ => .ret (.ub, f)

/-- `ca_remote_file_free`, src/caremote.c:173-185 -/
def fileFree (t : Path) (f : RFile) : Prog Unit :=
  if f.temp then .call (.unlink t) fun _ => .ret () else .ret ()

/-- The life of a received file: `ca_remote_file_open` (src/caremote.c:887-920), the messages, installation when the peer
says goodbye (1381-1397) and when we do (2548-2554), `ca_remote_file_free`. -/
def fileSession (t path : Path) (msgs : List FMsg) : Prog (Res Unit) :=
  .call (.creat t) fun
    | .fd n =>
      Prog.bind (fileMsgs n { temp := true } msgs) fun
        | (.ok (), f) => Prog.bind (fileInstall t path f) fun (r, f) => Prog.bind (fileFree t f) fun _ => .ret r
        | (r, f) => Prog.bind (fileFree t f) fun _ => .ret r
    | .err e => Prog.bind (fileFree t { temp := true }) fun _ => .ret (.err e)
    | _ => .ret .ub

/-! ## Archives written by casync -/

/-- `loop_write` of every piece, src/casync.c:1618-1626 (`ca_sync_write_archive`) -/
def writePieces (n : Nat) : List Bytes → Prog (Res Unit)
  | [] => .ret (.ok ())
  | b :: bs =>
    Prog.bind (loopWrite n b) fun
      | .ok () => writePieces n bs
      | r => .ret r

/-- The life of an archive that is written to a file: opening (src/casync.c:1310-1323), every piece the encoder produces
(1618-1626), installation when the encoder has finished (1812-1826, 2078), and `ca_sync_unref` (492-495). `fails` is the
number of the piece before which encoding fails, if it does. -/
def archiveSession (t path : Path) (pieces : List Bytes) (fails : Option Nat) : Prog (Res Unit) :=
  .call (.creat t) fun
    | .fd n =>
      Prog.bind (writePieces n (match fails with | some k => pieces.take k | none => pieces)) fun
        | .ok () =>
          if fails.isSome then .call (.unlink t) fun _ => .ret (.err .EIO)
          else .call (.rename t path) fun
            | .ok => .ret (.ok ())
            | .err e => .call (.unlink t) fun _ => .ret (.err e)
            | _ => .ret .ub
        | r => .call (.unlink t) fun _ => .ret r
    | .err e => .ret (.err e)
    | _ => .ret .ub

end Casync.Install
