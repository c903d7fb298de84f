import Verif.Model.Index
/-!
Drivers for incremental index reading (`ca_index_new_incremental_read`): a schedule of data arrivals
(`ca_index_incremental_write`), the end of the data (`ca_index_incremental_eof`) and reads
(`ca_index_read_chunk`), as `ca_sync` interleaves them (casync.c, remote index handling).
-/
namespace Casync.Index
open Casync

inductive Op
  | write (data : Bytes)
  | eof
  | read
  deriving Repr

/-- Runs a schedule and collects what the calls to `ca_index_read_chunk` return; stops at the first
result that is final (end of file or an error other than `EAGAIN`). A failing write shows up as its error.

When `ca_index_read_chunk` returns `EAGAIN` after it has parsed the head, the C object keeps the parsed
head while the model parses it again at the next call, from the same bytes. -/
def runInc : Index → List Op → List (Res (Option Chunk))
  | _, [] => []
  | i, .write d :: ops =>
    match incWrite i d with
    | .ok i => runInc i ops
    | .err e => [.err e]
    | .ub => [.ub]
  | i, .eof :: ops =>
    match incEof i with
    | .ok i => runInc i ops
    | .err e => [.err e]
    | .ub => [.ub]
  | i, .read :: ops =>
    match readChunk i with
    | .ok (none, _) => [.ok none]
    | .ok (some c, i) => .ok (some c) :: runInc i ops
    | .err .EAGAIN => .err .EAGAIN :: runInc i ops
    | .err e => [.err e]
    | .ub => [.ub]

/-- At most `n` successive reads, stopping at the first final result. -/
def seqReads : Nat → Index → List (Res (Option Chunk))
  | 0, _ => []
  | n + 1, i =>
    match readChunk i with
    | .ok (none, _) => [.ok none]
    | .ok (some c, i) => .ok (some c) :: seqReads n i
    | .err e => [.err e]
    | .ub => [.ub]

end Casync.Index
