import Verif.Spec.Os
import Verif.Model.Install
/-!
Files written under a temporary name: the three kinds, and what their complete contents are.
-/
namespace Casync.Install
open Casync Os

/-- The calls on an index, when no system call fails. -/
def pureOps (i : Index.Index) : List IOp → Res Index.Index
  | [] => .ok i
  | op :: ops =>
    match applyOp i op with
    | .ok i => pureOps i ops
    | .err e => .err e
    | .ub => .ub

/-- A file that is going to be written. -/
inductive Job
  /-- An index, starting with the empty index object `i`, then the calls `ops`. -/
  | index (t path : Path) (i : Index.Index) (ops : List IOp)
  /-- An index or archive that is received over the protocol. -/
  | remote (t path : Path) (msgs : List FMsg)
  /-- An archive that is made, of the given pieces; encoding may fail before one of them. -/
  | archive (t path : Path) (pieces : List Bytes) (fails : Option Nat)

namespace Job

/-- The temporary path. -/
def temp : Job → Path
  | index t _ _ _ => t
  | remote t _ _ => t
  | archive t _ _ _ => t

/-- The final path. -/
def final : Job → Path
  | index _ p _ _ => p
  | remote _ p _ => p
  | archive _ p _ _ => p

def prog : Job → Prog (Res Unit)
  | index t p i ops => idxSession t p i ops
  | remote t p ms => fileSession t p ms
  | archive t p ps fails => archiveSession t p ps fails

/-- The index object is a new one. -/
def Valid : Job → Prop
  | index _ _ i _ => i.file = [] ∧ i.wroteEof = false ∧ i.mode ≠ .read
  | _ => True

/-- `b` is the complete file: all of an index, of which the end has been written; everything up to the end-of-file message;
all pieces of an archive. If a file is never completed, no `b` is. -/
def Complete : Job → Bytes → Prop
  | index _ _ i ops, b => ∃ i', pureOps i ops = .ok i' ∧ i'.wroteEof = true ∧ b = i'.file
  | remote _ _ ms, b => ∃ ds : List Bytes, ms = ds.map .data ++ [.eof] ∧ b = ds.flatten
  | archive _ _ ps fails, b => fails = none ∧ b = ps.flatten

end Job
end Casync.Install
