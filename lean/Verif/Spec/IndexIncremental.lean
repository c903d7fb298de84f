import Verif.Model.IndexIncremental
/-! Vocabulary for statements about schedules of incremental index reading. -/
namespace Casync.Index
open Casync

/-- All data of a schedule. -/
def allData : List Op → Bytes
  | [] => []
  | .write d :: ops => d ++ allData ops
  | .eof :: ops => allData ops
  | .read :: ops => allData ops

/-- Well-behaved schedules: `r` bytes were received before it, `e` says if the end was signalled. Data is
not empty and not sent after the end, the end is signalled once, and no read happens while between 41 and 63
bytes of the 64 byte head have arrived. -/
def Good : Nat → Bool → List Op → Prop
  | _, _, [] => True
  | r, e, .write d :: ops => d ≠ [] ∧ e = false ∧ Good (r + d.length) e ops
  | r, e, .eof :: ops => e = false ∧ Good r true ops
  | r, e, .read :: ops => (e = false → r < 41 ∨ 64 ≤ r) ∧ Good r e ops

/-- `EAGAIN` is returned only while the next record is not complete (with one byte more, or the end of the
data) yet: `r` bytes received, `k` chunks delivered. -/
def Timely : Nat → Bool → Nat → List Op → List (Res (Option Chunk)) → Prop
  | r, e, k, .write d :: ops, rs => Timely (r + d.length) e k ops rs
  | r, _, k, .eof :: ops, rs => Timely r true k ops rs
  | r, e, k, .read :: ops, .err .EAGAIN :: rs => (e = false ∧ r < 64 + 40 * (k + 1) + 1) ∧ Timely r e k ops rs
  | r, e, k, .read :: ops, .ok (some _) :: rs => Timely r e (k + 1) ops rs
  | _, _, _, _, _ => True

end Casync.Index
