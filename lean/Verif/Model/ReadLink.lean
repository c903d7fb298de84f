import Verif.Base.Res
import Verif.Base.Bytes
/-!
Reading the target of a symlink of unknown length.

Sources: src/util.c:841-876.

Allocation failure, and with it the overflow of the size of the buffer, is not modelled. The symlink may be replaced between two calls of
`readlinkat()`, which is why the file system is a sequence of answers.
-/
namespace Casync.ReadLink
open Casync

/-- `readlinkat()` with a buffer of `l` bytes: the target is cut off without notice if the buffer is too small. No repo lines. -/
def readlinkat (answer : Res Bytes) (l : Nat) : Res Bytes :=
  match answer with
  | .ok t => .ok (t.take l)
  | .err e => .err e
  | .ub => .ub

/-- The loop of `readlinkat_malloc()`, src/util.c:848-871, with a buffer of `l` bytes when the kernel has answered `k` times. `none`: not over
after `n` calls. -/
def loop (answers : Nat → Res Bytes) : (n l k : Nat) → Option (Res Bytes)
  | 0, _, _ => none
  | n + 1, l, k =>
    match readlinkat (answers k) (l - 1) with
    | .err e => some (.err e)
    | .ub => some .ub
    | .ok c => if c.length < l - 1 then some (.ok c) else loop answers n (l * 2) (k + 1)

/-- `readlinkat_malloc()` and `readlink_malloc()`, src/util.c:841-876, if it is over after `n` calls of `readlinkat()`. -/
def readlinkatMalloc (answers : Nat → Res Bytes) (n : Nat) : Option (Res Bytes) := loop answers n 256 0

end Casync.ReadLink
