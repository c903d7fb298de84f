import Verif.Model.Buffer
/-!
The growable buffer as a byte string: what each operation does to the contents.
-/
namespace Casync.Buffer.Spec
open Casync Casync.Buffer

/-- `Step op c ok c'`: on contents `c` the operation is carried out (`ok`) or refused, and leaves `c'`. The bytes that
`acquire` and `extend` add are unspecified, their number is not. The cap is one GiB. -/
def Step : Op → Bytes → Bool → Bytes → Prop
  | .acquire n, c, ok, c' => if n ≤ 2 ^ 30 then ok = true ∧ c'.length = n ∧ c.take n = c'.take c.length else ok = false ∧ c' = c
  | .acquire0 n, c, ok, c' => if n ≤ 2 ^ 30 then ok = true ∧ c' = List.replicate n 0 else ok = false ∧ c' = c
  | .extend n, c, ok, c' =>
    if c.length + n ≤ 2 ^ 30 then ok = true ∧ ∃ x : Bytes, x.length = n ∧ c' = c ++ x else ok = false ∧ c' = c
  | .extend0 n, c, ok, c' =>
    if c.length + n ≤ 2 ^ 30 then ok = true ∧ c' = c ++ List.replicate n 0 else ok = false ∧ c' = c
  | .append p, c, ok, c' => if c.length + p.length ≤ 2 ^ 30 then ok = true ∧ c' = c ++ p else ok = false ∧ c' = c
  | .free, _, ok, c' => ok = true ∧ c' = []
  | .empty, _, ok, c' => ok = true ∧ c' = []
  | .advance n, c, ok, c' => if n ≤ c.length then ok = true ∧ c' = c.drop n else ok = false ∧ c' = c
  | .shorten n, c, ok, c' => if n ≤ c.length then ok = true ∧ c' = c.take (c.length - n) else ok = false ∧ c' = c
  | .truncate n, c, ok, c' => if n ≤ c.length then ok = true ∧ c' = c.take n else ok = false ∧ c' = c
  | .read n reply, c, ok, c' =>
    if c.length + (if n = 2 ^ 64 - 1 then 65536 else max n 65536) ≤ 2 ^ 30 then
      ok = true ∧ c' = c ++ (reply.getD [])
    else ok = false ∧ c' = c
  | .donate p, c, ok, c' =>
    if c = [] then ok = true ∧ c' = p
    else if c.length + p.length ≤ 2 ^ 30 then ok = true ∧ c' = c ++ p else ok = false ∧ c' = c
  | .steal, _, ok, c' => ok = true ∧ c' = []

/-- The contents of a buffer: the bytes between `start` and `end`. -/
def contents (b : Buf) : Bytes := (b.data.drop b.start).take (b.stop - b.start)

/-- What the bookkeeping must satisfy at any time (the assertions of `realloc-buffer.h`, and no object larger than half
the address space). -/
structure Inv (b : Buf) : Prop where
  start_le : b.start ≤ b.stop
  stop_le : b.stop ≤ b.allocated
  len : b.data.length = b.allocated
  small : b.allocated < 2 ^ 62

/-- Arguments a C caller can pass: `size_t` numbers, objects that fit into memory, a `read` that does not overrun. -/
def OpOk : Op → Prop
  | .acquire n | .acquire0 n | .extend n | .extend0 n | .advance n | .shorten n | .truncate n => n < 2 ^ 64
  | .append p | .donate p => p.length < 2 ^ 62
  | .read n reply => n < 2 ^ 64 ∧ ∀ d, reply = some d → d.length ≤ (if n = 2 ^ 64 - 1 then 65536 else max n 65536)
  | .free | .empty | .steal => True

/-- A sequence of operations on a byte string with the given outcomes. -/
inductive Steps : List Op → Bytes → List Bool → Bytes → Prop
  | nil (c) : Steps [] c [] c
  | cons {op ops c ok c' oks c''} : Step op c ok c' → Steps ops c' oks c'' → Steps (op :: ops) c (ok :: oks) c''

end Casync.Buffer.Spec
