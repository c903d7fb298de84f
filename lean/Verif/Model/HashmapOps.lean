import Verif.Model.Hashmap
import Verif.Spec.Hashmap
/-! The operations of `src/hashmap.c` under one roof, and the users of sets in `src/gc.c`. -/
namespace Casync.Hashmap
open Casync
open Spec (Op Out)

variable {K V : Type} [DecidableEq K] [DecidableEq V]

/-- A result with the table that the caller has afterwards: after an error that is the table from before, since no operation
changes the table before its last possible failure. `none` is undefined behaviour, an assertion failure or an endless loop. No
repo lines. -/
def outcome {α : Type} (t : Table K V) (r : Res α) (f : α → Table K V × Out K V) : Option (Table K V × Out K V) :=
  match r with
  | .ok a => some (f a)
  | .err e => some (t, .error e)
  | .ub => none

/-- One operation: the functions of src/hashmap.h:140-353 and src/set.h:49-129, modelled in `Model/Hashmap` -/
def exec (env : Env K) (t : Table K V) : Op K V → Option (Table K V × Out K V)
  | .put k v => outcome t (put env t k v) fun r => (r.1, .bool r.2)
  | .replace k v => outcome t (replace env t k v) fun r => (r.1, .bool r.2)
  | .update k v => outcome t (update t k v) fun r => (r, .unit)
  | .get k => outcome t (get t k) fun r => (t, .value r)
  | .contains k => outcome t (contains t k) fun r => (t, .bool r)
  | .remove k => outcome t (remove t k) fun r => (r.1, .value r.2)
  | .removeValue k v => outcome t (removeValue t k v) fun r => (r.1, .bool r.2)
  | .removeAndPut old new v => outcome t (removeAndPut env t old new v) fun r => (r, .unit)
  | .removeAndReplace old new v => outcome t (removeAndReplace env t old new v) fun r => (r, .unit)
  | .first => outcome t (first t) fun r => (r.1, .entry r.2)
  | .stealFirst => outcome t (stealFirst t) fun r => (r.1, .entry r.2)
  | .foreach => outcome t (forall' t) fun r => (r.1, .entries r.2)
  | .size => some (t, .number t.count)
  | .reserve n => outcome t (reserve env t n) fun r => (r, .unit)
  | .clear => some (clear t, .unit)

/-- A sequence of operations. No repo lines. -/
def run : Table K V → List (Op K V × Env K) → Option (Table K V × List (Op K V × Bool × Out K V))
  | t, [] => some (t, [])
  | t, (op, env) :: ops =>
    match exec env t op with
    | none => none
    | some (t, out) =>
      match run t ops with
      | none => none
      | some (t, h) => some (t, (op, env.alloc, out) :: h)

/-- `gc_add_chunk_id`, src/gc.c:69-84, with `set_consume`, src/hashmap.c:1763-1774, for one id after another. Whether `memdup` succeeds is
the first of the environment's decisions. -/
def addIds : Table K Unit → List (K × Bool × Env K) → Res (Table K Unit)
  | t, [] => .ok t
  | t, (id, dup, env) :: ids =>
    if ¬ dup then .err .ENOMEM
    else do
      let (t, _) ← setPut env t id
      addIds t ids

/-- `SET_FOREACH`, src/set.h:128-129, with a body that removes the current entry if its key satisfies `p`: the entries in the order in
which they are delivered -/
def foreachRemoving (p : K → Bool) : Nat → Table K V → Iter K → Res (Table K V × List (K × V))
  | 0, _, _ => .ub
  | fuel + 1, t, it => do
    let (t, r) ← iterate t it
    match r with
    | none => .ok (t, [])
    | some (idx, it) =>
      let e ← entryAt t idx
      let t ← (if p e.1 then removeEntry t idx else .ok t)
      let (t, l) ← foreachRemoving p fuel t it
      .ok (t, e :: l)

end Casync.Hashmap
