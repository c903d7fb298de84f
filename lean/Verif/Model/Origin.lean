import Verif.Model.Location
/-!
Origins (caorigin.c): the list of locations a run of bytes came from.
-/
namespace Casync.Origin
open Casync Location

/-- `CaOrigin`, caorigin.h:10-16.  `first` and `others` are one list; allocation is left out.  Locations are values here: the code shares
them between origins, but changes one only after making sure that it holds the only reference (`ca_location_patch_size()`,
`ca_location_advance()`, `ca_location_merge()` take a copy otherwise). -/
structure Origin where
  items : List Location
  nBytes : Nat
  deriving DecidableEq, Repr

/-- `ca_origin_new()`, caorigin.c:11-24; also the state after `ca_origin_flush()`, 26-37. -/
def empty : Origin := ⟨[], 0⟩

/-- `ca_origin_put()`, caorigin.c:49-88. -/
def put (o : Origin) (l : Location) : Res Origin :=
  if l.size = u64max then .err .EINVAL
  else match o.items.getLast? with
  | none => if o.nBytes ≠ 0 then .ub else .ok ⟨[l], l.size⟩
  | some last =>
    match merge last l with
    | .err e => .err e
    | .ub => .ub
    | .ok (some m) => .ok ⟨o.items.dropLast ++ [m], (o.nBytes + l.size) % 2 ^ 64⟩
    | .ok none => .ok ⟨o.items ++ [l], (o.nBytes + l.size) % 2 ^ 64⟩

/-- The loop of `ca_origin_concat()` for a given number of bytes, caorigin.c:137-158. -/
def concatLoop (o : Origin) : List Location → Nat → Res Origin
  | [], _ => .ok o
  | l :: ls, n =>
    if l.size = u64max then .ub
    else
      let l' := if l.size > n then patchSize l n else l
      match put o l' with
      | .ok o' => if n - l'.size = 0 then .ok o' else concatLoop o' ls (n - l'.size)
      | .err e => .err e
      | .ub => .ub

/-- The loop of `ca_origin_concat()` for `n_bytes == UINT64_MAX`, caorigin.c:132-136. -/
def concatAll (o : Origin) : List Location → Res Origin
  | [] => .ok o
  | l :: ls =>
    if l.size = u64max then .ub
    else match put o l with
      | .ok o' => concatAll o' ls
      | .err e => .err e
      | .ub => .ub

/-- `ca_origin_concat()`, caorigin.c:102-169.  A `NULL` argument counts as an empty origin (`ca_origin_bytes()`, `ca_origin_items()`).
Concatenating an origin to itself works on a copy of the list of locations, 117-127, which is what using the old value does here.
The return value 0 or 1 is left out, and `put` cannot fail half way, see `C19_concat`. -/
def concat (o other : Origin) (n : Nat) : Res Origin :=
  if n = 0 then .ok o
  else if n ≠ u64max ∧ other.nBytes < n then .err .ESPIPE
  else if n = u64max ∧ other.items = [] then .ok o
  else if n = u64max then concatAll o other.items
  else concatLoop o other.items n

/-- `ca_origin_advance_items()`, caorigin.c:171-204. -/
def advanceItems (o : Origin) (n : Nat) : Res Origin :=
  if n = 0 then .ok o
  else if n > o.items.length then .err .ESPIPE
  else if n = o.items.length then .ok empty
  else
    let dropped := ((o.items.take n).map (·.size)).sum % 2 ^ 64
    if ((o.items.drop 1).take (n - 1)).any (·.size == u64max) then .ub
    else if ¬ (o.nBytes > dropped) then .ub
    else .ok ⟨o.items.drop n, o.nBytes - dropped⟩

/-- The loop of `ca_origin_advance_bytes()`, caorigin.c:218-231: how many locations lie completely before the position, and what is left. -/
def findItem : List Location → Nat → Nat → Res (Nat × Nat)
  | [], i, n => .ok (i, n)
  | l :: ls, i, n =>
    if l.size = u64max then .ub
    else if l.size > n then .ok (i, n)
    else findItem ls (i + 1) (n - l.size)

/-- `ca_origin_advance_bytes()`, caorigin.c:206-247. -/
def advanceBytes (o : Origin) (n : Nat) : Res Origin :=
  if n = 0 then .ok o
  else if n > o.nBytes then .err .ESPIPE
  else if n = o.nBytes then .ok empty
  else match findItem o.items 0 n with
  | .err e => .err e
  | .ub => .ub
  | .ok (i, n) =>
    match advanceItems o i with
    | .err e => .err e
    | .ub => .ub
    | .ok o =>
      if ¬ (o.nBytes > n) then .ub
      else match o.items with
      | [] => .ub
      | first :: rest =>
        if ¬ (first.size > n) then .ub
        else match advance first n with
        | .ok f => .ok ⟨f :: rest, o.nBytes - n⟩
        | .err e => .err e
        | .ub => .ub

/-- `ca_origin_put_void()`, caorigin.c:273-320. -/
def putVoid (o : Origin) (n : Nat) : Res Origin :=
  if n = 0 then .ok o
  else match o.items.getLast? with
  | some last =>
    if last.designator = void then
      .ok ⟨o.items.dropLast ++ [patchSize last ((last.size + n) % 2 ^ 64)], (o.nBytes + n) % 2 ^ 64⟩
    else match newVoid n with
      | .ok v => put o v
      | .err e => .err e
      | .ub => .ub
  | none => match newVoid n with
    | .ok v => put o v
    | .err e => .err e
    | .ub => .ub

/-- `ca_origin_extract_bytes()`, caorigin.c:322-346; `NULL` is the empty origin. -/
def extractBytes (o : Origin) (n : Nat) : Res Origin := if n = 0 then .ok empty else concat empty o n

end Casync.Origin
