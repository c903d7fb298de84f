import Verif.Base.Res
/-!
Model of the hash tables, `src/hashmap.c`, `src/set.h`: open addressing, linear probing, Robin Hood insertion, removal by shifting
backwards, rehashing in place.

The arrays of buckets and of distances are functions on indexes; every access by a computed index checks that the index is
below the number of buckets and is `ub` if not. Loops without a bound in C carry fuel here, and running out of it is `ub`, so
that "never `ub`" includes termination. Keys are their contents (the compare function is equality of contents, and the hash
depends on nothing else), so that the comparisons of key pointers in the C code, which are between pointers to keys in the same
table, are comparisons of contents. The hash function, SipHash of the key under a random hash key, is an arbitrary function that is replaced by another
arbitrary function whenever C draws a new hash key. Not modelled: tables that remember the order of insertion
(`HASHMAP_TYPE_ORDERED`), the memory pool (disabled, line 38), `ENABLE_DEBUG_HASHMAP`, and freeing keys and values.
-/
namespace Casync.Hashmap
open Casync

/-- `enum HashmapType`, src/hashmap.c:170-175, without `HASHMAP_TYPE_ORDERED` -/
inductive Kind
  | plain | set
  deriving DecidableEq, Repr

/-- `entry_size`, src/hashmap.c:259-278, on a 64-bit machine: a key pointer, and a value pointer in a plain table -/
def Kind.entrySize : Kind → Nat
  | .plain => 16
  | .set => 8

/-- `sizeof(struct direct_storage)`, src/hashmap.c:178-198, on a 64-bit machine -/
def directSize : Nat := 39

/-- `DIRECT_BUCKETS`, src/hashmap.c:200-201 -/
def Kind.direct (k : Kind) : Nat := directSize / (k.entrySize + 1)

/-- `DIB_RAW_OVERFLOW`, `DIB_RAW_REHASH`, `DIB_RAW_FREE`, `DIB_FREE`, `IDX_NIL`, `UINT_MAX`, src/hashmap.c:124, 137-142 -/
def OVERFLOW : Nat := 0xfd
def REHASH : Nat := 0xfe
def FREE : Nat := 0xff
def UINT_MAX : Nat := 2 ^ 32 - 1

/-- `struct HashmapBase`, src/hashmap.c:215-231, with its storage. `n` is `n_buckets()`, 280-283, `count` is `n_entries()`, 285-288, and
`hash` the hash function under `hash_key()`, 309-312: for tables in direct storage the function `shared` that all of them use. -/
structure Table (K V : Type) where
  kind : Kind
  indirect : Bool
  n : Nat
  count : Nat
  lowest : Nat
  hash : K → Nat
  shared : K → Nat
  dibs : Nat → Nat
  ents : Nat → Option (K × V)

variable {K V : Type} [DecidableEq K] [DecidableEq V]

/-- Writing one element of an array. No repo lines. -/
def upd {α : Type} (f : Nat → α) (i : Nat) (a : α) : Nat → α := fun j => if j = i then a else f j

/-- `base_bucket_hash`, src/hashmap.c:314-325 -/
def home (t : Table K V) (k : K) : Nat := t.hash k % t.n

/-- `bucket_distance`, src/hashmap.c:386-389 -/
def dist (n idx start : Nat) : Nat := if idx ≥ start then idx - start else n + idx - start

/-- `next_idx`, src/hashmap.c:471-473 -/
def next (n idx : Nat) : Nat := (idx + 1) % n

/-- `prev_idx`, src/hashmap.c:475-477 -/
def prev (n idx : Nat) : Nat := (n + idx - 1) % n

/-- `bucket_calculate_dib`, src/hashmap.c:391-412; `ub` is the hash of a null pointer -/
def calcDib (t : Table K V) (idx raw : Nat) : Res Nat :=
  if raw = FREE then .ok UINT_MAX
  else if raw < OVERFLOW then .ok raw
  else match t.ents idx with
    | some e => .ok (dist t.n idx (home t e.1))
    | none => .ub

/-- `bucket_set_dib`, src/hashmap.c:414-416: the byte stored -/
def rawDib (dib : Nat) : Nat := if dib ≠ UINT_MAX then min dib OVERFLOW else FREE

/-- `skip_free_buckets`, src/hashmap.c:418-428; `none` is `IDX_NIL`. The second argument is the number of buckets left. -/
def skipFree (dibs : Nat → Nat) : Nat → Nat → Option Nat
  | _, 0 => none
  | idx, m + 1 => if dibs idx ≠ FREE then some idx else skipFree dibs (idx + 1) m

/-- `reset_direct_storage` and `hashmap_base_new`, src/hashmap.c:714-762 -/
def new (kind : Kind) (shared : K → Nat) : Table K V :=
  { kind, indirect := false, n := kind.direct, count := 0, lowest := 0, hash := shared, shared, dibs := fun _ => FREE, ents := fun _ => none }

/-- `internal_hashmap_clear`, src/hashmap.c:858-874 -/
def clear (t : Table K V) : Table K V := new t.kind t.shared

/-- `base_bucket_scan`, src/hashmap.c:1166-1189: the loop -/
def scanLoop (t : Table K V) (k : K) : Nat → Nat → Nat → Res (Option Nat)
  | 0, _, _ => .ub
  | fuel + 1, idx, distance =>
    if t.n ≤ idx then .ub
    else if t.dibs idx = FREE then .ok none
    else do
      let dib ← calcDib t idx (t.dibs idx)
      if dib < distance then .ok none
      else if dib = distance then
        match t.ents idx with
        | none => .ub
        | some e => if e.1 = k then .ok (some idx) else scanLoop t k fuel (next t.n idx) (distance + 1)
      else scanLoop t k fuel (next t.n idx) (distance + 1)

/-- `bucket_hash` and `bucket_scan` of a key, as every operation begins, for instance src/hashmap.c:1199-1200 -/
def scan (t : Table K V) (k : K) : Res (Option Nat) := scanLoop t k (t.n + 1) (home t k) 0

/-- `hashmap_put_robin_hood`, src/hashmap.c:916-962. The entry in the slot `IDX_PUT` is an argument; if one is left there at the end
it is the second result. -/
def putLoop : Nat → Table K V → Nat → Nat → K × V → Res (Table K V × Option (K × V))
  | 0, _, _, _, _ => .ub
  | fuel + 1, t, idx, distance, c =>
    if t.n ≤ idx then .ub
    else if t.dibs idx = FREE ∨ t.dibs idx = REHASH then
      .ok ({ t with lowest := if t.indirect ∧ t.lowest > idx then idx else t.lowest, dibs := upd t.dibs idx (rawDib distance), ents := upd t.ents idx (some c) },
        if t.dibs idx = REHASH then t.ents idx else none)
    else do
      let dib ← calcDib t idx (t.dibs idx)
      if dib < distance then
        match t.ents idx with
        | none => .ub
        | some e =>
          putLoop fuel { t with dibs := upd t.dibs idx (rawDib distance), ents := upd t.ents idx (some c) } (next t.n idx) (dib + 1) e
      else putLoop fuel t (next t.n idx) (distance + 1) c

/-- `hashmap_put_robin_hood` from the start. No repo lines of its own: the fuel is enough for one round. -/
def putRobinHood (t : Table K V) (idx : Nat) (c : K × V) : Res (Table K V × Option (K × V)) := putLoop (t.n + 1) t idx 0 c

/-- `log2u_round_up`, src/util.h:676-689; the argument is not 0 -/
def log2uRoundUp (x : Nat) : Nat := if x = 1 then 0 else Nat.log2 (x - 1) + 1

/-- src/hashmap.c:1142-1153, the `do` loop of `resize_buckets` -/
def chase : Nat → Table K V → K × V → Nat → Res (Table K V × Nat)
  | 0, _, _, _ => .ub
  | fuel + 1, t, c, nRehashed => do
    let (t, c') ← putRobinHood t (home t c.1) c
    match c' with
    | none => .ok (t, nRehashed + 1)
    | some c' => chase fuel t c' (nRehashed + 1)

/-- src/hashmap.c:1120-1154, the loop over the old buckets; the first argument is the number of them left -/
def rehashLoop : Nat → Nat → Table K V → Nat → Res (Table K V × Nat)
  | 0, _, t, nRehashed => .ok (t, nRehashed)
  | m + 1, idx, t, nRehashed =>
    if t.dibs idx ≠ REHASH then rehashLoop m (idx + 1) t nRehashed
    else match t.ents idx with
      | none => .ub
      | some e =>
        if home t e.1 = idx then rehashLoop m (idx + 1) { t with dibs := upd t.dibs idx 0 } (nRehashed + 1)
        else do
          let (t, nRehashed) ← chase (t.n + 1) { t with dibs := upd t.dibs idx FREE, ents := upd t.ents idx none } e nRehashed
          rehashLoop m (idx + 1) t nRehashed

/-- Whatever the environment decides in one operation: whether `realloc` succeeds, and the hash function under the key that
`get_hash_key`, src/hashmap.c:328-345, delivers. No repo lines. -/
structure Env (K : Type) where
  alloc : Bool
  newHash : K → Nat

/-- `resize_buckets`, src/hashmap.c:1028-1159; `true` if the table was resized. Shifting a 32-bit number by 32 or more, 1067-1075, is `ub`;
moving the distances over ones not yet moved, 1097-1111, is `ub`. -/
def resize (env : Env K) (t : Table K V) (entriesAdd : Nat) : Res (Table K V × Bool) :=
  let newEntries := (t.count + entriesAdd) % 2 ^ 32
  if newEntries < entriesAdd then .err .ENOMEM
  else if ¬ t.indirect ∧ newEntries ≤ t.kind.direct then .ok (t, false)
  else
    let want := (newEntries + newEntries / 4) % 2 ^ 32
    if want < newEntries then .err .ENOMEM
    else if want > UINT_MAX / (t.kind.entrySize + 1) then .err .ENOMEM
    else if want ≤ t.n then .ok (t, false)
    else
      let shift := log2uRoundUp (max (want * (t.kind.entrySize + 1)) (2 * directSize))
      if shift ≥ 32 then .ub
      else if ¬ env.alloc then .err .ENOMEM
      else
        let n := 2 ^ shift / (t.kind.entrySize + 1)
        if t.kind.entrySize * n < (t.kind.entrySize + 1) * t.n then .ub
        else if (List.range t.n).any (fun i => t.dibs i = REHASH) then .ub
        else do
          let (t', nRehashed) ← rehashLoop t.n 0
            { t with indirect := true, n, lowest := if t.indirect then t.lowest else 0, hash := env.newHash, dibs := fun i => if i < t.n then (if t.dibs i = FREE then FREE else REHASH) else FREE, ents := fun i => if i < t.n then t.ents i else none } 0
          Res.assert (nRehashed = t'.count)
          .ok (t', true)

/-- `hashmap_base_put_boldly`, src/hashmap.c:974-1018. The index is the home of the key, as in all calls. -/
def putBoldly (env : Env K) (t : Table K V) (c : K × V) (mayResize : Bool) : Res (Table K V) := do
  let (t, _) ← (if mayResize then resize env t 1 else .ok (t, false))
  Res.assert (t.count < t.n)
  let (t, left) ← putRobinHood t (home t c.1) c
  Res.assert left.isNone
  .ok { t with count := t.count + 1 }

/-- src/hashmap.c:506-517, the search for the bucket at which to stop shifting -/
def findRight (t : Table K V) (left : Nat) : Nat → Nat → Res Nat
  | 0, _ => .ub
  | fuel + 1, right =>
    if t.n ≤ right then .ub
    else if t.dibs right = 0 ∨ t.dibs right = FREE then .ok right
    else if left = right then .ub
    else findRight t left fuel (next t.n right)

/-- src/hashmap.c:534-541, shifting the buckets; the results are the table and `prev` -/
def shiftLoop : Nat → Table K V → Nat → Nat → Nat → Res (Table K V × Nat)
  | 0, _, _, _, _ => .ub
  | fuel + 1, t, right, prv, left =>
    if left = right then .ok (t, prv)
    else if t.n ≤ left then .ub
    else do
      let dib ← calcDib t left (t.dibs left)
      Res.assert (dib ≠ 0)
      shiftLoop fuel { t with dibs := upd t.dibs prv (rawDib (dib - 1)), ents := upd t.ents prv (t.ents left) } right left (next t.n left)

/-- `base_remove_entry`, src/hashmap.c:494-545 -/
def removeEntry (t : Table K V) (idx : Nat) : Res (Table K V) := do
  Res.assert (idx < t.n ∧ t.dibs idx ≠ FREE)
  let right ← findRight t idx (t.n + 1) (next t.n idx)
  let (t, prv) ← shiftLoop (t.n + 1) t right idx (next t.n idx)
  .ok { t with dibs := upd t.dibs prv FREE, ents := upd t.ents prv none, count := t.count - 1 }

/-- The entry in a bucket; a null pointer is `ub`. No repo lines. -/
def entryAt (t : Table K V) (idx : Nat) : Res (K × V) :=
  match t.ents idx with
  | some e => .ok e
  | none => .ub

/-- `hashmap_put`, src/hashmap.c:1192-1212; `true` for the result 1 -/
def put (env : Env K) (t : Table K V) (k : K) (v : V) : Res (Table K V × Bool) := do
  match ← scan t k with
  | some idx =>
    let e ← entryAt t idx
    if e.2 = v then .ok (t, false) else .err .EEXIST
  | none =>
    let t ← putBoldly env t (k, v) true
    .ok (t, true)

/-- `set_put`, src/hashmap.c:1214-1229 -/
def setPut (env : Env K) (t : Table K Unit) (k : K) : Res (Table K Unit × Bool) := do
  match ← scan t k with
  | some _ => .ok (t, false)
  | none =>
    let t ← putBoldly env t (k, ()) true
    .ok (t, true)

/-- `hashmap_replace`, src/hashmap.c:1231-1261 -/
def replace (env : Env K) (t : Table K V) (k : K) (v : V) : Res (Table K V × Bool) := do
  match ← scan t k with
  | some idx => .ok ({ t with ents := upd t.ents idx (some (k, v)) }, false)
  | none =>
    let t ← putBoldly env t (k, v) true
    .ok (t, true)

/-- `hashmap_update`, src/hashmap.c:1263-1277 -/
def update (t : Table K V) (k : K) (v : V) : Res (Table K V) := do
  match ← scan t k with
  | none => .err .ENOENT
  | some idx =>
    let e ← entryAt t idx
    .ok { t with ents := upd t.ents idx (some (e.1, v)) }

/-- `internal_hashmap_get`, src/hashmap.c:1279-1293 -/
def get (t : Table K V) (k : K) : Res (Option V) := do
  match ← scan t k with
  | none => .ok none
  | some idx =>
    let e ← entryAt t idx
    .ok (some e.2)

/-- `internal_hashmap_contains`, src/hashmap.c:1314-1322 -/
def contains (t : Table K V) (k : K) : Res Bool := do
  let r ← scan t k
  .ok r.isSome

/-- `internal_hashmap_remove`, src/hashmap.c:1324-1342 -/
def remove (t : Table K V) (k : K) : Res (Table K V × Option V) := do
  match ← scan t k with
  | none => .ok (t, none)
  | some idx =>
    let e ← entryAt t idx
    let t ← removeEntry t idx
    .ok (t, some e.2)

/-- `hashmap_remove_value`, src/hashmap.c:1462-1481 -/
def removeValue (t : Table K V) (k : K) (v : V) : Res (Table K V × Bool) := do
  match ← scan t k with
  | none => .ok (t, false)
  | some idx =>
    let e ← entryAt t idx
    if e.2 ≠ v then .ok (t, false)
    else
      let t ← removeEntry t idx
      .ok (t, true)

/-- `hashmap_remove_and_put`, src/hashmap.c:1373-1398, and `set_remove_and_put`, 1400-1424. Without resizing the environment does not
matter. -/
def removeAndPut (env : Env K) (t : Table K V) (old new : K) (v : V) : Res (Table K V) := do
  match ← scan t old with
  | none => .err .ENOENT
  | some idx =>
    match ← scan t new with
    | some _ => .err .EEXIST
    | none =>
      let t ← removeEntry t idx
      putBoldly env t (new, v) false

/-- src/hashmap.c:1443-1451: the removal of another entry and the compensation for a backward shift -/
def makeRoom (t : Table K V) (idxOld : Nat) (oldKey : K) : Option Nat → Res (Table K V × Nat)
  | none => .ok (t, idxOld)
  | some idxNew =>
    if idxOld = idxNew then .ok (t, idxOld)
    else do
      let t ← removeEntry t idxNew
      let idxOld := if (t.ents idxOld).map (·.1) ≠ some oldKey then prev t.n idxOld else idxOld
      Res.assert ((t.ents idxOld).map (·.1) = some oldKey)
      .ok (t, idxOld)

/-- `hashmap_remove_and_replace`, src/hashmap.c:1426-1460 -/
def removeAndReplace (env : Env K) (t : Table K V) (old new : K) (v : V) : Res (Table K V) := do
  match ← scan t old with
  | none => .err .ENOENT
  | some idxOld =>
    let e ← entryAt t idxOld
    let r ← scan t new
    let (t, idxOld) ← makeRoom t idxOld e.1 r
    let t ← removeEntry t idxOld
    putBoldly env t (new, v) false

/-- `Iterator`, src/hashmap.h, with `ITERATOR_FIRST`: not begun, at an index with the key expected there, or at the end -/
inductive Iter (K : Type)
  | first
  | at (idx : Nat) (key : K)
  | done

/-- src/hashmap.c:636-647, the end of `hashmap_iterate_in_internal_order`: the index delivered and the iterator after it -/
def advance (t : Table K V) (idx : Nat) : Res (Nat × Iter K) :=
  match skipFree t.dibs (idx + 1) (t.n - (idx + 1)) with
  | none => .ok (idx, .done)
  | some j => do
    let e ← entryAt t j
    .ok (idx, .at j e.1)

/-- `hashmap_iterate_in_internal_order`, src/hashmap.c:599-652: the table (the index of the lowest entry is updated), the bucket
delivered and the iterator after it -/
def iterate (t : Table K V) : Iter K → Res (Table K V × Option (Nat × Iter K))
  | .done => .ok (t, none)
  | .first =>
    let start := if t.indirect then t.lowest else 0
    let i := skipFree t.dibs start (t.n - start)
    let t := if t.indirect then { t with lowest := i.getD UINT_MAX } else t
    match i with
    | none => .ok (t, none)
    | some idx => do
      let r ← advance t idx
      .ok (t, some r)
  | .at idx key => do
    Res.assert (idx > 0)
    let idx := if (t.ents idx).map (·.1) ≠ some key then idx - 1 else idx
    Res.assert ((t.ents idx).map (·.1) = some key)
    let r ← advance t idx
    .ok (t, some r)

/-- `HASHMAP_FOREACH` and `SET_FOREACH`, src/set.h, with a body that does not touch the table: the entries in the order in which they
are delivered -/
def foreach : Nat → Table K V → Iter K → Res (Table K V × List (K × V))
  | 0, _, _ => .ub
  | fuel + 1, t, it => do
    let (t, r) ← iterate t it
    match r with
    | none => .ok (t, [])
    | some (idx, it) =>
      let e ← entryAt t idx
      let (t, l) ← foreach fuel t it
      .ok (t, e :: l)

/-- The whole loop. No repo lines of its own: the fuel is enough for all buckets. -/
def forall' (t : Table K V) : Res (Table K V × List (K × V)) := foreach (t.n + 1) t .first

/-- `find_first_entry`, src/hashmap.c:1483-1490 -/
def findFirst (t : Table K V) : Res (Table K V × Option Nat) :=
  if t.count = 0 then .ok (t, none)
  else do
    let (t, r) ← iterate t .first
    .ok (t, r.map (·.1))

/-- `internal_hashmap_first` and `internal_hashmap_first_key`, src/hashmap.c:1492-1512: the entry -/
def first (t : Table K V) : Res (Table K V × Option (K × V)) := do
  match ← findFirst t with
  | (t, none) => .ok (t, none)
  | (t, some idx) =>
    let e ← entryAt t idx
    .ok (t, some e)

/-- `internal_hashmap_steal_first` and `internal_hashmap_steal_first_key`, src/hashmap.c:1514-1542: the entry -/
def stealFirst (t : Table K V) : Res (Table K V × Option (K × V)) := do
  match ← findFirst t with
  | (t, none) => .ok (t, none)
  | (t, some idx) =>
    let e ← entryAt t idx
    let t ← removeEntry t idx
    .ok (t, some e)

/-- `internal_hashmap_reserve`, src/hashmap.c:1598-1608 -/
def reserve (env : Env K) (t : Table K V) (entriesAdd : Nat) : Res (Table K V) := do
  let (t, _) ← resize env t entriesAdd
  .ok t

end Casync.Hashmap
