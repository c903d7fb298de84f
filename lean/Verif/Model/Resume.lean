import Verif.Model.Encoder
import Verif.Model.Location
import Verif.Model.Match
/-!
The encoder of `src/caencoder.c` with `ca_encoder_current_location()` and `ca_encoder_seek_location()`.

`Model/Encoder.lean` describes an encoder that only goes forward.  Here are in addition what a seek depends on: the nodes that stay open below the
current one, the exclusion rules each node has inherited, name tables that are missing, and archive offsets that are unknown.  The file system
does not change.  Failing system calls, allocation failures, digests and block devices are left out.
-/
namespace Casync.Resume
open Casync Archive

/-! ### The file system -/

/-- An object that is not a directory. -/
inductive Leaf
  | file (e : Entry) (a : Attrs) (api : Bool) (content : Bytes)
  | symlink (e : Entry) (a : Attrs) (target : Bytes)
  | device (e : Entry) (a : Attrs) (major minor : Nat)
  | special (e : Entry) (a : Attrs)

/-- The object in terms of `Model/Encoder.lean`.  No repo lines. -/
def Leaf.tree : Leaf → Tree
  | .file e a api c => .file e a api c
  | .symlink e a t => .symlink e a t
  | .device e a x y => .device e a x y
  | .special e a => .special e a

mutual
/-- An object.  A directory has the rules of its `.caexclude` file, if it has one and the encoder is to respect it
(src/caencoder.c:529-568 `ca_encoder_node_load_exclude_file`). -/
inductive Obj
  | leaf (l : Leaf)
  | dir (e : Entry) (a : Attrs) (api : Bool) (own : Match.Rules) (kids : Objs)
/-- The entries of a directory, sorted by name.  `keep` says that the checks before the exclusion rules (src/caencoder.c:1827-1851: flags,
"nodump", mount points) let the entry pass. -/
inductive Objs
  | nil
  | cons (keep : Bool) (name : Bytes) (o : Obj) (rest : Objs)
end

/-- `S_ISDIR()` -/
def Obj.isDir : Obj → Bool
  | .leaf _ => false
  | .dir .. => true

/-- The directory entries, src/caencoder.c:500-521 `ca_encoder_node_read_dirents`. -/
def Obj.kids : Obj → Objs
  | .leaf _ => .nil
  | .dir _ _ _ _ k => k

/-- The rules of the exclude file. -/
def Obj.own : Obj → Match.Rules
  | .leaf _ => []
  | .dir _ _ _ r _ => r

/-- src/caencoder.c:2509-2816 `ca_encoder_get_entry_data`; what is in a directory plays no role. -/
def Obj.head : Obj → Bytes
  | .leaf l => headBytes l.tree
  | .dir e a api _ _ => headBytes (.dir e a api .nil)

/-- `n->dirent_idx++`. -/
def Objs.tail : Objs → Objs
  | .nil => .nil
  | .cons _ _ _ r => r

/-- `bsearch()` among the entries, src/caencoder.c:3607: the entries from the one with the name on.  (The names are sorted, and no name occurs
twice; so this is the entry that is found.) -/
def Objs.from (name : Bytes) : Objs → Option Objs
  | .nil => none
  | .cons k n o r => if n = name then some (.cons k n o r) else r.from name

/-- What is outside of the encoder: the C library's `qsort()` for name tables and rules, `fnmatch()`, and of each object its larger time stamp,
inode number and generation. -/
structure Env where
  qsort : List Goodbye.NameItem → List Goodbye.NameItem
  qsortRules : List Match.Match → List Match.Match
  fnm : Bytes → Bytes → Bool
  stamp : Bytes → Nat × Nat × Option Nat
  featureFlags : Nat

/-- src/caencoder.c:1811-1870 `ca_encoder_shall_store_child_node`: `none` is "no", otherwise the rules the child inherits.  `rules` is the
`exclude_match` of the directory after its own exclude file was read. -/
def verdict (env : Env) (rules : Match.Rules) (keep : Bool) (name : Bytes) (isDir : Bool) : Res (Option Match.Rules) :=
  if !keep then .ok none
  else match Match.test env.qsortRules env.fnm rules name isDir with
    | .ok (true, _) => .ok none
    | .ok (false, sub) => .ok (some (Match.merge [] sub))
    | .err x => .err x
    | .ub => .ub

/-! ### The state -/

/-- src/caencoder.c:74-150 `CaEncoderNode`: the object, the `exclude_match` it was given by its parent, the directory entries from the current one
on, and the name table with its parents (`[]` is `NULL`). -/
structure RNode where
  obj : Obj
  rules : Match.Rules
  rest : Objs
  table : NameTable.Chain

/-- src/caencoder.c:165-204 `struct CaEncoder`: `up`, `cur` and `below` are the array of nodes, `up` reversed, `cur` the node `node_idx`.
`archiveOff` is `none` for `UINT64_MAX`. -/
structure REnc where
  state : EState := .init
  up : List RNode := []
  cur : RNode
  below : List RNode := []
  buf : Bytes := []
  archiveOff : Option Nat := some 0
  payloadOff : Nat := 0

/-- src/caencoder.c:1709-1784 `ca_encoder_open_child`: the new node. -/
def opened (o : Obj) (rules : Match.Rules) : RNode := { obj := o, rules := rules, rest := o.kids, table := [] }

/-- src/caencoder.c:1940-1945 `ca_encoder_enter_state`. -/
def enter (s : REnc) (st : EState) : REnc := { s with state := st, payloadOff := 0 }

/-- src/caencoder.c:208-217 `CA_ENCODER_IS_NAKED`. -/
def naked (s : REnc) : Bool :=
  s.up.isEmpty && s.below.isEmpty && (match s.cur.obj with | .leaf (.file ..) => true | _ => false)

/-! ### Name tables -/

/-- src/caencoder.c:1947-1977 `ca_encoder_initialize_name_table`: the table of the current node, which must not have one. -/
def initTable (s : REnc) (sub : Nat) : Res NameTable.Chain :=
  if s.cur.table ≠ [] then .ub
  else if s.cur.obj.isDir = false then .ok []
  else match s.archiveOff with
    | none => .ok []
    | some a =>
      if a < sub then .err .EINVAL
      else match s.up with
        | [] => .ok [⟨a - sub, []⟩]
        | p :: _ => if p.table = [] then .ok [] else .ok (⟨a - sub, []⟩ :: p.table)

/-- src/caencoder.c:1979-2010 `ca_encoder_add_name_table_item`. -/
def addTable (table : NameTable.Chain) (name : Bytes) (off : Option Nat) : Res NameTable.Chain :=
  match table, off with
  | [], _ => .ok []
  | _ :: _, none => .ok []
  | t :: ts, some a =>
    if (match t.items.getLast? with | some i => decide (i.end = u64max) | none => false) then .ub
    else .ok ({ t with items := t.items ++ [⟨nameHash name, a, u64max⟩] } :: ts)

/-- src/caencoder.c:2012-2045 `ca_encoder_update_name_table_end_offset`. -/
def closeTable (table : NameTable.Chain) (off : Option Nat) : Res NameTable.Chain :=
  match table, off with
  | [], _ => .ok []
  | _ :: _, none => .ok []
  | t :: ts, some a =>
    match t.items.getLast? with
    | none => .ok (t :: ts)
    | some i =>
      if i.start = u64max ∨ i.end ≠ u64max ∨ a < i.start then .ub
      else .ok ({ t with items := t.items.dropLast ++ [{ i with «end» := a }] } :: ts)

/-! ### Going forward -/

/-- src/caencoder.c:2071-2094, case `CA_ENCODER_ENTERED`. -/
def stepEntered (s : REnc) : REnc × Res EEv :=
  match initTable s 0 with
  | .ok t => (enter { s with cur := { s.cur with table := t } } .entry, .ok .nextFile)
  | .err x => (s, .err x)
  | .ub => (s, .ub)

/-- src/caencoder.c:2128-2151, case `CA_ENCODER_IN_PAYLOAD`. -/
def stepPayload (s : REnc) : REnc × Res EEv :=
  match s.cur.obj with
  | .leaf (.file _ _ _ c) =>
    if s.payloadOff ≥ c.length then
      if naked s then (enter (enter s .finalize) .eof, .ok .finished)
      else (enter s .finalize, .ok .doneFile)
    else (s, .ok .payload)
  | _ => (s, .ub)

/-- src/caencoder.c:2172-2190, the loop of `CA_ENCODER_FIRST_DIRENT`: the first entry that is to be stored, with the rules it inherits, or the last
one that was looked at. -/
def scan (env : Env) (rules : Match.Rules) : Objs → Obj → Res (Obj ⊕ (Match.Rules × Bool × Bytes × Obj × Objs))
  | .nil, last => .ok (.inl last)
  | .cons keep name o r, _ =>
    match verdict env rules keep name o.isDir with
    | .ok none => scan env rules r o
    | .ok (some sub) => .ok (.inr (sub, keep, name, o, r))
    | .err x => .err x
    | .ub => .ub

/-- src/caencoder.c:2161-2199, case `CA_ENCODER_FIRST_DIRENT`, with 1680-1707 `ca_encoder_init_child`: opening a child forgets the nodes below. -/
def stepDirents (env : Env) (s : REnc) : REnc × Res EEv :=
  match s.cur.rest with
  | .nil => (enter s .goodbye, .ok .data)
  | .cons keep name o r =>
    if s.up.length + 1 ≥ 64 then (s, .err .E2BIG)
    else match scan env (Match.merge s.cur.rules s.cur.obj.own) (.cons keep name o r) o with
      | .ok (.inl last) => (enter { s with cur := { s.cur with rest := .nil }, below := [opened last []] } .goodbye, .ok .data)
      | .ok (.inr (sub, k', n', o', r')) =>
        (match addTable s.cur.table n' s.archiveOff with
        | .ok t => (enter { s with cur := { s.cur with rest := .cons k' n' o' r', table := t }, below := [opened o' sub] } .filename, .ok .data)
        | .err x => (s, .err x)
        | .ub => (s, .ub))
      | .err x => (s, .err x)
      | .ub => (s, .ub)

/-- src/caencoder.c:2153-2160, case `CA_ENCODER_NEXT_DIRENT`. -/
def stepNextDirent (env : Env) (s : REnc) : REnc × Res EEv :=
  match closeTable s.cur.table s.archiveOff with
  | .ok t => stepDirents env { s with cur := { s.cur with table := t, rest := s.cur.rest.tail } }
  | .err x => (s, .err x)
  | .ub => (s, .ub)

/-- src/caencoder.c:1786-1797 `ca_encoder_enter_child`. -/
def enterChild (s : REnc) : Option REnc :=
  match s.below with
  | [] => none
  | b :: bs => some { s with up := s.cur :: s.up, cur := b, below := bs }

/-- src/caencoder.c:2047-2247 `ca_encoder_step_node`. -/
def stepNode (env : Env) (s : REnc) : REnc × Res EEv :=
  match s.state with
  | .init => if naked s then stepPayload (enter s .inPayload) else stepEntered (enter s .entered)
  | .entered => stepEntered s
  | .entry =>
    (match s.cur.obj with
    | .leaf (.file _ _ false _) => stepPayload (enter s .inPayload)
    | .leaf _ => (enter s .finalize, .ok .doneFile)
    | .dir _ _ false _ _ => stepDirents env (enter s .firstDirent)
    | .dir _ _ true _ _ => (enter s .goodbye, .ok .data))
  | .inPayload => stepPayload s
  | .nextDirent => stepNextDirent env s
  | .firstDirent => stepDirents env s
  | .filename =>
    (match enterChild s with
    | some s' => stepEntered (enter s' .entered)
    | none => (s, .err .EINVAL))
  | .goodbye => (enter s .finalize, .ok .doneFile)
  | .finalize =>
    (match s.up with
    | [] => (enter s .eof, .ok .finished)
    | p :: us => stepNextDirent env (enter { s with up := us, cur := p, below := s.cur :: s.below } .nextDirent))
  | .eof => (s, .ok .finished)

/-- src/caencoder.c:2249-2271 `ca_encoder_advance_buffer`. -/
def advance (s : REnc) : REnc :=
  { s with payloadOff := s.payloadOff + s.buf.length, archiveOff := s.archiveOff.map (· + s.buf.length), buf := [] }

/-- src/caencoder.c:2273-2288 `ca_encoder_step`. -/
def step (env : Env) (s : REnc) : REnc × Res EEv :=
  if s.state = .eof then (s, .ok .finished) else stepNode env (advance s)

/-- The items of a table for `Model/Goodbye.lean`.  No repo lines. -/
def toItems (l : List NameTable.Item) : List Goodbye.NameItem := l.map fun i => ⟨i.hash, i.start, i.end⟩

/-- src/caencoder.c:2818-2889 `ca_encoder_get_goodbye_data`: the whole record. -/
def goodbyeRecord (env : Env) (s : REnc) : Res Bytes :=
  match s.cur.table, s.archiveOff with
  | [], _ => .err .ENOLINK
  | _ :: _, none => .err .ENOLINK
  | t :: _, some a =>
    if a < s.payloadOff then .err .EINVAL
    else do
      let rows ← Goodbye.goodbyeTable env.qsort (toItems t.items) (a - s.payloadOff)
      Res.assert (decide (t.entryOffset ≠ u64max ∧ t.entryOffset < a - s.payloadOff))
      .ok (goodbyeBytes rows (a - s.payloadOff - t.entryOffset))

/-- The record that is to be delivered, src/caencoder.c:2947-2986; `none` for the content of a file, which is not a record. -/
def wholeRecord (env : Env) (s : REnc) : Option (Res Bytes) :=
  match s.state with
  | .entry => some (.ok s.cur.obj.head)
  | .inPayload => none
  | .filename =>
    (match s.cur.rest with
    | .cons _ name _ _ => some (.ok (strRecord .filename name))
    | .nil => some (.err .EUNATCH))
  | .goodbye => some (goodbyeRecord env s)
  | _ => some (.err .ENODATA)

/-- src/caencoder.c:2907-3022 `ca_encoder_get_data` with a place for the data, without digests.  The part of a record that a seek skips is
dropped (2988-2995); if there is not so much, the whole record stays in the buffer. -/
def getData (env : Env) (s : REnc) (suggested : Option Nat) : REnc × Res Bytes :=
  if s.buf ≠ [] then (s, .ok s.buf)
  else match wholeRecord env s with
    | some (.ok x) =>
      if s.payloadOff > x.length then ({ s with buf := x }, .err .EINVAL)
      else ({ s with buf := x.drop s.payloadOff }, .ok (x.drop s.payloadOff))
    | some (.err x) => (s, .err x)
    | some .ub => (s, .ub)
    | none =>
      match s.cur.obj with
      | .leaf (.file _ _ _ c) =>
        let x := if s.payloadOff ≥ c.length then [] else getPayloadData c s.payloadOff suggested
        ({ s with buf := x }, .ok x)
      | _ => (s, .ub)

/-- src/caencoder.c:2337-2366 `ca_encoder_skip_payload_data`: as much as is suggested, or all that is left. -/
def skipPayload (c : Bytes) (off : Nat) (suggested : Option Nat) : Bytes :=
  match suggested with
  | none => c.drop off
  | some n => (c.drop off).take n

/-- src/caencoder.c:2907-3022 `ca_encoder_get_data` without a place for the data (`ret == NULL`): records are made as usual, but the content of a
file is skipped.  The caller only learns the number of bytes.  `buf` stands for the buffer and for `skipped_bytes`: what was skipped is in it
here. -/
def skipData (env : Env) (s : REnc) (suggested : Option Nat) : REnc × Res Bytes :=
  if s.buf ≠ [] then (s, .ok s.buf)
  else match wholeRecord env s with
    | some _ => getData env s suggested
    | none =>
      match s.cur.obj with
      | .leaf (.file _ _ _ c) =>
        let x := if s.payloadOff ≥ c.length then [] else skipPayload c s.payloadOff suggested
        ({ s with buf := x }, .ok x)
      | _ => (s, .ub)

/-! ### Locations -/

/-- The names of the current entries of the nodes above, from the root on, src/caencoder.c:3040-3072. -/
def upNames : List RNode → Option (List Bytes)
  | [] => some []
  | n :: us =>
    match n.rest, upNames us with
    | .cons _ name _ _, some l => some (l ++ [name])
    | _, _ => none

/-- Names with "/" between them, src/caencoder.c:3057-3071. -/
def joinNames : List Bytes → Bytes
  | [] => []
  | [a] => a
  | a :: b :: r => a ++ 47 :: joinNames (b :: r)

/-- src/caencoder.c:3028-3087 `ca_encoder_node_path`. -/
def nodePath (up : List RNode) : Res Bytes :=
  match upNames up with
  | some l => .ok (joinNames l)
  | none => .err .EINVAL

/-- src/caencoder.c:3507-3551, what is reported in each state: the nodes above the one reported, the designator and the name table. -/
def reported (s : REnc) : Res (List RNode × UInt8 × NameTable.Chain) :=
  let parent := match s.up with | [] => [] | p :: _ => p.table
  match s.state with
  | .entry => .ok (s.up, 101, parent)
  | .inPayload => .ok (s.up, 112, parent)
  | .filename => if s.below = [] then .err .EUNATCH else .ok (s.cur :: s.up, 110, s.cur.table)
  | .goodbye => .ok (s.up, 103, s.cur.table)
  | _ => .err .ENOTTY

/-- src/caencoder.c:3488-3580 `ca_encoder_current_location`. -/
def currentLocation (env : Env) (s : REnc) (add : Nat) : Res Location.Location := do
  let (up, designator, table) ← reported s
  let path ← nodePath up
  let l ← Location.new (some path) designator ((s.payloadOff + add) % 2 ^ 64) u64max
  .ok { l with
    mtime := (env.stamp path).1
    inode := (env.stamp path).2.1
    generation := (env.stamp path).2.2
    nameTable := table
    archiveOffset := (match s.archiveOff with | some a => (a + add) % 2 ^ 64 | none => u64max)
    featureFlags := env.featureFlags }

/-! ### Seeking -/

/-- `ca_encoder_open_child()` as a seek uses it, src/caencoder.c:3619: the child of the current entry, without any rules for it. -/
def openCurrent (s : REnc) : Res REnc :=
  if s.up.length + 1 ≥ 64 then .err .E2BIG
  else match s.cur.rest with
    | .cons _ _ o _ => .ok { s with below := [opened o []] }
    | .nil => .ub

/-- src/caencoder.c:3582-3620 `ca_encoder_node_seek_child`: a child that is open stays as it is if the current entry has the name. -/
def seekChild (s : REnc) (name : Bytes) : Res REnc :=
  match s.cur.obj with
  | .leaf _ => .err .ENOTDIR
  | .dir _ _ _ _ kids =>
    let s := { s with cur := { s.cur with table := [] } }
    let find : Res REnc := match kids.from name with
      | none => .err .ENOENT
      | some r => openCurrent { s with cur := { s.cur with rest := r } }
    match s.cur.rest with
    | .cons _ n _ _ => if n = name then (if s.below ≠ [] then .ok s else openCurrent s) else find
    | .nil => find

/-- `strcspn(path, "/")`: the components of a path, src/caencoder.c:3634-3657. -/
def components : Bytes → List Bytes
  | [] => [[]]
  | c :: cs => if c = 47 then [] :: components cs else match components cs with | [] => [[c]] | x :: xs => (c :: x) :: xs

/-- src/caencoder.c:3634-3660, the loop of `ca_encoder_seek_path`; the last child is not entered. -/
def seekNames (s : REnc) : List Bytes → Res REnc
  | [] => .ok s
  | n :: ns =>
    if n = [] then .err .EINVAL
    else match seekChild s n with
      | .err x => .err x
      | .ub => .ub
      | .ok s =>
        match ns with
        | [] => .ok s
        | m :: ms =>
          (match enterChild s with
          | none => .err .EINVAL
          | some s => seekNames s (m :: ms))

/-- src/caencoder.c:3622-3664 `ca_encoder_seek_path`. -/
def seekPath (s : REnc) (path : Bytes) : Res REnc := seekNames s (components path)

/-- src/caencoder.c:3666-3689 `ca_encoder_seek_path_and_enter`. -/
def seekPathAndEnter (s : REnc) (path : Bytes) : Res REnc :=
  if path = [] then .ok { s with cur := { s.cur with table := [] } }
  else match seekPath s path with
    | .ok s => (match enterChild s with | some s => .ok s | none => .err .EINVAL)
    | .err x => .err x
    | .ub => .ub

/-- src/caencoder.c:3691-3718 `ca_encoder_node_install_name_table`, for a node and the nodes above it. -/
def install : NameTable.Chain → List RNode → Res (List RNode)
  | _, [] => .ok []
  | t, [n] => if t.tail ≠ [] then .err .ESPIPE else .ok [{ n with table := t }]
  | t, n :: m :: r =>
    if t.tail = [] then .err .ESPIPE
    else match install t.tail (m :: r) with
      | .ok l => .ok ({ n with table := t } :: l)
      | .err x => .err x
      | .ub => .ub

/-- The name table of a location is for the nodes above the current one (src/caencoder.c:3763-3774, 3821-3831). -/
def installUp (s : REnc) (t : NameTable.Chain) : Res REnc :=
  if t = [] then .ok s
  else if s.up = [] then .err .ENXIO
  else match install t s.up with
    | .ok up => .ok { s with up := up }
    | .err x => .err x
    | .ub => .ub

/-- The name table of a location is for the current node and those above it (src/caencoder.c:3859-3863, 3892-3896). -/
def installCur (s : REnc) (t : NameTable.Chain) : Res REnc :=
  if t = [] then .ok s
  else match install t (s.cur :: s.up) with
    | .ok (c :: up) => .ok { s with cur := c, up := up }
    | .ok [] => .ub
    | .err x => .err x
    | .ub => .ub

/-- `e->node_idx = 0`, src/caencoder.c:3736. -/
def rewind (s : REnc) : REnc :=
  match s.up.reverse ++ s.cur :: s.below with
  | r :: rest => { s with up := [], cur := r, below := rest }
  | [] => s

/-- `UINT64_MAX` is "unknown". -/
def knownOff (n : Nat) : Option Nat := if n = u64max then none else some n

/-- The new state, and the offsets from the location, e.g. src/caencoder.c:3755-3757, with an empty buffer (3782). -/
def arrive (s : REnc) (st : EState) (l : Location.Location) : REnc :=
  { s with state := st, payloadOff := l.offset, archiveOff := knownOff l.archiveOffset, buf := [] }

/-- src/caencoder.c:3740-3797, designator `e`. -/
def seekEntry (s : REnc) (l : Location.Location) : Res (REnc × EEv) := do
  let s ← seekPathAndEnter s l.path
  let s := arrive { s with cur := { s.cur with rest := s.cur.obj.kids } } .entry l
  let s ← installUp s l.nameTable
  let s := { s with cur := { s.cur with table := [] } }
  let t ← initTable s l.offset
  .ok ({ s with cur := { s.cur with table := t } }, if l.offset > 0 then .data else .nextFile)

/-- src/caencoder.c:3799-3845, designator `p`. -/
def seekPayload (s : REnc) (l : Location.Location) : Res (REnc × EEv) := do
  let s ← seekPathAndEnter s l.path
  match s.cur.obj with
  | .leaf (.file _ _ _ c) =>
    if l.offset ≥ c.length then .err .ENXIO
    else do
      let s := arrive s .inPayload l
      let s := if s.archiveOff = none ∧ s.up = [] then { s with archiveOff := some l.offset } else s
      let s ← installUp s l.nameTable
      .ok (s, .payload)
  | _ => .err .EISDIR

/-- src/caencoder.c:3847-3872, designator `n`.  A location without a path violates an assertion (3627). -/
def seekFilename (s : REnc) (l : Location.Location) : Res (REnc × EEv) :=
  if l.path = [] then .ub
  else do
    let s ← seekPath s l.path
    if s.cur.obj.isDir = false then .err .ENOTDIR
    else do
      let s ← installCur (arrive s .filename l) l.nameTable
      .ok (s, .data)

/-- src/caencoder.c:3874-3905, designator `g`. -/
def seekGoodbye (s : REnc) (l : Location.Location) : Res (REnc × EEv) := do
  let s ← seekPathAndEnter s l.path
  if s.cur.obj.isDir = false then .err .ENOTDIR
  else do
    let s ← installCur (arrive { s with cur := { s.cur with rest := .nil } } .goodbye l) l.nameTable
    .ok (s, .data)

/-- src/caencoder.c:3720-3908 `ca_encoder_seek_location`.  In which state a failing call leaves the encoder is left out. -/
def seekLocation (s : REnc) (l : Location.Location) : Res (REnc × EEv) :=
  if l.size = 0 then .err .EINVAL
  else if !Location.designatorValid l.designator then .err .EINVAL
  else if l.designator = 101 then seekEntry (rewind s) l
  else if l.designator = 112 then seekPayload (rewind s) l
  else if l.designator = 110 then seekFilename (rewind s) l
  else if l.designator = 103 then seekGoodbye (rewind s) l
  else .err .EINVAL

end Casync.Resume
