import Verif.Model.Decoder
import Verif.Model.Encoder
/-!
Random access of `src/cadecoder.c`: `ca_decoder_seek_path()`, `ca_decoder_seek_path_offset()`, `ca_decoder_seek_next_sibling()` and the states
a decoder goes through afterwards, on top of the decoder of `Model/Decoder.lean`, which does all steps outside of seeks.

Not modelled: `ca_decoder_seek_offset()` (blobs), digests and origins, `dirents_invalid` (the delete pass after a seek).  Offsets are `Nat`; a
value of `UINT64_MAX`, which stands for "not known", is `none`.  A path is a C string without its NUL.
-/
namespace Casync.Archive
open Casync Flags

/-- src/cadecoder.c:1429-1460 `path_get_component`: the first component (`none` if there is none) and what follows.  47 is "/". -/
def getComponent (p : Bytes) : Option Bytes × Bytes :=
  let q := p.dropWhile (· == 47)
  let c := q.takeWhile (· != 47)
  if c = [] then (none, q) else (some c, (q.drop c.length).dropWhile (· == 47))

/-- src/cadecoder.c:1462-1466. -/
inductive PathMatch
  | no | final | more
  deriving DecidableEq, Repr

/-- src/cadecoder.c:1468-1501 `path_match_component`. -/
def matchComponent (p name : Bytes) : PathMatch :=
  let p := p.dropWhile (· == 47)
  if !name.isPrefixOf p then .no
  else match p.drop name.length with
    | [] => .final
    | c :: r => if c ≠ 47 then .no else if r.dropWhile (· == 47) = [] then .final else .more

/-- The fields of `CaDecoderNode` (src/cadecoder.c:68-124) that matter for seeks: `mode` (the base mode of the root), `goodbye` (its rows),
`goodbye_offset`, `end_offset`, `payload_offset`. -/
structure NX where
  mode : Option Word := none
  goodbye : Option (List Goodbye.Item) := none
  goodbyeOff : Option Nat := none
  endOff : Option Nat := none
  payloadOff : Option Nat := none
  deriving DecidableEq, Repr

/-- src/cadecoder.c:143-157: what a seek goes to. -/
inductive Target
  | filename | nextSibling | payload | entry | goodbye | goodbyeTail
  deriving DecidableEq, Repr

/-- src/cadecoder.c:130-158: the states of a seek: `PREPARING_SEEK_TO_…`, `SEEKING_TO_…`, `ENTERED_FOR_SEEK`, `NOWHERE`. -/
inductive SMode
  | prep (t : Target)
  | seeking (t : Target)
  | entered
  | nowhere
  deriving DecidableEq, Repr

/-- src/cadecoder.c:161-236 `struct CaDecoder` with the seek (`seek_subpath`, `seek_idx`, `seek_offset`, `seek_end_offset`,
`seek_next_sibling`, `seek_payload`).  `mode = none` is a state outside of seeks, namely `core.state`; otherwise `core.state` plays no role.
`exts` belongs to `core.nodes`; `below` are `nodes[node_idx+1..n_nodes-1]`. -/
structure SDec where
  core : Dec := {}
  mode : Option SMode := none
  exts : List NX := [{}]
  below : List (DNode × NX) := []
  path : Option Bytes := none
  idx : Nat := 0
  off : Option Nat := none
  endOff : Option Nat := none
  sibling : Bool := false
  pay : Option Nat := none
  deriving DecidableEq, Repr

/-- src/cadecoder.h:12-46: results of `ca_decoder_step()`, with the three of the seeks. -/
inductive SEv
  | plain (ev : Ev) | seek | found | notFound
  deriving DecidableEq, Repr

/-- src/cadecoder.c:660-666 `ca_decoder_enter_state` for a state of a seek. -/
def setMode (d : SDec) (m : SMode) : SDec := { d with mode := some m, core := enterState d.core .entered }

/-- src/cadecoder.c:660-666 `ca_decoder_enter_state` for another state. -/
def setPlain (d : SDec) (s : DState) : SDec := { d with mode := none, core := enterState d.core s }

/-- `d->boundary_node_idx = k;` -/
def setBoundary (d : SDec) (k : Nat) : SDec := { d with core := { d.core with cfg := { d.core.cfg with boundary := k } } }

/-- src/cadecoder.c:2443-2453 `ca_decoder_reset_seek`. -/
def resetSeek (d : SDec) : SDec := { d with path := none, idx := 0, off := none, endOff := none, sibling := false, pay := none }

/-- src/cadecoder.c:4045-4054 `ca_decoder_apply_seek_offset`; `o` is `d->seek_offset`. -/
def applySeek (d : SDec) (o : Nat) : SDec := { d with core := { d.core with archiveOff := o, stepSize := 0, eof := false, buf := [] } }

/-- `ca_decoder_node_mode(n)`. -/
def sMode (n : DNode) (x : NX) : Option Word :=
  match n.parsed with
  | some p => some p.entry.mode
  | none => x.mode

/-- The mode of the current node. -/
def curMode (d : SDec) : Option Word :=
  match d.core.nodes, d.exts with
  | n :: _, x :: _ => sMode n x
  | _, _ => none

/-- `n->size < k`, an unknown size being `UINT64_MAX`. -/
def smaller (n : DNode) (k : Nat) : Bool :=
  match nodeSize n with
  | some s => decide (s < k)
  | none => false

/-- src/cadecoder.c:1533-1590, the part of `ca_decoder_do_seek` at the node the path leads to.  The result is `r > 0`. -/
def seekHere (d : SDec) (n : DNode) (up : List DNode) (x : NX) (xs : List NX) : SDec × Res Bool :=
  if d.sibling then
    match x.endOff with
    | none => (d, .err .EUNATCH)
    | some e =>
      if up.length ≤ d.core.cfg.boundary then (setMode d .nowhere, .ok false)
      else
        (setMode { d with core := { d.core with nodes := up }, exts := xs, below := (n, x) :: d.below, off := some e, endOff := none }
          (.prep .nextSibling), .ok true)
  else
    match d.pay with
    | some k =>
      match x.payloadOff, sMode n x with
      | some po, some m =>
        if !isType m ifReg then (setMode d .nowhere, .ok false)
        else if smaller n k then (setMode d .nowhere, .ok false)
        else (setMode { d with off := some (po + k), endOff := x.endOff } (.prep .payload), .ok true)
      | _, _ => (d, .err .EUNATCH)
    | none => (setMode { d with off := some n.entryOff, endOff := x.endOff } (.prep .entry), .ok true)

/-- src/cadecoder.c:1604-1674, the part of `ca_decoder_do_seek` at a directory on the way; `c` is the next component. -/
def seekDown (d : SDec) (n : DNode) (x : NX) (c : Bytes) : SDec × Res Bool :=
  match x.goodbye with
  | some table =>
    match x.goodbyeOff with
    | none => (d, .err .EUNATCH)
    | some g =>
      match Goodbye.locate table g n.entryOff (nameHash c) d.idx with
      | .ok none => (setMode d .nowhere, .ok false)
      | .ok (some (a, b)) => (setMode { d with off := some a, endOff := some b } (.prep .filename), .ok true)
      | .err e => (d, .err e)
      | .ub => (d, .ub)
  | none =>
    match x.goodbyeOff with
    | some g => (setMode { d with off := some g, endOff := none } (.prep .goodbye), .ok true)
    | none =>
      match x.endOff with
      | none => (d, .err .ESPIPE)
      | some e =>
        if e < 24 then (d, .err .EBADMSG)
        else (setMode { d with off := some (e - 24), endOff := some e } (.prep .goodbyeTail), .ok true)

/-- src/cadecoder.c:1503-1675 `ca_decoder_do_seek` at the current node. -/
def doSeek (d : SDec) : SDec × Res Bool :=
  match d.path, d.core.nodes, d.exts with
  | some p, n :: up, x :: xs =>
    match (getComponent p).1 with
    | none => seekHere d n up x xs
    | some c =>
      match sMode n x with
      | none => (d, .err .EUNATCH)
      | some m => if !isType m ifDir then (setMode d .nowhere, .ok false) else seekDown d n x c
  | _, _, _ => (d, .err .EUNATCH)

/-- src/cadecoder.c:2405-2414, 2540-2549, 2661-2668, 2724-2731: what the parsing functions return after `ca_decoder_do_seek()`. -/
def afterSeek (p : SDec × Res Bool) : SDec × Res SEv :=
  match p with
  | (d, .ok true) => (d, .ok (.plain .step))
  | (d, .ok false) => (d, .ok .notFound)
  | (d, .err e) => (d, .err e)
  | (d, .ub) => (d, .ub)

/-- The rows of a directory table. -/
def readRows (table : Bytes) : List Goodbye.Item :=
  (List.range (table.length / 24)).map fun i =>
    { offset := word 0 (table.drop (24 * i)), size := word 1 (table.drop (24 * i)), hash := word 2 (table.drop (24 * i)) }

/-- A record that is not allowed in this state, src/cadecoder.c:2490-2494, 2628-2629. -/
def wrongRecord (t : Target) (buf : Bytes) : Bool :=
  decide (16 ≤ buf.length) &&
  match rtype (word 1 buf) with
  | some .filename => t == .goodbye
  | some .goodbye => t == .filename
  | _ => false

/-- src/cadecoder.c:2591-2612 in `ca_decoder_parse_filename`: enter a child of which the FILENAME record of size `l` has been read. -/
def enterChild (d : SDec) (name : Bytes) (l : Nat) (endOff : Option Nat) : Res SDec :=
  if d.core.nodes.length ≥ nodesMax then .err .EFBIG
  else .ok { d with
    core := { d.core with nodes := { name := some name, entryOff := d.core.archiveOff + l } :: d.core.nodes }
    exts := { endOff := endOff } :: d.exts
    below := [] }

/-- `d->step_size = l;` -/
def sSetStep (d : SDec) (l : Nat) : SDec := { d with core := setStep d.core l }

/-- src/cadecoder.c:2529-2615, `ca_decoder_parse_filename` with a FILENAME record in the state `SEEKING_TO_FILENAME`. -/
def seekName (d : SDec) (name : Bytes) (l : Nat) : SDec × Res SEv :=
  match d.path with
  | none => (d, .ub)
  | some p =>
    match matchComponent p name with
    | .no => afterSeek (doSeek { d with idx := d.idx + 1 })
    | m =>
      if m = .more ∨ d.sibling = true ∨ d.pay.isSome = true then
        let d' := { d with idx := 0, path := some (getComponent p).2 }
        match enterChild d' name l d.endOff with
        | .ok d'' => (sSetStep (setMode d'' .entered) l, .ok (.plain .step))
        | .err e => (d', .err e)
        | .ub => (d', .ub)
      else
        let d' := setBoundary (resetSeek { d with idx := 0 }) d.core.nodes.length
        match enterChild d' name l d.endOff with
        | .ok d'' => (sSetStep (setPlain d'' .entered) l, .ok .found)
        | .err e => (d', .err e)
        | .ub => (d', .ub)

/-- Change the fields of the current node. -/
def setExt (d : SDec) (f : NX → NX) : SDec :=
  match d.exts with
  | x :: xs => { d with exts := f x :: xs }
  | [] => d

/-- src/cadecoder.c:2455-2679 `ca_decoder_parse_filename` in a state of a seek. -/
def seekDirRec (d : SDec) (t : Target) : SDec × Res SEv :=
  match d.core.nodes with
  | [] => (d, .err .EUNATCH)
  | n :: _ =>
    if wrongRecord t d.core.buf then (d, .err .EBADMSG)
    else match parseDirRec d.core.buf with
      | .request => (d, .ok (.plain .request))
      | .err e => (d, .err e)
      | .ok (.filename name, l) =>
        if t = .filename then seekName d name l
        else
          let d' := resetSeek d
          match enterChild d' name l none with
          | .ok d'' => (sSetStep (setPlain d'' .entered) l, .ok .found)
          | .err e => (d', .err e)
          | .ub => (d', .ub)
      | .ok (.goodbye table eo, l) =>
        if eo ≠ d.core.archiveOff - n.entryOff then (d, .err .EBADMSG)
        else
          let d' := setExt d fun x => { x with goodbye := some (readRows table) }
          if t = .goodbye then afterSeek (doSeek d')
          else (sSetStep (setPlain d' .goodbye) l, .ok (.plain .step))

/-- src/cadecoder.c:2681-2732 `ca_decoder_parse_goodbye_tail`. -/
def seekTail (d : SDec) : SDec × Res SEv :=
  let b := d.core.buf
  let o := d.core.archiveOff
  if b.length < 24 then (d, .ok (.plain .request))
  else if word 2 b ≠ tailMarker then (d, .err .EBADMSG)
  else if word 1 b < 40 then (d, .err .EBADMSG)
  else if (word 1 b - 40) % 24 ≠ 0 then (d, .err .EBADMSG)
  else if word 1 b > o + 24 then (d, .err .EBADMSG)
  else if word 0 b < 64 then (d, .err .EBADMSG)
  else if word 0 b > o + 24 - word 1 b then (d, .err .EBADMSG)
  else if d.core.nodes.length = 1 ∧ o + 24 ≠ word 1 b + word 0 b then (d, .err .EBADMSG)
  else afterSeek (doSeek (setExt d fun x => { x with goodbyeOff := some (o + 24 - word 1 b) }))

/-- What `ca_decoder_parse_entry()` does to the fields kept here: the base mode is forgotten (`ca_decoder_node_flush_entry()`,
src/cadecoder.c:340-374), and `payload_offset` is set (2402-2403); `e` is where the records end. -/
def parsedExt (p : Option Parsed) (e : Nat) (x : NX) : NX :=
  { x with mode := none, payloadOff := match p with | some p => if isType p.entry.mode ifReg then some e else x.payloadOff | none => x.payloadOff }

/-- src/cadecoder.c:1692-2414 `ca_decoder_parse_entry` in the state `ENTERED_FOR_SEEK`. -/
def seekEntry (d : SDec) : SDec × Res SEv :=
  match d.core.nodes with
  | [] => (d, .err .EUNATCH)
  | n :: rest =>
    match parseEntry d.core.ff (rest == []) d.core.buf with
    | (ff, .request) =>
      (setExt { d with core := { d.core with ff := ff, nodes := { n with parsed := none } :: rest } } (parsedExt none 0), .ok (.plain .request))
    | (ff, .err e) =>
      (setExt { d with core := { d.core with ff := ff, nodes := { n with parsed := none } :: rest } } (parsedExt none 0), .err e)
    | (ff, .ok (p, off)) =>
      afterSeek (doSeek (setExt { d with core := { d.core with ff := ff, nodes := { n with parsed := some p } :: rest } }
        (parsedExt (some p) (d.core.archiveOff + off))))

/-- The nodes after a step outside of seeks: `ca_decoder_init_child()` (src/cadecoder.c:612-640) forgets what was below, `ca_decoder_leave_child()`
(668-677) keeps it. -/
def moved (d : SDec) (c : Dec) : SDec :=
  if d.core.nodes.length < c.nodes.length then { d with exts := {} :: d.exts, below := [] }
  else if c.nodes.length < d.core.nodes.length then
    match d.core.nodes, d.exts with
    | n :: _, x :: xs => { d with exts := xs, below := (n, x) :: d.below }
    | _, _ => d
  else d

/-- Is the step one of `ca_decoder_parse_entry()`? -/
def parses (c : Dec) : Bool := c.state == .entered || (c.state == .init && !isNaked c)

/-- What was parsed last at the current node. -/
def curParsed (c : Dec) : Option Parsed :=
  match c.nodes with
  | n :: _ => n.parsed
  | [] => none

/-- The rows of the GOODBYE record in the buffer. -/
def bufRows (c : Dec) : Option (List Goodbye.Item) :=
  match parseDirRec c.buf with
  | .ok (.goodbye table _, _) => some (readRows table)
  | _ => none

/-- What a step outside of seeks that leads from `d.core` to `c` does to the other fields: 2652-2653 (`n->goodbye`, also when the state is
`IN_DIRECTORY`) and `parsedExt`. -/
def noted' (d : SDec) (c : Dec) : SDec :=
  let d' := moved d c
  let d' := if parses d.core then setExt d' (parsedExt (curParsed c) (c.archiveOff + c.stepSize)) else d'
  let d' := if c.state = .goodbye then setExt d' (fun x => { x with goodbye := bufRows c }) else d'
  { d' with core := c }

/-- An event of the decoder outside of seeks. -/
def plainEv : Res Ev → Res SEv
  | .ok ev => .ok (.plain ev)
  | .err e => .err e
  | .ub => .ub

/-- src/cadecoder.c:4056-4376 `ca_decoder_step_node` in the states of a seek. -/
def stepSeek (d : SDec) : SMode → SDec × Res SEv
  | .prep .entry =>
    match d.off with
    | some o => (applySeek (setMode d (.seeking .entry)) o, .ok .seek)
    | none => (d, .ub)
  | .prep t =>
    match curMode d, d.off with
    | some m, some o =>
      if !isType m (if t = .payload then ifReg else ifDir) then (d, .ub)
      else (applySeek (setMode d (.seeking t)) o, .ok .seek)
    | none, _ => (d, .err .EUNATCH)
    | _, none => (d, .ub)
  | .seeking .entry =>
    (setPlain (setBoundary (resetSeek d) (d.core.nodes.length - 1)) .entered, .ok .found)
  | .seeking .payload =>
    match d.pay with
    | some k =>
      let d' := setPlain (resetSeek d) .inPayload
      let c := { d'.core with payloadOff := k }
      let r := stepNode c
      (noted' d' r.1, plainEv r.2)
    | none => (d, .ub)
  | .seeking .goodbyeTail =>
    match curMode d with
    | some m => if !isType m ifDir then (d, .ub) else seekTail d
    | none => (d, .err .EUNATCH)
  | .seeking t =>
    match curMode d with
    | some m => if !isType m ifDir then (d, .ub) else seekDirRec d t
    | none => (d, .err .EUNATCH)
  | .entered => seekEntry d
  | .nowhere => (d, .ok .notFound)

/-- src/cadecoder.c:4196-4208, case `CA_DECODER_IN_DIRECTORY`, and 2455-2679 `ca_decoder_parse_filename()` in this state, when the mode has been
checked: the rest of `stepDirectory` of `Model/Decoder.lean`. -/
def dirBody (d : Dec) : Dec × Res Ev :=
  match d.nodes with
  | [] => (d, .err .EUNATCH)
  | n :: rest =>
    match parseDirRec d.buf with
    | .request => (d, .ok .request)
    | .err e => (d, .err e)
    | .ok (.filename name, l) =>
      let n := if d.cfg.delete then { n with dirents := n.dirents ++ [name] } else n
      if d.nodes.length ≥ nodesMax then (d, .err .EFBIG)
      else
        let child : DNode := { name := some name, entryOff := d.archiveOff + l }
        (setStep (enterState { d with nodes := child :: n :: rest } .entered) l, .ok .step)
    | .ok (.goodbye _ eo, l) =>
      if eo ≠ d.archiveOff - n.entryOff then (d, .err .EBADMSG)
      else (setStep (enterState d .goodbye) l, .ok .step)

/-- Is this the state `CA_DECODER_IN_DIRECTORY` with a root of which only the base mode is known (src/cadecoder.c:4061)?  That can be so after a
seek. -/
def baseDir (d : SDec) : Bool :=
  d.core.state == .inDirectory && (curParsed d.core).isNone && (match d.exts with | x :: _ => x.mode.any (fun m => isType m ifDir) | [] => false)

/-- A step outside of seeks: `ca_decoder_step`, src/cadecoder.c:4439-4458. -/
def plainStep (d : SDec) : Dec × Res Ev :=
  if baseDir d then (if d.core.buf.length < d.core.stepSize then (d.core, .ub) else dirBody (advance d.core)) else step d.core

/-- src/cadecoder.c:4439-4458 `ca_decoder_step`. -/
def sStep (d : SDec) : SDec × Res SEv :=
  match d.mode with
  | none =>
    let r := plainStep d
    (noted' d r.1, plainEv r.2)
  | some m =>
    if d.core.buf.length < d.core.stepSize then (d, .ub)
    else stepSeek { d with core := advance d.core } m

/-- The loop of `ca_decoder_seek_path_internal`, src/cadecoder.c:5096-5132: how many of the open nodes below the root lie on the path and can be
used again, and the rest of the path. -/
def reuse : List (DNode × NX) → Bytes → Nat × Bytes
  | [], p => (0, p)
  | (n, x) :: r, p =>
    match getComponent p with
    | (none, _) => (0, p)
    | (some c, q) =>
      if n.name = some c ∧ x.endOff.isSome = true then
        let k := reuse r q
        (k.1 + 1, k.2)
      else (0, p)

/-- All open nodes, the root first. -/
def openNodes (d : SDec) : List (DNode × NX) := (d.core.nodes.zip d.exts).reverse ++ d.below

/-- src/cadecoder.c:5067-5150 `ca_decoder_seek_path_internal`. -/
def seekInternal (d : SDec) (path : Bytes) (sibling : Bool) (pay : Option Nat) : SDec × Res Bool :=
  match openNodes d with
  | [] => (d, .err .EUNATCH)
  | (n, x) :: r =>
    if x.endOff = none then (d, .err .ESPIPE)
    else match sMode n x with
      | none => (d, .err .ENODATA)
      | some m =>
        if !isType m ifDir then (d, .err .ESPIPE)
        else
          let k := reuse r (path.dropWhile (· == 47))
          let keep := (((n, x) :: r).take (k.1 + 1)).reverse
          doSeek { resetSeek d with
            path := some k.2, sibling := sibling, pay := pay
            core := { d.core with nodes := keep.map Prod.fst }, exts := keep.map Prod.snd, below := [] }

/-- src/cadecoder.c:5152-5154 `ca_decoder_seek_path`. -/
def seekPath (d : SDec) (path : Bytes) : SDec × Res Bool := seekInternal d path false none

/-- src/cadecoder.c:5156-5162 `ca_decoder_seek_path_offset`. -/
def seekPathOffset (d : SDec) (path : Bytes) (offset : Nat) : SDec × Res Bool := seekInternal d path false (some offset)

/-- src/cadecoder.c:4557-4600 `ca_decoder_current_path`: the components joined. -/
def pathString : List Bytes → Bytes
  | [] => []
  | [a] => a
  | a :: b :: r => a ++ 47 :: pathString (b :: r)

/-- src/cadecoder.c:5164-5176 `ca_decoder_seek_next_sibling`. -/
def seekNextSibling (d : SDec) : SDec × Res Bool := seekInternal d (pathString (currentPath d.core)) true none

/-- Change the fields of the root. -/
def setRoot (f : NX → NX) : List NX → List NX
  | [] => []
  | [x] => [f x]
  | x :: y :: r => x :: setRoot f (y :: r)

/-- src/cadecoder.c:5224-5234 `ca_decoder_set_archive_size`. -/
def setArchiveSize (d : SDec) (size : Nat) : SDec := { d with exts := setRoot (fun x => { x with endOff := some size }) d.exts }

end Casync.Archive
