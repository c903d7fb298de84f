import Verif.Model.Format
/-!
The decoder of `src/cadecoder.c` as a state machine, without random access (the `SEEKING` states; see the model of the seek) and without the
writes to the file system (`ca_decoder_realize_child()`, `ca_decoder_finalize_child()`, `loop_write()`; see the model of the extraction), whose
failures are therefore not modelled here.  Digests and origins are left out.  `uint64_t` offsets into the archive are `Nat`: an archive of
2^64 bytes is out of reach.
-/
namespace Casync.Archive
open Casync Flags

/-- src/cadecoder.c:126-158 `CaDecoderState`, the states outside of seeks. -/
inductive DState
  | init | entered | entry | inPayload | inDirectory | goodbye | finalize | eof | skipping
  deriving DecidableEq, Repr

/-- src/cadecoder.c:68-124 `CaDecoderNode`: the name (not set for the root), where the ENTRY record starts, what was parsed (`entry` and all that
hangs on it), and the names listed so far. -/
structure DNode where
  name : Option Bytes := none
  entryOff : Nat := 0
  parsed : Option Parsed := none
  dirents : List Bytes := []
  deriving DecidableEq, Repr

/-- Settings of a decoder: is the root a regular file or block device (`ca_decoder_set_base_fd()`, `ca_decoder_set_base_mode()`); is the payload
of files needed, i.e. `d->payload || d->want_payload_digest || n->fd >= 0`; `d->delete`; `d->boundary_node_idx`, the node the decoder does not
leave upwards, which only seeks change. -/
structure DCfg where
  naked : Bool := false
  wantPayload : Bool := true
  delete : Bool := false
  boundary : Nat := 0
  deriving DecidableEq, Repr

/-- src/cadecoder.c:161-236 `struct CaDecoder`; `nodes` is `nodes[0..node_idx]` reversed, the current node first. -/
structure Dec where
  cfg : DCfg := {}
  state : DState := .init
  nodes : List DNode := [{}]
  ff : FF := {}
  buf : Bytes := []
  eof : Bool := false
  archiveOff : Nat := 0
  payloadOff : Nat := 0
  stepSize : Nat := 0
  skip : Nat := 0
  deriving DecidableEq, Repr

/-- src/cadecoder.h:12-46: results of `ca_decoder_step()`. -/
inductive Ev
  | finished | step | nextFile | doneFile | payload | request | skip
  deriving DecidableEq, Repr

/-- src/def.h:6 `NODES_MAX`. -/
abbrev nodesMax : Nat := 64

/-- src/cadecoder.c:660-666 `ca_decoder_enter_state`. -/
def enterState (d : Dec) (s : DState) : Dec := { d with state := s, payloadOff := 0, stepSize := 0 }

/-- `d->step_size = k;` -/
def setStep (d : Dec) (k : Nat) : Dec := { d with stepSize := k }

/-- `d->skip_bytes = k;` -/
def setSkip (d : Dec) (k : Nat) : Dec := { d with skip := k }

/-- src/cadecoder.c:255-263 `CA_DECODER_IS_NAKED` for the nodes the machine can have. -/
def isNaked (d : Dec) : Bool := d.cfg.naked && d.nodes.length == 1 && (match d.nodes with | n :: _ => n.parsed.isNone | [] => false)

/-- `ca_decoder_node_mode(n)` for a node with an ENTRY (`none` is `(mode_t) -1`); a naked root counts as a regular file. -/
def nodeMode (d : Dec) (n : DNode) : Option Word :=
  match n.parsed with
  | some p => some p.entry.mode
  | none => if isNaked d then some ifReg else none

/-- `n->size`: `none` is `UINT64_MAX`. -/
def nodeSize (n : DNode) : Option Nat :=
  match n.parsed with
  | some p => (match p.term with | .payload s => some s | _ => none)
  | none => none

/-- The negation of `assert(d->payload_offset <= n->size)`, src/cadecoder.c:4126. -/
def pastEnd (n : DNode) (off : Nat) : Bool :=
  match nodeSize n with
  | some s => decide (s < off)
  | none => false

/-- src/cadecoder.c:4220-4248, case `CA_DECODER_FINALIZE`; `ca_decoder_leave_child()` is 668-677. -/
def stepFinalize (d : Dec) : Dec × Res Ev :=
  match d.nodes with
  | [] => (d, .err .EUNATCH)
  | _ :: rest =>
    if rest.length ≤ d.cfg.boundary then (enterState d .eof, .ok .finished)
    else (enterState { d with nodes := rest } .inDirectory, .ok .step)

/-- src/cadecoder.c:4118-4186, case `CA_DECODER_IN_PAYLOAD`. -/
def stepPayload (d : Dec) : Dec × Res Ev :=
  match d.nodes with
  | [] => (d, .err .EUNATCH)
  | n :: rest =>
    match nodeMode d n with
    | none => (d, .err .EUNATCH)
    | some m =>
      if !(isType m ifReg || isType m ifBlk) then (d, .ub)
      else if pastEnd n d.payloadOff then (d, .ub)
      else if nodeSize n = some d.payloadOff then (enterState d .finalize, .ok .doneFile)
      else if d.buf ≠ [] then
        match nodeSize n with
        | none => (setStep d d.buf.length, .ok .payload)
        | some s => (setStep d (min d.buf.length (s - d.payloadOff)), .ok .payload)
      else if d.eof then
        if (nodeSize n).isSome then (d, .err .EPIPE)
        else if rest ≠ [] then (d, .err .EPIPE)
        else if isNaked d then stepFinalize (enterState d .finalize)
        else (enterState d .finalize, .ok .doneFile)
      else match nodeSize n with
        | some s =>
          if !d.cfg.wantPayload then (enterState (setSkip d (s - d.payloadOff)) .skipping, .ok .skip) else (d, .ok .request)
        | none => (d, .ok .request)

/-- src/cadecoder.c:4196-4208, case `CA_DECODER_IN_DIRECTORY`, and 2455-2679 `ca_decoder_parse_filename()` in this state: `ca_decoder_init_child()`
is 612-640. -/
def stepDirectory (d : Dec) : Dec × Res Ev :=
  match d.nodes with
  | [] => (d, .err .EUNATCH)
  | n :: rest =>
    match nodeMode d n with
    | none => (d, .err .EUNATCH)
    | some m =>
      if !isType m ifDir then (d, .ub)
      else match parseDirRec d.buf with
        | .request => (d, .ok .request)
        | .err e => (d, .err e)
        | .ok (.filename name, l) =>
          let n := if d.cfg.delete then { n with dirents := n.dirents ++ [name] } else n
          if d.nodes.length ≥ nodesMax then (d, .err .EFBIG)
          else
            let child : DNode := { name := some name, entryOff := d.archiveOff + l }
            (setStep (enterState { d with nodes := child :: n :: rest } .entered) l, .ok .step)
        | .ok (.goodbye _ eo, l) =>
          if eo ≠ d.archiveOff - n.entryOff then (d, .err .EBADMSG)
          else (setStep (enterState d .goodbye) l, .ok .step)

/-- src/cadecoder.c:4073-4087, cases `CA_DECODER_INIT` (not naked) and `CA_DECODER_ENTERED`, and `ca_decoder_parse_entry()`. -/
def stepParse (d : Dec) : Dec × Res Ev :=
  match d.nodes with
  | [] => (d, .err .EUNATCH)
  | n :: rest =>
    match parseEntry d.ff (rest == []) d.buf with
    | (ff, .request) => ({ d with ff := ff, nodes := { n with parsed := none } :: rest }, .ok .request)
    | (ff, .err e) => ({ d with ff := ff, nodes := { n with parsed := none } :: rest }, .err e)
    | (ff, .ok (p, off)) =>
      (setStep (enterState { d with ff := ff, nodes := { n with parsed := some p } :: rest } .entry) off, .ok .nextFile)

/-- src/cadecoder.c:4056-4376 `ca_decoder_step_node`. -/
def stepNode (d : Dec) : Dec × Res Ev :=
  match d.state with
  | .init => if isNaked d then stepPayload (enterState d .inPayload) else stepParse d
  | .entered => stepParse d
  | .entry =>
    match d.nodes with
    | [] => (d, .err .EUNATCH)
    | n :: _ =>
      match nodeMode d n with
      | none => (d, .err .EUNATCH)
      | some m =>
        if isType m ifReg then stepPayload (enterState d .inPayload)
        else if isType m ifDir then stepDirectory (enterState d .inDirectory)
        else (enterState d .finalize, .ok .doneFile)
  | .inPayload => stepPayload d
  | .skipping => (enterState { d with archiveOff := d.archiveOff + d.skip, skip := 0 } .finalize, .ok .doneFile)
  | .inDirectory => stepDirectory d
  | .goodbye => (enterState d .finalize, .ok .doneFile)
  | .finalize => stepFinalize d
  | .eof => (d, .ok .finished)

/-- src/cadecoder.c:4378-4437 `ca_decoder_advance_buffer`: consume the data of the previous step. -/
def advance (d : Dec) : Dec :=
  { d with
    payloadOff := if d.state = .inPayload then d.payloadOff + d.stepSize else d.payloadOff
    buf := d.buf.drop d.stepSize
    archiveOff := d.archiveOff + d.stepSize
    stepSize := 0 }

/-- src/cadecoder.c:4439-4458 `ca_decoder_step`. -/
def step (d : Dec) : Dec × Res Ev :=
  if d.state = .eof then (d, .ok .finished)
  else if d.buf.length < d.stepSize then (d, .ub)
  else stepNode (advance d)

/-- src/cadecoder.c:4473-4510 `ca_decoder_put_data`. -/
def putData (d : Dec) (p : Bytes) : Res Dec :=
  if p = [] then .ok d
  else if d.eof then .err .EBUSY
  else .ok { d with buf := d.buf ++ p }

/-- src/cadecoder.c:4512-4518 `ca_decoder_put_eof`. -/
def putEof (d : Dec) : Dec := { d with eof := true }

/-- src/cadecoder.c:4522-4555 `ca_decoder_get_payload`. -/
def getPayload (d : Dec) : Bytes := d.buf.take d.stepSize

/-- src/cadecoder.c:4557-4600 `ca_decoder_current_path`, as the list of components. -/
def currentPath (d : Dec) : List Bytes := d.nodes.reverse.filterMap (·.name)

end Casync.Archive
