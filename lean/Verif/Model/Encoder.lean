import Verif.Model.Format
import Verif.Model.Goodbye
import Verif.Model.SipHash
/-!
The encoder of `src/caencoder.c`: the bytes of each record, and the state machine that walks over a tree.

The file system is a tree of objects that does not change while it is read (`Tree`).  What the encoder has found out about an object (the fields
of the ENTRY record after `ca_encoder_fixup_mode()` etc., and the optional metadata) is an `Entry` and an `Attrs`; how they come from `stat()`
and friends is modelled in `Model/EncoderMeta.lean`.  Failing system calls and allocation failures are not modelled, digests and the block
device as the root are left out.
-/
namespace Casync.Archive
open Casync Flags

/-! ### Records -/

/-- src/caencoder.c:2666-2675, the ENTRY record. -/
def entryBytes (e : Entry) : Bytes :=
  record .entry (le64 e.ff.toNat ++ le64 e.mode.toNat ++ le64 e.flags.toNat ++ le64 e.uid ++ le64 e.gid ++ le64 e.mtime)

/-- A record with a NUL terminated string: USER 2681-2689, GROUP 2691-2699, SELINUX 2748-2756, SYMLINK 2786-2793; FILENAME 2368-2392. -/
def strRecord (r : RType) (s : Bytes) : Bytes := record r (s ++ [0])

/-- src/caencoder.c:2701-2714, an XATTR record. -/
def xattrBytes (x : Bytes × Bytes) : Bytes := record .xattr (x.1 ++ 0 :: x.2)

/-- src/caencoder.c:2451-2478 `ca_encoder_format_acl_user_append`, 2480-2507 `ca_encoder_format_acl_group_append`, for one entry; the id that is
left out without ids in the archive is zero in `AclEnt`. -/
def aclBytes (r : RType) (a : AclEnt) : Bytes :=
  record r (le64 a.id ++ le64 a.perm ++ (match a.name with | some n => n ++ [0] | none => []))

/-- A record that is written only if there is something to write. -/
def optBytes {α : Type} (f : α → Bytes) : Option α → Bytes
  | some x => f x
  | none => []

/-- The fields of ACL_DEFAULT, src/caencoder.c:2733-2744. -/
def aclDefBody (d : AclDef) : Bytes := le64 d.user ++ (le64 d.group ++ (le64 d.other ++ le64 d.mask))

/-- src/caencoder.c:2679-2778, the records between ENTRY and the content, in this order. -/
def attrsBytes (a : Attrs) : Bytes :=
  optBytes (strRecord .user) a.user ++
  optBytes (strRecord .group) a.group ++
  a.xattrs.flatMap xattrBytes ++
  a.aclUser.flatMap (aclBytes .aclUser) ++
  a.aclGroup.flatMap (aclBytes .aclGroup) ++
  optBytes (fun p => record .aclGroupObj (le64 p)) a.groupObj ++
  optBytes (fun d => record .aclDefault (aclDefBody d)) a.aclDefault ++
  a.defUser.flatMap (aclBytes .aclDefaultUser) ++
  a.defGroup.flatMap (aclBytes .aclDefaultGroup) ++
  optBytes (strRecord .selinux) a.selinux ++
  optBytes (record .fcaps) a.fcaps ++
  optBytes (fun q => record .quotaProjid (le64 q)) a.quota

/-- `CA_FORMAT_GOODBYE_HASH_KEY`, src/caformat.h:412-418. -/
def goodbyeKey : Bytes := [0xb3, 0x84, 0x1d, 0x0f, 0x2b, 0x44, 0x74, 0x85, 0xc1, 0x2e, 0xc2, 0xd1, 0x30, 0xed, 0x36, 0x27]

/-- The hash of a name, src/caencoder.c:2004. -/
def nameHash (name : Bytes) : Nat :=
  match SipHash.siphash24 name goodbyeKey with
  | .ok h => h.toNat
  | _ => 0

/-- `CaFormatGoodbyeItem`, src/caformat.h:394-398. -/
def itemBytes (i : Goodbye.Item) : Bytes := le64 i.offset ++ le64 i.size ++ le64 i.hash

/-- src/caencoder.c:2841-2889: the GOODBYE record with these rows; the tail is 2880-2884 (`distance` is `start_offset - bst->entry_offset`). -/
def goodbyeBytes (rows : List Goodbye.Item) (distance : Nat) : Bytes :=
  record .goodbye (rows.flatMap itemBytes ++ (le64 distance ++ le64 (16 + 24 * rows.length + 24) ++ le64 tailMarker))

/-! ### Trees -/

mutual
/-- What is to be archived.  `api` says that the object lives on an API file system, whose content is not stored
(`ca_encoder_node_shall_enumerate()`, src/caencoder.c:1872-1907). -/
inductive Tree
  | file (e : Entry) (a : Attrs) (api : Bool) (content : Bytes)
  | symlink (e : Entry) (a : Attrs) (target : Bytes)
  | device (e : Entry) (a : Attrs) (major minor : Nat)
  | special (e : Entry) (a : Attrs)
  | dir (e : Entry) (a : Attrs) (api : Bool) (kids : Kids)
/-- The entries of a directory in the order of `ca_encoder_node_read_dirents()` (sorted by name).  `keep` is the result of
`ca_encoder_shall_store_child_node()` (src/caencoder.c:1811-1870) for the entry. -/
inductive Kids
  | nil
  | cons (keep : Bool) (name : Bytes) (t : Tree) (rest : Kids)
end

/-- The metadata of an object. -/
def Tree.entry : Tree → Entry
  | .file e _ _ _ => e
  | .symlink e _ _ => e
  | .device e _ _ _ => e
  | .special e _ => e
  | .dir e _ _ _ => e

def Tree.attrs : Tree → Attrs
  | .file _ a _ _ => a
  | .symlink _ a _ => a
  | .device _ a _ _ => a
  | .special _ a => a
  | .dir _ a _ _ => a

/-- `fsize`, src/caencoder.c:2592-2595, and what is read in the state `IN_PAYLOAD`. -/
def stored (api : Bool) (content : Bytes) : Bytes := if api then [] else content

/-- The last part of src/caencoder.c:2509-2816 `ca_encoder_get_entry_data`, lines 2780-2811: how the records of an object end. -/
def tailBytes : Tree → Bytes
  | .file _ _ api c => header (16 + (stored api c).length) .payload
  | .symlink _ _ t => strRecord .symlink t
  | .device _ _ ma mi => record .device (le64 ma ++ le64 mi)
  | .special _ _ => []
  | .dir _ _ _ _ => []

/-- src/caencoder.c:2509-2816 `ca_encoder_get_entry_data`. -/
def headBytes (t : Tree) : Bytes := entryBytes t.entry ++ attrsBytes t.attrs ++ tailBytes t

/-! ### The state machine -/

/-- src/caencoder.c:152-163 `CaEncoderState`. -/
inductive EState
  | init | entered | entry | inPayload | nextDirent | firstDirent | filename | goodbye | finalize | eof
  deriving DecidableEq, Repr

/-- src/caencoder.c:74-150 `CaEncoderNode`: the object, the directory entries from the current one on, and the name table (items and
`entry_offset`). -/
structure ENode where
  tree : Tree
  kids : Kids
  items : List Goodbye.NameItem
  entryOff : Nat

/-- src/caencoder.c:165-204 `struct CaEncoder`; `nodes` is `nodes[0..node_idx]` reversed.  A child that was opened but not entered is the tree at
the current directory entry.  `archive_offset` is known, as no seek was made. -/
structure Enc where
  state : EState := .init
  nodes : List ENode
  buf : Bytes := []
  archiveOff : Nat := 0
  payloadOff : Nat := 0

/-- src/caencoder.h:16-22: results of `ca_encoder_step()`. -/
inductive EEv
  | finished | nextFile | doneFile | payload | data
  deriving DecidableEq, Repr

/-- A node for an object that is about to be read, src/caencoder.c:1680-1707 `ca_encoder_init_child`. -/
def freshNode (t : Tree) : ENode :=
  { tree := t, kids := (match t with | .dir _ _ _ k => k | _ => Kids.nil), items := [], entryOff := 0 }

/-- src/caencoder.c:1940-1945 `ca_encoder_enter_state`. -/
def eEnter (e : Enc) (s : EState) : Enc := { e with state := s, payloadOff := 0 }

/-- src/caencoder.c:208-217 `CA_ENCODER_IS_NAKED`; a block device as the root is left out. -/
def eNaked (e : Enc) : Bool :=
  match e.nodes with
  | [n] => (match n.tree with | .file .. => true | _ => false)
  | _ => false

/-- src/caencoder.c:2012-2045 `ca_encoder_update_name_table_end_offset`. -/
def closeItem (off : Nat) : List Goodbye.NameItem → List Goodbye.NameItem
  | [] => []
  | [i] => [{ i with endOffset := off }]
  | i :: j :: r => i :: closeItem off (j :: r)

/-- src/caencoder.c:2166-2199, the loop of `CA_ENCODER_FIRST_DIRENT`: skip what is not to be stored. -/
def skipKids : Kids → Kids
  | .nil => .nil
  | .cons true n t r => .cons true n t r
  | .cons false _ _ r => skipKids r

/-- `n->dirent_idx++`. -/
def Kids.tail : Kids → Kids
  | .nil => .nil
  | .cons _ _ _ r => r

/-- `UINT64_MAX`, the end offset of an item that is not complete. -/
abbrev openEnd : Nat := u64max

/-- src/caencoder.c:1979-2010 `ca_encoder_add_name_table_item`. -/
def addItem (items : List Goodbye.NameItem) (name : Bytes) (off : Nat) : List Goodbye.NameItem :=
  items ++ [{ hash := nameHash name, startOffset := off, endOffset := openEnd }]

/-- The current node is `n`, above it are `rest`. -/
def setTop (e : Enc) (n : ENode) (rest : List ENode) : Enc := { e with nodes := n :: rest }

/-- src/caencoder.c:2161-2199, case `CA_ENCODER_FIRST_DIRENT`.  Opening a child at the nesting limit fails with `E2BIG` (1709-1726), also if the
child is not to be stored. -/
def stepDirents (e : Enc) (n : ENode) (rest : List ENode) : Enc × Res EEv :=
  match n.kids with
  | .nil => (eEnter (setTop e n rest) .goodbye, .ok .data)
  | .cons _ _ _ _ =>
    if e.nodes.length ≥ 64 then (e, .err .E2BIG)
    else match skipKids n.kids with
      | .nil => (eEnter (setTop e { n with kids := .nil } rest) .goodbye, .ok .data)
      | .cons k name t r =>
        (eEnter (setTop e { n with kids := .cons k name t r, items := addItem n.items name e.archiveOff } rest) .filename, .ok .data)

/-- src/caencoder.c:1947-1977 `ca_encoder_initialize_name_table`: only a directory has a name table. -/
def enteredNode (n : ENode) (off : Nat) : ENode :=
  match n.tree with
  | .dir .. => { n with entryOff := off }
  | _ => n

/-- src/caencoder.c:2071-2094, case `CA_ENCODER_ENTERED`. -/
def stepEntered (e : Enc) : Enc × Res EEv :=
  match e.nodes with
  | [] => (e, .err .EUNATCH)
  | n :: rest => (eEnter (setTop e (enteredNode n e.archiveOff) rest) .entry, .ok .nextFile)

/-- src/caencoder.c:2128-2151, case `CA_ENCODER_IN_PAYLOAD`. -/
def stepEPayload (e : Enc) : Enc × Res EEv :=
  match e.nodes with
  | [] => (e, .err .EUNATCH)
  | n :: _ =>
    match n.tree with
    | .file _ _ _ c =>
      if e.payloadOff ≥ c.length then
        if eNaked e then (eEnter (eEnter e .finalize) .eof, .ok .finished)
        else (eEnter e .finalize, .ok .doneFile)
      else (e, .ok .payload)
    | _ => (e, .ub)

/-- src/caencoder.c:2047-2247 `ca_encoder_step_node`. -/
def eStepNode (e : Enc) : Enc × Res EEv :=
  match e.nodes with
  | [] => (e, .err .EUNATCH)
  | n :: rest =>
    match e.state with
    | .init => if eNaked e then stepEPayload (eEnter e .inPayload) else stepEntered (eEnter e .entered)
    | .entered => stepEntered e
    | .entry =>
      (match n.tree with
      | .file _ _ false _ => stepEPayload (eEnter e .inPayload)
      | .dir _ _ false _ => stepDirents (eEnter e .firstDirent) n rest
      | .dir _ _ true _ => (eEnter e .goodbye, .ok .data)
      | _ => (eEnter e .finalize, .ok .doneFile))
    | .inPayload => stepEPayload e
    | .nextDirent => stepDirents e { n with items := closeItem e.archiveOff n.items, kids := n.kids.tail } rest
    | .firstDirent => stepDirents e n rest
    | .filename =>
      (match n.kids with
      | .cons _ _ t _ => stepEntered (eEnter (setTop e (freshNode t) (n :: rest)) .entered)
      | .nil => (e, .err .EINVAL))
    | .goodbye => (eEnter e .finalize, .ok .doneFile)
    | .finalize =>
      (match rest with
      | [] => (eEnter e .eof, .ok .finished)
      | p :: up => stepDirents (eEnter (setTop e p up) .nextDirent) { p with items := closeItem e.archiveOff p.items, kids := p.kids.tail } up)
    | .eof => (e, .ok .finished)

/-- src/caencoder.c:2249-2271 `ca_encoder_advance_buffer`. -/
def eAdvance (e : Enc) : Enc :=
  { e with payloadOff := e.payloadOff + e.buf.length, archiveOff := e.archiveOff + e.buf.length, buf := [] }

/-- src/caencoder.c:2273-2288 `ca_encoder_step`. -/
def eStep (e : Enc) : Enc × Res EEv :=
  if e.state = .eof then (e, .ok .finished) else eStepNode (eAdvance e)

/-- src/def.h:8 `BUFFER_SIZE`. -/
abbrev bufferSize : Nat := 65536

/-- src/caencoder.c:2290-2333 `ca_encoder_get_payload_data`; `none` for `suggested_size` is `UINT64_MAX`.  The file still has the size that
`stat()` reported. -/
def getPayloadData (c : Bytes) (off : Nat) (suggested : Option Nat) : Bytes :=
  let k := min bufferSize (c.length - off)
  let k := match suggested with | some s => min k s | none => k
  (c.drop off).take k

/-- src/caencoder.c:2907-3034 `ca_encoder_get_data` when the buffer is empty; `qsort` is the C library's.  The assertions of
`ca_encoder_get_goodbye_data()` are in `Goodbye.goodbyeTable`, those on the entry offset (2876-2877) here. -/
def makeData (qsort : List Goodbye.NameItem → List Goodbye.NameItem) (e : Enc) (suggested : Option Nat) : Res Bytes :=
  match e.nodes with
  | [] => .err .EUNATCH
  | n :: _ =>
    match e.state with
    | .entry => .ok ((headBytes n.tree).drop e.payloadOff)
    | .inPayload =>
      (match n.tree with
      | .file _ _ _ c => if e.payloadOff ≥ c.length then .ok [] else .ok (getPayloadData c e.payloadOff suggested)
      | _ => .ub)
    | .filename =>
      (match n.kids with
      | .cons _ name _ _ => .ok ((strRecord .filename name).drop e.payloadOff)
      | .nil => .err .EUNATCH)
    | .goodbye =>
      if e.archiveOff < e.payloadOff then .err .EINVAL
      else do
        let rows ← Goodbye.goodbyeTable qsort n.items (e.archiveOff - e.payloadOff)
        Res.assert (decide (n.entryOff < e.archiveOff - e.payloadOff))
        .ok ((goodbyeBytes rows (e.archiveOff - e.payloadOff - n.entryOff)).drop e.payloadOff)
    | _ => .err .ENODATA

/-- Keep the data in the buffer. -/
def setBuf (e : Enc) (b : Bytes) : Enc := { e with buf := b }

/-- src/caencoder.c:2907-3034 `ca_encoder_get_data` with a place for the data, without digests. -/
def getData (qsort : List Goodbye.NameItem → List Goodbye.NameItem) (e : Enc) (suggested : Option Nat) : Enc × Res Bytes :=
  if e.buf ≠ [] then (e, .ok e.buf)
  else match makeData qsort e suggested with
    | .ok b => (setBuf e b, .ok b)
    | .err x => (e, .err x)
    | .ub => (e, .ub)

end Casync.Archive
