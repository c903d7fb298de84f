import Verif.Base.Bytes
import Verif.Base.Res
import Verif.Model.Flags
/-!
The records of a directory archive (`src/caformat.h`), the decoder's validation of each of them, and the two parsing functions
`ca_decoder_parse_entry()` and (the record part of) `ca_decoder_parse_filename()` of `src/cadecoder.c`.

A record is a header (`le64` size including the header, `le64` type) and a body.  The model separates, for each record type, the checks the
code makes before it looks whether the record is complete (`pre`), and the validation of the complete record (`accept`, `acceptEnd`).
Numbers read from a record are `Nat` (below 2^64 by `rdLE_lt64`), except flag words and modes, which are `BitVec 64`.
Memory allocation failures are not modelled.
-/
namespace Casync.Archive
open Casync Flags

/-- The record types, src/caformat.h:50-69. -/
inductive RType
  | entry | user | group | xattr | aclUser | aclGroup | aclGroupObj | aclDefault | aclDefaultUser | aclDefaultGroup | fcaps
  | quotaProjid | selinux | symlink | device | payload | filename | goodbye
  deriving DecidableEq, Repr

/-- The type codes, src/caformat.h:50-69. -/
def code : RType → Nat
  | .entry => 0x1396fabcea5bbb51
  | .user => 0xf453131aaeeaccb3
  | .group => 0x25eb6ac969396a52
  | .xattr => 0xb8157091f80bc486
  | .aclUser => 0x297dc88b2ef12faf
  | .aclGroup => 0x36f2acb56cb3dd0b
  | .aclGroupObj => 0x23047110441f38f3
  | .aclDefault => 0xfe3eeda6823c8cd0
  | .aclDefaultUser => 0xbdf03df9bd010a91
  | .aclDefaultGroup => 0xa0cb1168782d1f51
  | .fcaps => 0xf7267db0afed0629
  | .quotaProjid => 0x161baf2d8772a72b
  | .selinux => 0x46faf0602fd26c59
  | .symlink => 0x664a6fb6830e0d6c
  | .device => 0xac3dace369dfe643
  | .payload => 0x8b9e1d93d6dcffc9
  | .filename => 0x6dbb6ebcb3161f0b
  | .goodbye => 0xdfd35c5e8327c403

/-- All types. -/
def allTypes : List RType :=
  [.entry, .user, .group, .xattr, .aclUser, .aclGroup, .aclGroupObj, .aclDefault, .aclDefaultUser, .aclDefaultGroup, .fcaps,
   .quotaProjid, .selinux, .symlink, .device, .payload, .filename, .goodbye]

/-- The `switch (t)` of src/cadecoder.c:1745-2283: `none` is the default branch. -/
def rtype (t : Nat) : Option RType := allTypes.find? (fun r => code r == t)

/-- `CA_FORMAT_GOODBYE_TAIL_MARKER`, src/caformat.h:71. -/
def tailMarker : Nat := 0x57446fa533702943

/-- `CaFormatHeader`, src/caformat.h:275-278. -/
def header (size : Nat) (r : RType) : Bytes := le64 size ++ le64 (code r)

/-- `header.size` of a record whose body has these bytes, and the record. -/
def record (r : RType) (body : Bytes) : Bytes := header (16 + body.length) r ++ body

/-- `read_le64()` of the `i`-th 8 byte word. -/
def word (i : Nat) (b : Bytes) : Nat := rdLE ((b.drop (8 * i)).take 8)

/-- `CaFormatEntry` without its header, src/caformat.h:280-288. -/
structure Entry where
  ff : Word
  mode : Word
  flags : Word
  uid : Nat
  gid : Nat
  mtime : Nat
  deriving DecidableEq, Repr

/-- `CaFormatACLUser`/`CaFormatACLGroup` without the header, src/caformat.h:323-337: id, permissions and the name if the record is longer than
the fixed part. -/
structure AclEnt where
  id : Nat
  perm : Nat
  name : Option Bytes
  deriving DecidableEq, Repr

/-- `CaFormatACLDefault` without the header, src/caformat.h:346-352. -/
structure AclDef where
  user : Nat
  group : Nat
  other : Nat
  mask : Nat
  deriving DecidableEq, Repr

/-- What the records between ENTRY and the content of an object say; the fields of `CaDecoderNode`, src/cadecoder.c:68-124.  Lists are in the
order of the archive (the code keeps the ACL lists reversed). -/
structure Attrs where
  user : Option Bytes := none
  group : Option Bytes := none
  xattrs : List (Bytes × Bytes) := []
  aclUser : List AclEnt := []
  aclGroup : List AclEnt := []
  groupObj : Option Nat := none
  aclDefault : Option AclDef := none
  defUser : List AclEnt := []
  defGroup : List AclEnt := []
  selinux : Option Bytes := none
  fcaps : Option Bytes := none
  quota : Option Nat := none
  deriving DecidableEq, Repr

/-- What ends the records of an object: its SYMLINK, DEVICE or PAYLOAD record (of which only the size of the content matters here), or the
FILENAME or GOODBYE record that follows it. -/
inductive Term
  | symlink (target : Bytes)
  | device (major minor : Nat)
  | payload (size : Nat)
  | filename
  | goodbye
  deriving DecidableEq, Repr

/-! ### Validation -/

/-- The NUL terminated string at the start of `b`. -/
def cstr (b : Bytes) : Bytes := b.takeWhile (· != 0)

/-- src/util.h:355-369 `dot_or_dot_dot`. -/
def dotOrDotDot (s : Bytes) : Bool := s == [46] || s == [46, 46]

/-- src/cadecoder.c:715-734 `validate_filename`, on the `n` bytes of the field. -/
def validateFilename (b : Bytes) : Bool :=
  if b.length < 2 then false
  else if b.getLast? != some 0 then false
  else if b.dropLast.any (fun c => c == 0 || c == 47) then false
  else !dotOrDotDot b.dropLast

/-- `S_IFMT` and the file types of `stat(2)`. -/
abbrev ifmt : Word := 0xf000#64
abbrev ifReg : Word := 0x8000#64
abbrev ifDir : Word := 0x4000#64
abbrev ifLnk : Word := 0xa000#64
abbrev ifBlk : Word := 0x6000#64
abbrev ifChr : Word := 0x2000#64
abbrev ifFifo : Word := 0x1000#64
abbrev ifSock : Word := 0xc000#64

/-- `S_ISREG()` and friends. -/
def isType (m t : Word) : Bool := (m &&& ifmt) == t

/-- src/cadecoder.c:736-791 `validate_mode`. -/
def validateMode (ff m flags : Word) : Bool :=
  if (m &&& ~~~(ifmt ||| 0xfff#64)) != 0#64 then false
  else if !(isType m ifReg || isType m ifDir
      || (isType m ifSock && has ff withSockets)
      || (isType m ifFifo && has ff withFifos)
      || ((isType m ifBlk || isType m ifChr) && has ff withDeviceNodes)
      || (isType m ifLnk && has ff withSymlinks)) then false
  else if !isType m ifDir && has flags withSubvolume then false
  else if isType m ifLnk then (m &&& 0xfff#64) == 0x1ff#64
  else if has ff (withPermissions ||| withAcl) then true
  else if (m &&& 0xfff#64) == (if isType m ifDir then 0x1ff#64 else 0x1b6#64) then true
  else has ff withReadOnly && (m &&& 0xfff#64) == (if isType m ifDir then 0x16d#64 else 0x124#64)

/-- src/cadecoder.c:793-805 `validate_uid_gid`. -/
def validateUidGid (ff : Word) (u : Nat) : Bool :=
  if has ff with16BitUids then u < 65535
  else if has ff with32BitUids then u < 4294967295 && u != 65535
  else u == 0

/-- `CA_FORMAT_WITH_FAT_ATTRS|CA_FORMAT_WITH_CHATTR|CA_FORMAT_WITH_SUBVOLUME|CA_FORMAT_WITH_SUBVOLUME_RO`: bits 13..27. -/
abbrev entryFlagBits : Word := 0xfffe000#64

/-- src/cadecoder.c:807-811 `validate_entry_flags`. -/
def validateEntryFlags (ff f : Word) : Bool := (f &&& ~~~(ff &&& entryFlagBits)) == 0#64

/-- src/cadecoder.c:823-843 `validate_nsec`. -/
def validateNsec (ff : Word) (t : Nat) : Bool :=
  if t == u64max then false
  else if has ff withNsecTime then true
  else if has ff withUsecTime then t % 1000000 == 0
  else if has ff withSecTime then t % 1000000000 == 0
  else if has ff with2SecTime then t % 2000000000 == 0
  else t == 0

def isLetter (c : UInt8) : Bool := (97 ≤ c && c ≤ 122) || (65 ≤ c && c ≤ 90)
def isDigit10 (c : UInt8) : Bool := 48 ≤ c && c ≤ 57

/-- src/cadecoder.c:845-879 `validate_user_group_name`, on the `n` bytes of the field.  The last test of the code, for the name "0", is
left out: the first character cannot be a digit. -/
def validateUserName (b : Bytes) : Bool :=
  if b.length < 2 then false
  else if b.getLast? != some 0 then false
  else match b.dropLast with
    | [] => false
    | c :: cs =>
      if !(isLetter c || c == 95) then false
      else if cs.any (fun c => !(isLetter c || isDigit10 c || c == 95 || c == 45)) then false
      else if b.length > 256 then false
      else b != [114, 111, 111, 116, 0]

/-- src/cadecoder.c:881-897 `validate_symlink_target`. -/
def validateTarget (b : Bytes) : Bool :=
  if b.length < 2 then false
  else if b.getLast? != some 0 then false
  else if b.dropLast.any (· == 0) then false
  else !(b.length > 4096)

/-- src/cautil.c:204-227 `ca_xattr_name_is_valid`. -/
def xattrNameValid (s : Bytes) : Bool :=
  if s == [] then false
  else match s.dropWhile (· != 46) with
    | [] => false
    | _ :: rest =>
      if s.head? == some 46 then false
      else if rest == [] then false
      else !(s.length > 255)

/-- What the decoder knows about the feature flags: those of the archive and of the restore once an ENTRY has been seen (else `UINT64_MAX`),
the expected ones and the mask, src/cadecoder.c:163-166. -/
structure FF where
  ff : Word := none64
  replay : Word := none64
  expected : Word := none64
  mask : Word := none64
  deriving DecidableEq, Repr

/-- src/cadecoder.c:912-914: `r <= 0 && r != -EOPNOTSUPP`; unknown flags are left to the caller. -/
def notNormalized (flags : Word) : Bool :=
  match areNormalized flags with
  | .ok b => !b
  | .err .EOPNOTSUPP => false
  | _ => true

/-- src/cadecoder.c:899-928 `validate_feature_flags` with 697-713 `ca_decoder_determine_replay_feature_flags`. -/
def validateFeatureFlags (d : FF) (flags : Word) : Option FF :=
  if flags == none64 then none
  else if d.expected != none64 && flags != d.expected then none
  else if notNormalized flags then none
  else if d.ff == none64 then
    match normalize (normalizeMask flags &&& d.mask) with
    | .ok r => some { d with ff := flags, replay := r }
    | _ => none
  else if d.ff != flags then none
  else some d

/-- The fields of an ENTRY record. -/
def readEntry (body : Bytes) : Entry :=
  { ff := BitVec.ofNat 64 (word 0 body), mode := BitVec.ofNat 64 (word 1 body), flags := BitVec.ofNat 64 (word 2 body),
    uid := word 3 body, gid := word 4 body, mtime := word 5 body }

/-- src/cadecoder.c:930-955 `validate_format_entry` and the version check of 1766-1769. -/
def acceptEntry (d : FF) (e : Entry) : Res FF :=
  match validateFeatureFlags d e.ff with
  | none => .err .EBADMSG
  | some d =>
    if !validateMode d.ff e.mode e.flags then .err .EBADMSG
    else if !validateEntryFlags d.ff e.flags then .err .EBADMSG
    else if !validateUidGid d.ff e.uid then .err .EBADMSG
    else if !validateUidGid d.ff e.gid then .err .EBADMSG
    else if !validateNsec d.ff e.mtime then .err .EBADMSG
    else if (e.ff &&& ~~~flagsMax) != 0#64 then .err .EPROTONOSUPPORT
    else .ok d

/-- src/cadecoder.c:1023-1025 `validate_acl_permissions`. -/
def validatePerm (p : Nat) : Bool := p < 8

/-- The fields of an ACL_USER, ACL_GROUP, ACL_DEFAULT_USER or ACL_DEFAULT_GROUP record. -/
def readAcl (body : Bytes) : AclEnt :=
  { id := word 0 body, perm := word 1 body, name := if body.length > 16 then some (body.drop 16).dropLast else none }

/-- src/cadecoder.c:1027-1054 `validate_format_acl_user`, 1056-1083 `validate_format_acl_group`. -/
def validateAcl (ff : Word) (body : Bytes) : Bool :=
  if body.length < 16 then false
  else if !has ff withAcl then false
  else if body.length > 16 && !(has ff withUserNames && validateUserName (body.drop 16)) then false
  else if !validateUidGid ff (word 0 body) then false
  else validatePerm (word 1 body)

/-- `strcmp(a, b) < 0`, on the strings without their terminating NUL. -/
def strLt : Bytes → Bytes → Bool
  | [], [] => false
  | [], _ :: _ => true
  | _ :: _, [] => false
  | a :: as, b :: bs => if a < b then true else if b < a then false else strLt as bs

/-- src/cadecoder.c:1288-1318 `compare_format_acl_user(a, b) < 0`, 1320-1350 `compare_format_acl_group`. -/
def aclLt (a b : AclEnt) : Bool :=
  if a.id < b.id then true
  else if a.id > b.id then false
  else match a.name, b.name with
    | none, some _ => true
    | some _, none => false
    | some x, some y => if strLt x y then true else if strLt y x then false else a.perm < b.perm
    | none, none => a.perm < b.perm

/-- The new entry must be greater than the last one of its kind: src/cadecoder.c:1950-1956, 2019-2025. -/
def aclOrder (l : List AclEnt) (a : AclEnt) : Bool :=
  match l.getLast? with
  | none => true
  | some b => aclLt b a

/-- src/cadecoder.c:1085-1102 `validate_format_acl_group_obj` (the size has been checked by `pre`). -/
def validateGroupObj (ff : Word) (body : Bytes) : Bool := has ff withAcl && validatePerm (word 0 body)

def readAclDef (body : Bytes) : AclDef := { user := word 0 body, group := word 1 body, other := word 2 body, mask := word 3 body }

/-- src/cadecoder.c:1104-1131 `validate_format_acl_default` (the size has been checked by `pre`). -/
def validateAclDef (ff : Word) (a : AclDef) : Bool :=
  has ff withAcl && validatePerm a.user && validatePerm a.group && validatePerm a.other && (a.mask == u64max || validatePerm a.mask)

/-- src/cadecoder.c:999-1021 `validate_format_xattr`. -/
def validateXattr (ff : Word) (body : Bytes) : Bool :=
  if body.length < 4 then false
  else if !has ff withXattrs then false
  else if !(body.take 256).contains 0 then false
  else xattrNameValid (cstr body)

/-- Name and value of an XATTR record. -/
def readXattr (body : Bytes) : Bytes × Bytes := (cstr body, (body.dropWhile (· != 0)).drop 1)

/-- src/cadecoder.c:1884-1886: names are in order. -/
def xattrOrder (l : List (Bytes × Bytes)) (x : Bytes × Bytes) : Bool :=
  match l.getLast? with
  | none => true
  | some y => strLt y.1 x.1

/-- src/cadecoder.c:1133-1153 `validate_format_selinux`. -/
def validateSelinux (ff : Word) (body : Bytes) : Bool :=
  if body.length < 2 then false
  else if !has ff withSelinux then false
  else if body.getLast? != some 0 then false
  else !body.dropLast.any (· == 0)

/-- src/cadecoder.c:1169-1185 `validate_format_quota_projid` (the size has been checked by `pre`). -/
def validateQuota (body : Bytes) : Bool := word 0 body != 0 && word 0 body ≤ 0xffffffff

/-- src/cadecoder.c:813-821 and 1208-1227 `validate_format_device` (the size has been checked by `pre`). -/
def validateDevice (ff : Word) (body : Bytes) : Bool := has ff withDeviceNodes && word 0 body < 2 ^ 12 && word 1 body < 2 ^ 20

/-- src/cadecoder.c:1257-1285 `validate_format_goodbye`. -/
def validateGoodbye (body : Bytes) : Bool :=
  if body.length < 24 then false
  else if (body.length - 24) % 24 != 0 then false
  else
    let tail := body.drop (body.length - 24)
    if word 2 tail != tailMarker then false
    else if word 1 tail != 16 + body.length then false
    else if word 0 tail < 16 + body.length then false
    else word 0 tail != u64max

/-! ### `ca_decoder_parse_entry()` -/

/-- State of the loop: the ENTRY record if seen, and the others. -/
structure PSt where
  entry : Option Entry := none
  attrs : Attrs := {}
  deriving DecidableEq, Repr

/-- `n->have_acl`. -/
def haveAcl (a : Attrs) : Bool :=
  a.aclUser != [] || a.aclGroup != [] || a.groupObj.isSome || a.aclDefault.isSome || a.defUser != [] || a.defGroup != []

/-- The checks made before completeness is checked, by record type; `l` is the size in the header.  src/cadecoder.c: ENTRY 1748-1751, USER
1775-1792, GROUP 1824-1839, XATTR 1864-1876, ACL_USER 1910-1936, ACL_GROUP 1980-2006, ACL_GROUP_OBJ 2046-2065, ACL_DEFAULT 2082-2097, SELINUX
2116-2125, FCAPS 2142-2149, QUOTA 2166-2171, SYMLINK 2188-2193, DEVICE 2210-2215, PAYLOAD 2232-2235, FILENAME 2246-2249, GOODBYE 2266-2269. -/
def pre (r : RType) (st : PSt) (l : Nat) : Bool :=
  let a := st.attrs
  let late := a.selinux.isNone && a.fcaps.isNone && a.quota.isNone
  match r with
  | .entry => st.entry.isNone && l == 64
  | .user => st.entry.isSome && a.user.isNone && a.group.isNone && a.xattrs == [] && !haveAcl a && late && l ≤ 272
  | .group => st.entry.isSome && a.group.isNone && a.xattrs == [] && !haveAcl a && late && l ≤ 272
  | .xattr => st.entry.isSome && late && !haveAcl a && l ≤ 65808
  | .aclUser => st.entry.isSome && a.aclGroup == [] && a.groupObj.isNone && a.aclDefault.isNone && a.defUser == [] && a.defGroup == [] && late &&
      l ≤ 288
  | .aclDefaultUser => st.entry.isSome && a.defGroup == [] && late && l ≤ 288
  | .aclGroup => st.entry.isSome && a.groupObj.isNone && a.aclDefault.isNone && a.defUser == [] && a.defGroup == [] && late && l ≤ 288
  | .aclDefaultGroup => st.entry.isSome && late && l ≤ 288
  | .aclGroupObj => st.entry.isSome && a.groupObj.isNone && a.aclDefault.isNone && a.defUser == [] && a.defGroup == [] && late && l == 24
  | .aclDefault => st.entry.isSome && a.aclDefault.isNone && a.defUser == [] && a.defGroup == [] && late && l == 48
  | .selinux => st.entry.isSome && late && l ≤ 4112
  | .fcaps => st.entry.isSome && a.fcaps.isNone && a.quota.isNone && l ≤ 65552
  | .quotaProjid => st.entry.isSome && a.quota.isNone && l == 24
  | .symlink => (match st.entry with | some e => isType e.mode ifLnk | none => false) && l ≤ 4112
  | .device => (match st.entry with | some e => isType e.mode ifChr || isType e.mode ifBlk | none => false) && l == 32
  | .payload => match st.entry with | some e => isType e.mode ifReg | none => false
  | .filename => st.entry.isSome && 17 ≤ l
  | .goodbye => st.entry.isSome && 40 ≤ l

/-- src/cadecoder.c:1811-1814, 1851-1854: a zero id must not be named "root" if ids are stored. -/
def rootNamed (ff : Word) (id : Nat) (name : Bytes) : Bool :=
  has ff (with16BitUids ||| with32BitUids) && id == 0 && name == [114, 111, 111, 116]

/-- The validation of a complete record that does not end the loop, and its effect; same lines as `pre`, after the completeness check. -/
def accept (r : RType) (d : FF) (st : PSt) (body : Bytes) : Res (FF × PSt) :=
  let a := st.attrs
  let bad : Res (FF × PSt) := .err .EBADMSG
  let set (a : Attrs) : Res (FF × PSt) := .ok (d, { st with attrs := a })
  match r with
  | .entry => do
    let d ← acceptEntry d (readEntry body)
    return (d, { st with entry := some (readEntry body) })
  | .user =>
    if !(has d.ff withUserNames && validateUserName body) then bad
    else if (match st.entry with | some e => rootNamed d.ff e.uid (cstr body) | none => true) then bad
    else set { a with user := some body.dropLast }
  | .group =>
    if !(has d.ff withUserNames && validateUserName body) then bad
    else if (match st.entry with | some e => rootNamed d.ff e.gid (cstr body) | none => true) then bad
    else set { a with group := some body.dropLast }
  | .xattr =>
    if !validateXattr d.ff body then bad
    else if !xattrOrder a.xattrs (readXattr body) then bad
    else set { a with xattrs := a.xattrs ++ [readXattr body] }
  | .aclUser =>
    if !validateAcl d.ff body then bad
    else if !aclOrder a.aclUser (readAcl body) then bad
    else set { a with aclUser := a.aclUser ++ [readAcl body] }
  | .aclDefaultUser =>
    if !validateAcl d.ff body then bad
    else if !aclOrder a.defUser (readAcl body) then bad
    else set { a with defUser := a.defUser ++ [readAcl body] }
  | .aclGroup =>
    if !validateAcl d.ff body then bad
    else if !aclOrder a.aclGroup (readAcl body) then bad
    else set { a with aclGroup := a.aclGroup ++ [readAcl body] }
  | .aclDefaultGroup =>
    if !validateAcl d.ff body then bad
    else if !aclOrder a.defGroup (readAcl body) then bad
    else set { a with defGroup := a.defGroup ++ [readAcl body] }
  | .aclGroupObj => if !validateGroupObj d.ff body then bad else set { a with groupObj := some (word 0 body) }
  | .aclDefault => if !validateAclDef d.ff (readAclDef body) then bad else set { a with aclDefault := some (readAclDef body) }
  | .selinux => if !validateSelinux d.ff body then bad else set { a with selinux := some body.dropLast }
  | .fcaps => set { a with fcaps := some body }
  | .quotaProjid => if !validateQuota body then bad else set { a with quota := some (word 0 body) }
  | _ => bad

/-- The validation of a complete record that ends the loop: SYMLINK 2201-2203, DEVICE 2223-2225, FILENAME 2257-2259, GOODBYE 2277-2279. -/
def acceptEnd (r : RType) (ff : Word) (body : Bytes) : Option Term :=
  match r with
  | .symlink => if has ff withSymlinks && validateTarget body then some (.symlink body.dropLast) else none
  | .device => if validateDevice ff body then some (.device (word 0 body) (word 1 body)) else none
  | .filename => if validateFilename body then some .filename else none
  | .goodbye => if validateGoodbye body then some .goodbye else none
  | _ => none

/-- Does this record end the loop (`done = true`)? -/
def ends : RType → Bool
  | .symlink | .device | .payload | .filename | .goodbye => true
  | _ => false

/-- Result of a parsing function: it wants more data, fails, or succeeds. -/
inductive Parse (α : Type)
  | request
  | err (e : Errno)
  | ok (a : α)
  deriving Repr

/-- How many bytes of the record that ended the loop belong to the object: src/cadecoder.c:2205, 2227, 2242 (only the header of PAYLOAD),
FILENAME and GOODBYE are left for the next state (2261-2262, 2281-2282). -/
def termSize : Term → Nat
  | .symlink t => 16 + (t.length + 1)
  | .device _ _ => 32
  | .payload _ => 16
  | .filename => 0
  | .goodbye => 0

/-- The loop of `ca_decoder_parse_entry()`, src/cadecoder.c:1721-2287.  `off` is the C variable `offset`.  Besides the outcome the feature flag
state is delivered, which the code keeps also if it has to wait for more data. -/
def parseLoop (d : FF) (st : PSt) (off : Nat) (buf : Bytes) : FF × Parse (PSt × Term × Nat) :=
  if h : buf.length < 16 then (d, .request)
  else
    let l := word 0 buf
    if hl : l < 16 then (d, .err .EBADMSG)
    else if l == u64max then (d, .err .EBADMSG)
    else match rtype (word 1 buf) with
      | none => (d, .err .EBADMSG)
      | some r =>
        if !pre r st l then (d, .err .EBADMSG)
        else if r == .payload then (d, .ok (st, .payload (l - 16), off + 16))
        else if hc : buf.length < l then (d, .request)
        else
          let body := (buf.take l).drop 16
          if ends r then
            match acceptEnd r d.ff body with
            | none => (d, .err .EBADMSG)
            | some t => (d, .ok (st, t, off + termSize t))
          else match accept r d st body with
            | .ok (d, st) => parseLoop d st (off + l) (buf.drop l)
            | .err e => (d, .err e)
            | .ub => (d, .err .EBADMSG)
termination_by buf.length
decreasing_by simp only [List.length_drop]; omega

/-- What the decoder knows about an object after parsing its records. -/
structure Parsed where
  entry : Entry
  attrs : Attrs
  term : Term
  deriving DecidableEq, Repr

/-- The checks after the loop, src/cadecoder.c:2289-2350. -/
def finalChecks (ff : Word) (root : Bool) (p : Parsed) : Bool :=
  let m := p.entry.mode
  let a := p.attrs
  !(a.user.isSome && !has ff withUserNames) &&
  !(a.group.isSome && !has ff withUserNames) &&
  !(has ff withUserNames && !has ff (with16BitUids ||| with32BitUids) && (a.user.isNone || a.group.isNone)) &&
  !(isType m ifReg && !(match p.term with | .payload _ => true | _ => false)) &&
  !(isType m ifDir && !(p.term == .filename || p.term == .goodbye)) &&
  !(isType m ifLnk && !(match p.term with | .symlink _ => true | _ => false)) &&
  !((isType m ifBlk || isType m ifChr) && !(match p.term with | .device _ _ => true | _ => false)) &&
  !(!isType m ifReg && a.fcaps.isSome) &&
  !(!(isType m ifReg || isType m ifDir) && a.quota.isSome) &&
  !(p.entry.flags != 0#64 && !isType m ifReg && !isType m ifDir) &&
  !(root && !isType m ifDir) &&
  !(isType m ifLnk && (a.xattrs != [] || haveAcl a)) &&
  !((a.aclUser != [] || a.aclGroup != []) && a.groupObj.isNone) &&
  !((a.defUser != [] || a.defGroup != []) && (match a.aclDefault with | none => true | some x => x.mask == u64max)) &&
  !((a.defUser != [] || a.defGroup != [] || a.aclDefault.isSome) && !isType m ifDir)

/-- `ca_decoder_parse_entry()` without the state changes, src/cadecoder.c:1692-2441: what was parsed and `step_size`. -/
def parseEntry (d : FF) (root : Bool) (buf : Bytes) : FF × Parse (Parsed × Nat) :=
  match parseLoop d {} 0 buf with
  | (d, .request) => (d, .request)
  | (d, .err e) => (d, .err e)
  | (d, .ok (st, t, off)) =>
    match st.entry with
    | none => (d, .err .EBADMSG)
    | some e =>
      if finalChecks d.ff root ⟨e, st.attrs, t⟩ then (d, .ok (⟨e, st.attrs, t⟩, off)) else (d, .err .EBADMSG)

/-- What `ca_decoder_parse_filename()` finds. -/
inductive DirRec
  | filename (name : Bytes)
  | goodbye (table : Bytes) (entryOffset : Nat)
  deriving DecidableEq, Repr

/-- The record part of `ca_decoder_parse_filename()`, src/cadecoder.c:2455-2500, 2631-2647: the next FILENAME or GOODBYE record, with its
size.  The filename is what `strdup()` copies.  For GOODBYE the body before the tail, and the tail's `entry_offset`. -/
def parseDirRec (buf : Bytes) : Parse (DirRec × Nat) :=
  if buf.length < 16 then .request
  else
    let l := word 0 buf
    if l < 16 then .err .EBADMSG
    else if l == u64max then .err .EBADMSG
    else
      let body := (buf.take l).drop 16
      match rtype (word 1 buf) with
      | some .filename =>
        if l < 17 then .err .EBADMSG
        else if buf.length < l then .request
        else if !validateFilename body then .err .EBADMSG
        else .ok (.filename (cstr body), l)
      | some .goodbye =>
        if l < 40 then .err .EBADMSG
        else if buf.length < l then .request
        else if !validateGoodbye body then .err .EBADMSG
        else .ok (.goodbye (body.take (body.length - 24)) (word 0 (body.drop (body.length - 24))), l)
      | _ => .err .EBADMSG

end Casync.Archive
