import Verif.Model.Encoder
import Verif.Model.Number
/-!
How the encoder of `src/caencoder.c` gets from what the file system says about an object to the ENTRY record and the optional metadata records.

The kernel's view of an object is a `Meta`.  Two things about it are the kernel's and libacl's, not casync's, and are part of the trusted base:
an access ACL beyond the mode bits always has a mask, and the owner, mask and other entries of it are the mode bits (`aclOf`).  The user
database is a pair of functions that do not change while casync runs.  Failing system calls are not modelled.
-/
namespace Casync.Meta
open Casync Flags Archive

/-- The user database: `getpwuid_r()`, `getgrgid_r()`, `getpwnam_r()`, `getgrnam_r()`. -/
structure Names where
  user : Nat → Option Bytes
  group : Nat → Option Bytes
  uid : Bytes → Option Nat
  gid : Bytes → Option Nat

/-- `acl_tag_t` with the qualifier. -/
inductive Tag
  | userObj | groupObj | other | mask
  | user (uid : Nat)
  | group (gid : Nat)
  deriving DecidableEq, Repr

/-- An entry of an `acl_t`: who, and the permissions as `CA_FORMAT_ACL_PERMISSION_*` bits (`acl_entry_permissions()`, src/caencoder.c:1323-1350). -/
structure AclItem where
  tag : Tag
  perm : Nat
  deriving DecidableEq, Repr

/-- The part of an access ACL that is not in the mode: the named users and groups and the owning group; the mask is in the mode. -/
structure ExtAcl where
  users : List (Nat × Nat)
  groups : List (Nat × Nat)
  groupObj : Nat
  deriving DecidableEq, Repr

/-- A default ACL. -/
structure DefAcl where
  user : Nat
  group : Nat
  other : Nat
  mask : Option Nat
  users : List (Nat × Nat)
  groups : List (Nat × Nat)
  deriving DecidableEq, Repr

/-- The metadata of an object: `struct stat`, the ACLs, the extended attributes (without those of the ACLs and of SELinux), the SELinux label,
the flags of `FS_IOC_GETFLAGS` and `FAT_IOCTL_GET_ATTRIBUTES`, whether it is a btrfs subvolume, and the project quota id. -/
structure Meta where
  mode : Word
  uid : Nat
  gid : Nat
  sec : Int
  nsec : Int
  ext : Option ExtAcl := none
  dfl : Option DefAcl := none
  xattrs : List (Bytes × Bytes) := []
  selinux : Option Bytes := none
  chattr : Word := 0#64
  fat : Word := 0#64
  subvol : Bool := false
  subvolRo : Bool := false
  projid : Nat := 0
  deriving DecidableEq, Repr

/-- Three permission bits of a mode; src/cadecoder.c:3153-3163 `mode_user_to_acl_permissions` etc. -/
def modePerm (m : Word) (shift : Nat) : Nat := ((m >>> shift) &&& 7#64).toNat

/-- `acl_get_file(…, ACL_TYPE_ACCESS)`: the kernel makes up the entries from the mode if there is no ACL. -/
def aclOf (m : Meta) : List AclItem :=
  match m.ext with
  | none => [⟨.userObj, modePerm m.mode 6⟩, ⟨.groupObj, modePerm m.mode 3⟩, ⟨.other, modePerm m.mode 0⟩]
  | some a =>
    ⟨.userObj, modePerm m.mode 6⟩ :: (a.users.map (fun x => ⟨.user x.1, x.2⟩) ++ (⟨.groupObj, a.groupObj⟩ ::
      (a.groups.map (fun x => ⟨.group x.1, x.2⟩) ++ [⟨.mask, modePerm m.mode 3⟩, ⟨.other, modePerm m.mode 0⟩])))

/-- The entries of a default ACL. -/
def defItems (a : DefAcl) : List AclItem :=
  ⟨.userObj, a.user⟩ :: (a.users.map (fun x => ⟨.user x.1, x.2⟩) ++ (⟨.groupObj, a.group⟩ ::
    (a.groups.map (fun x => ⟨.group x.1, x.2⟩) ++ ((match a.mask with | some p => [⟨.mask, p⟩] | none => []) ++ [⟨.other, a.other⟩]))))

/-- `acl_get_file(…, ACL_TYPE_DEFAULT)`; no entries if there is none. -/
def defAclOf (m : Meta) : List AclItem :=
  match m.dfl with
  | none => []
  | some a => defItems a

/-! ### The encoder's settings -/

/-- What of `struct CaEncoder` matters here: src/caencoder.c:170-171, 191-192. -/
structure Cfg where
  ff : Word
  gran : Nat
  shift : Nat := 0
  range : Nat := 0
  deriving DecidableEq, Repr

/-- src/caencoder.c:324-344 `ca_encoder_set_feature_flags`, with the shift and range of 3910-3926. -/
def setFeatureFlags (flags : Word) (shift range : Nat) : Res Cfg :=
  match normalize flags with
  | .err e => .err e
  | .ub => .ub
  | .ok ff =>
    match granularity ff with
    | .ok g => .ok { ff := ff, gran := g, shift := shift, range := range }
    | .err .ENODATA => .ok { ff := ff, gran := u64max, shift := shift, range := range }
    | .err e => .err e
    | .ub => .ub

/-! ### Ids and names -/

/-- `UID_INVALID`. -/
abbrev uidInvalid : Nat := 0xFFFFFFFF

/-- src/util.c:1054-1065 `uid_is_valid`. -/
def uidValid (u : Nat) : Bool := u != 0xFFFFFFFF && u != 0xFFFF

/-- src/caencoder.c:1153-1175 `ca_encoder_shift_uid`, 1177-1180 `ca_encoder_shift_gid`. -/
def shiftUid (c : Cfg) (u : Nat) : Nat :=
  if !uidValid u then uidInvalid
  else if u < c.shift then uidInvalid
  else if c.range ≠ 0 then (u - c.shift) % c.range
  else u - c.shift

/-- `CA_FORMAT_WITH_16BIT_UIDS|CA_FORMAT_WITH_32BIT_UIDS`. -/
abbrev withIds : Word := with16BitUids ||| with32BitUids

/-- src/caencoder.c:1200-1235: the name the database has (`found`), else the number. -/
def nameOf (c : Cfg) (found : Option Bytes) (u : Nat) : Res (Option Bytes) :=
  match found with
  | some n => .ok (some n)
  | none =>
    if has c.ff withIds then .ok none
    else if !uidValid (shiftUid c u) then .err .EINVAL
    else .ok (some (Number.dec (shiftUid c u)))

/-- src/caencoder.c:1177-1240 `uid_to_name`. -/
def uidToName (c : Cfg) (db : Names) (u : Nat) : Res (Option Bytes) :=
  if !uidValid u then .err .EINVAL
  else if u = 0 then .ok none
  else nameOf c (db.user u) u

/-- src/caencoder.c:1242-1292 `gid_to_name`: no check of the id first. -/
def gidToName (c : Cfg) (db : Names) (g : Nat) : Res (Option Bytes) :=
  if g = 0 then .ok none
  else nameOf c (db.group g) g

/-- `e->cached_user_name`, `cached_uid` etc., src/caencoder.c:181-185. -/
structure Cache where
  userName : Option Bytes := none
  uid : Nat := uidInvalid
  groupName : Option Bytes := none
  gid : Nat := uidInvalid
  deriving DecidableEq, Repr

/-- src/caencoder.c:1667-1677: the first half of `ca_encoder_node_read_user_group_names`. -/
def readUser (c : Cfg) (db : Names) (k : Cache) (u : Nat) : Res Cache :=
  if k.userName = none ∨ k.uid ≠ u then
    match uidToName c db u with
    | .ok n => .ok { k with userName := n, uid := u }
    | .err e => .err e
    | .ub => .ub
  else .ok k

/-- src/caencoder.c:1679-1689: the second half. -/
def readGroup (c : Cfg) (db : Names) (k : Cache) (g : Nat) : Res Cache :=
  if k.groupName = none ∨ k.gid ≠ g then
    match gidToName c db g with
    | .ok n => .ok { k with groupName := n, gid := g }
    | .err e => .err e
    | .ub => .ub
  else .ok k

/-- src/caencoder.c:1650-1692 `ca_encoder_node_read_user_group_names`; the cache is kept from one object to the next. -/
def readNames (c : Cfg) (db : Names) (k : Cache) (m : Meta) : Res Cache :=
  if !has c.ff withUserNames then .ok k
  else if m.mode = 0#64 then .err .EINVAL
  else match readUser c db k m.uid with
    | .ok k => readGroup c db k m.gid
    | .err e => .err e
    | .ub => .ub

/-- What the USER record says: src/caencoder.c:2599 and 2681. -/
def cachedUser (k : Cache) (m : Meta) : Option Bytes := if m.uid = k.uid then k.userName else none

/-- What the GROUP record says: src/caencoder.c:2602 and 2691. -/
def cachedGroup (k : Cache) (m : Meta) : Option Bytes := if m.gid = k.gid then k.groupName else none

/-! ### ACLs -/

/-- What `ca_encoder_node_process_acl()` has collected, src/caencoder.c:1358-1361; `none` is `UINT64_MAX`. -/
structure AclAcc where
  users : List AclEnt := []
  groups : List AclEnt := []
  userObj : Option Nat := none
  groupObj : Option Nat := none
  other : Option Nat := none
  mask : Option Nat := none
  deriving DecidableEq, Repr

/-- src/caencoder.c:1416-1440 (users; `uid_to_name()` is called for the unshifted id) and 1442-1475 (groups): the entry for a named user or
group. -/
def aclEnt (c : Cfg) (toName : Nat → Res (Option Bytes)) (q perm : Nat) : Res AclEnt :=
  if !uidValid q then .err .EINVAL
  else if !uidValid (shiftUid c q) then .err .EINVAL
  else if has c.ff with16BitUids && decide (shiftUid c q > 65535) then .err .EPROTONOSUPPORT
  else
    let id := if has c.ff withIds then shiftUid c q else 0
    if has c.ff withUserNames then
      match toName q with
      | .ok n => .ok { id := id, perm := perm, name := n }
      | .err e => .err e
      | .ub => .ub
    else .ok { id := id, perm := perm, name := none }

/-- src/caencoder.c:1387-1480: the loop over the entries. -/
def processItems (c : Cfg) (db : Names) : List AclItem → AclAcc → Res AclAcc
  | [], acc => .ok acc
  | i :: rest, acc =>
    match i.tag with
    | .userObj => processItems c db rest { acc with userObj := some i.perm }
    | .groupObj => processItems c db rest { acc with groupObj := some i.perm }
    | .other => processItems c db rest { acc with other := some i.perm }
    | .mask => processItems c db rest { acc with mask := some i.perm }
    | .user q =>
      match aclEnt c (uidToName c db) q i.perm with
      | .ok a => processItems c db rest { acc with users := acc.users ++ [a] }
      | .err e => .err e
      | .ub => .ub
    | .group q =>
      match aclEnt c (gidToName c db) q i.perm with
      | .ok a => processItems c db rest { acc with groups := acc.groups ++ [a] }
      | .err e => .err e
      | .ub => .ub

/-- `compare_acl_entry(a, b) <= 0`, src/caencoder.c:1295-1321. -/
def aclLe (a b : AclEnt) : Bool := !aclLt b a

/-- src/caencoder.c:1484-1487: the sorting.  (Entries that compare equal are equal, so any `qsort()` gives the same.) -/
def sortAcl (l : List AclEnt) : List AclEnt := l.mergeSort aclLe

/-- What the ACL records say. -/
structure AclOut where
  users : List AclEnt := []
  groups : List AclEnt := []
  groupObj : Option Nat := none
  dfl : Option AclDef := none
  defUsers : List AclEnt := []
  defGroups : List AclEnt := []
  deriving DecidableEq, Repr

/-- src/caencoder.c:2724-2746: the ACL_DEFAULT record is written if any of the four is set; an unset one is `UINT64_MAX`. -/
def defOf (acc : AclAcc) : Option AclDef :=
  if acc.userObj.isSome || acc.groupObj.isSome || acc.other.isSome || acc.mask.isSome then
    some { user := acc.userObj.getD u64max, group := acc.groupObj.getD u64max, other := acc.other.getD u64max, mask := acc.mask.getD u64max }
  else none

/-- src/caencoder.c:1497-1498: the owning group is stored only if there is a mask. -/
def storedGroupObj (acc : AclAcc) : Option Nat := if acc.groupObj.isSome && acc.mask.isSome then acc.groupObj else none

/-- src/caencoder.c:1523-1648 `ca_encoder_node_read_acl` with 1352-1521 `ca_encoder_node_process_acl`. -/
def readAcl (c : Cfg) (db : Names) (m : Meta) : Res AclOut :=
  if !has c.ff withAcl then .ok {}
  else if isType m.mode ifLnk then .ok {}
  else match processItems c db (aclOf m) {} with
    | .err e => .err e
    | .ub => .ub
    | .ok x =>
      if isType m.mode ifDir then
        match processItems c db (defAclOf m) {} with
        | .err e => .err e
        | .ub => .ub
        | .ok y => .ok { users := sortAcl x.users, groups := sortAcl x.groups, groupObj := storedGroupObj x,
                         dfl := defOf y, defUsers := sortAcl y.users, defGroups := sortAcl y.groups }
      else .ok { users := sortAcl x.users, groups := sortAcl x.groups, groupObj := storedGroupObj x }

/-! ### Extended attributes -/

/-- "user." -/
def userPrefix : Bytes := [117, 115, 101, 114, 46]
/-- "trusted." -/
def trustedPrefix : Bytes := [116, 114, 117, 115, 116, 101, 100, 46]
/-- "security.capability" -/
def capName : Bytes := [115, 101, 99, 117, 114, 105, 116, 121, 46, 99, 97, 112, 97, 98, 105, 108, 105, 116, 121]

/-- src/cautil.c:229-240 `ca_xattr_name_store`. -/
def xattrStore (n : Bytes) : Bool := xattrNameValid n && (userPrefix.isPrefixOf n || trustedPrefix.isPrefixOf n)

/-- `compare_xattr(a, b) <= 0`, src/caencoder.c:840-849. -/
def xattrLe (a b : Bytes × Bytes) : Bool := !strLt b.1 a.1

/-- src/caencoder.c:851-1080 `ca_encoder_node_read_xattrs`, the attributes (the list is read only if one of the two flags is set, and not for
symbolic links), and 2701: they are stored only under `WITH_XATTRS`.  Objects other than files and directories have been opened with `O_PATH` only,
and `flistxattr()` says EBADF, which counts as none. -/
def readXattrs (c : Cfg) (m : Meta) : List (Bytes × Bytes) :=
  if !(isType m.mode ifDir || isType m.mode ifReg) || !has c.ff withXattrs then []
  else (m.xattrs.filter (fun x => xattrStore x.1)).mergeSort xattrLe

/-- The value of an extended attribute. -/
def xattrValue (m : Meta) (n : Bytes) : Option Bytes := (m.xattrs.find? (fun x => x.1 == n)).map (·.2)

/-- The same function, the file capabilities, and 2758-2766. -/
def readFcaps (c : Cfg) (m : Meta) : Option Bytes :=
  if isType m.mode ifReg && has c.ff withFcaps then xattrValue m capName else none

/-! ### The ENTRY record -/

/-- src/time-util.h:22-29 `timespec_to_nsec`. -/
def timespecToNsec (sec nsec : Int) : Nat :=
  if sec = -1 ∧ nsec = -1 then u64max
  else ((sec * 1000000000 + nsec) % 18446744073709551616).toNat

/-- src/caencoder.c:2394-2408 `ca_encoder_fixup_mtime`. -/
def fixupMtime (c : Cfg) (m : Meta) : Nat :=
  if c.gran = u64max then 0
  else timespecToNsec m.sec m.nsec / c.gran * c.gran

/-- src/caencoder.c:2410-2428 `ca_encoder_fixup_mode`. -/
def fixupMode (c : Cfg) (m : Meta) : Word :=
  if isType m.mode ifLnk then ifLnk ||| 0x1ff#64
  else if has c.ff (withPermissions ||| withAcl) then m.mode &&& (ifmt ||| 0xfff#64)
  else if has c.ff withReadOnly then
    (m.mode &&& ifmt) ||| (if has m.mode 0x92#64 then (if isType m.mode ifDir then 0x1ff#64 else 0x1b6#64)
      else (if isType m.mode ifDir then 0x16d#64 else 0x124#64))
  else (m.mode &&& ifmt) ||| (if isType m.mode ifDir then 0x1ff#64 else 0x1b6#64)

/-- src/caformat-util.c:313-325 `chattr_map`: feature flag, chattr(1) flag. -/
def chattrMap : List (Word × Word) :=
  [(withFlagAppend, 0x20#64), (withFlagNoatime, 0x80#64), (withFlagCompr, 0x4#64), (withFlagNocow, 0x800000#64), (withFlagNodump, 0x40#64),
   (withFlagDirsync, 0x10000#64), (withFlagImmutable, 0x10#64), (withFlagSync, 0x8#64), (withFlagNocomp, 0x400#64),
   (withFlagProjinherit, 0x20000000#64)]

/-- src/caformat-util.c:349-356 `fat_attrs_map`. -/
def fatMap : List (Word × Word) := [(withFlagHidden, 0x2#64), (withFlagSystem, 0x4#64), (withFlagArchive, 0x20#64)]

/-- src/caformat-util.c:326-335 `ca_feature_flags_from_chattr`, 358-367 `ca_feature_flags_from_fat_attrs`. -/
def fromMap (map : List (Word × Word)) (flags : Word) : Word := map.foldl (fun f x => if has flags x.2 then f ||| x.1 else f) 0#64

/-- src/caformat-util.c:337-347 `ca_feature_flags_to_chattr`, 369-379 `ca_feature_flags_to_fat_attrs`. -/
def toMap (map : List (Word × Word)) (flags : Word) : Word := map.foldl (fun f x => if has flags x.1 then f ||| x.2 else f) 0#64

/-- `CA_FORMAT_WITH_CHATTR`, src/caformat.h:177-187: bits 16..25. -/
abbrev withChattr : Word := 0x3ff0000#64
/-- `CA_FORMAT_WITH_FAT_ATTRS`, src/caformat.h:189-192: bits 13..15. -/
abbrev withFatAttrs : Word := 0xe000#64

/-- src/caencoder.c:2567-2590: the flags of the ENTRY record. -/
def entryFlags (c : Cfg) (m : Meta) : Word :=
  let fileOrDir := isType m.mode ifDir || isType m.mode ifReg
  let f := if fileOrDir && has c.ff withChattr then fromMap chattrMap m.chattr &&& c.ff else 0#64
  let f := if fileOrDir && has c.ff withFatAttrs then f ||| (fromMap fatMap m.fat &&& c.ff) else f
  if isType m.mode ifDir && has c.ff withSubvolume then
    f ||| (((if m.subvol then withSubvolume else 0#64) ||| (if m.subvolRo then withSubvolumeRo else 0#64)) &&& c.ff)
  else f

/-- src/caencoder.c:2541-2562: the ids of the ENTRY record. -/
def entryIds (c : Cfg) (m : Meta) : Res (Nat × Nat) :=
  if has c.ff withIds then
    if !uidValid (shiftUid c m.uid) then .err .EINVAL
    else if !uidValid (shiftUid c m.gid) then .err .EINVAL
    else if has c.ff with16BitUids && (decide (shiftUid c m.uid > 65535) || decide (shiftUid c m.gid > 65535)) then .err .EPROTONOSUPPORT
    else .ok (shiftUid c m.uid, shiftUid c m.gid)
  else .ok (0, 0)

/-- src/caencoder.c:2564-2577: object types that are not to be stored are refused. -/
def typeRefused (c : Cfg) (m : Meta) : Bool :=
  (!has c.ff withSymlinks && isType m.mode ifLnk) ||
  (!has c.ff withDeviceNodes && (isType m.mode ifBlk || isType m.mode ifChr)) ||
  (!has c.ff withFifos && isType m.mode ifFifo) ||
  (!has c.ff withSockets && isType m.mode ifSock)

/-- src/caencoder.c:817-838 `ca_encoder_node_read_quota_projid` and 2768-2777. -/
def readQuota (c : Cfg) (m : Meta) : Option Nat :=
  if (isType m.mode ifDir || isType m.mode ifReg) && has c.ff withQuotaProjid && m.projid != 0 then some m.projid else none

/-- src/caencoder.c:740-784 `ca_encoder_node_read_selinux_label`. -/
def readSelinux (c : Cfg) (m : Meta) : Option Bytes := if has c.ff withSelinux then m.selinux else none

/-- The first part of src/caencoder.c:2509-2816 `ca_encoder_get_entry_data`, up to 2597: everything that is put into the records, and the name
cache for the next object. -/
def gather (c : Cfg) (db : Names) (k : Cache) (m : Meta) : Res (Entry × Attrs × Cache) :=
  match Meta.readAcl c db m with
  | .err e => .err e
  | .ub => .ub
  | .ok acl =>
    match readNames c db k m with
    | .err e => .err e
    | .ub => .ub
    | .ok k =>
      match entryIds c m with
      | .err e => .err e
      | .ub => .ub
      | .ok (uid, gid) =>
        if typeRefused c m then .err .EPROTONOSUPPORT
        else .ok ({ ff := c.ff, mode := fixupMode c m, flags := entryFlags c m, uid := uid, gid := gid, mtime := fixupMtime c m },
          { user := cachedUser k m, group := cachedGroup k m, xattrs := readXattrs c m,
            aclUser := acl.users, aclGroup := acl.groups, groupObj := acl.groupObj, aclDefault := acl.dfl,
            defUser := acl.defUsers, defGroup := acl.defGroups,
            selinux := readSelinux c m, fcaps := readFcaps c m, quota := readQuota c m }, k)

/-! ### Trees -/

mutual
/-- A tree of objects as the file system has it. -/
inductive FsTree
  | file (m : Meta) (api : Bool) (content : Bytes)
  | symlink (m : Meta) (target : Bytes)
  | device (m : Meta) (major minor : Nat)
  | special (m : Meta)
  | dir (m : Meta) (api : Bool) (kids : FsKids)
inductive FsKids
  | nil
  | cons (keep : Bool) (name : Bytes) (t : FsTree) (rest : FsKids)
end

mutual
/-- The tree the encoder's state machine (`Model/Encoder.lean`) walks over: each object with the metadata `gather` has found, the name cache
handed on in the order of the walk.  Entries that are not stored, and all entries of a directory on an API file system, are not looked at. -/
def survey (c : Cfg) (db : Names) (k : Cache) : FsTree → Res (Tree × Cache)
  | .file m api content => match gather c db k m with
    | .ok (e, a, k) => .ok (.file e a api content, k)
    | .err e => .err e
    | .ub => .ub
  | .symlink m target => match gather c db k m with
    | .ok (e, a, k) => .ok (.symlink e a target, k)
    | .err e => .err e
    | .ub => .ub
  | .device m ma mi => match gather c db k m with
    | .ok (e, a, k) => .ok (.device e a ma mi, k)
    | .err e => .err e
    | .ub => .ub
  | .special m => match gather c db k m with
    | .ok (e, a, k) => .ok (.special e a, k)
    | .err e => .err e
    | .ub => .ub
  | .dir m true _ => match gather c db k m with
    | .ok (e, a, k) => .ok (.dir e a true .nil, k)
    | .err e => .err e
    | .ub => .ub
  | .dir m false kids => match gather c db k m with
    | .ok (e, a, k) => (match surveyKids c db k kids with
      | .ok (ks, k) => .ok (.dir e a false ks, k)
      | .err e => .err e
      | .ub => .ub)
    | .err e => .err e
    | .ub => .ub
def surveyKids (c : Cfg) (db : Names) (k : Cache) : FsKids → Res (Kids × Cache)
  | .nil => .ok (.nil, k)
  | .cons false _ _ rest => surveyKids c db k rest
  | .cons true name t rest => match survey c db k t with
    | .ok (t, k) => (match surveyKids c db k rest with
      | .ok (ks, k) => .ok (.cons true name t ks, k)
      | .err e => .err e
      | .ub => .ub)
    | .err e => .err e
    | .ub => .ub
end

end Casync.Meta
