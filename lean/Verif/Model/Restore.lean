import Verif.Model.Meta
/-!
How the decoder of `src/cadecoder.c` puts the metadata of an archive on an object: the end of `ca_decoder_realize_child()` and
`ca_decoder_finalize_child()`.

The object is a `Meta` and the system calls change it.  A system call that fails makes the function fail at once, with the exceptions that are
modelled (file systems that do not know ACLs, attributes, chattr flags …), so other failures are not modelled: the properties are about what holds
when the function succeeds.  The kernel is assumed to do what it is told (casync runs with all capabilities), except that `fchown()` may clear the
set-id bits and remove the file capabilities, and that `futimens()` may round (`Fs`).  The target of a symbolic link and the number of a device
(3583-3609), the deletion of other entries (3611-3615) and the renaming into place (3952-3963) are not metadata and not here.
-/
namespace Casync.Meta
open Casync Flags Archive

/-- What the file system can do, and what it does with modes on `fchown()` and with times on `futimens()`. -/
structure Fs where
  acl : Bool := true
  xattr : Bool := true
  selinux : Bool := true
  chattr : Bool := true
  /-- `MSDOS_SUPER_MAGIC` or `FUSE_SUPER_MAGIC` -/
  fat : Bool := false
  /-- which of the set-user-id and set-group-id bits are cleared by `fchown()` -/
  chownClear : Word → Word := fun _ => 0#64
  chownCaps : Bool := true
  round : Int × Int → Int × Int := id

/-- The decoder's settings: `replay_feature_flags`, `uid_shift`, `uid_range`, src/cadecoder.c:165, 225-226. -/
structure RCfg where
  replay : Word
  shift : Nat := 0
  range : Nat := 0
  deriving DecidableEq, Repr

/-! ### Ids -/

/-- src/cadecoder.c:2928-2951 `ca_decoder_shift_uid`, `ca_decoder_shift_gid`, in 32 bit arithmetic. -/
def unshiftUid (c : RCfg) (u : Nat) : Nat :=
  if !uidValid u then uidInvalid
  else
    let r := if c.range ≠ 0 then u % c.range else u
    if (c.shift + r) % 2 ^ 32 < c.shift then uidInvalid
    else (c.shift + r) % 2 ^ 32

/-- src/util.c:1067-1088 `parse_uid`. -/
def parseUid (s : Bytes) : Res Nat :=
  match Number.atou s with
  | .ok v => if uidValid v then .ok v else .err .ENXIO
  | .err e => .err e
  | .ub => .ub

/-- `d->cached_user_name`, `cached_uid` etc., src/cadecoder.c:202-206. -/
structure RCache where
  user : Option (Bytes × Nat) := none
  group : Option (Bytes × Nat) := none
  deriving DecidableEq, Repr

/-- src/cadecoder.c:2953-3005 `name_to_uid` without the cache: the number if it is one, else the database (`look`); whether the result is to be
cached. -/
def lookUp (c : RCfg) (look : Bytes → Option Nat) (name : Bytes) : Res (Nat × Bool) :=
  match parseUid name with
  | .ok v => if uidValid (unshiftUid c v) then .ok (unshiftUid c v, false) else .err .EINVAL
  | _ =>
    match look name with
    | some u => .ok (u, true)
    | none => .err .ESRCH

/-- src/cadecoder.c:2953-3005 `name_to_uid`.  (The name that is cached is the database's, `pw_name`; here it is the name that was asked for.) -/
def nameToUid (c : RCfg) (db : Names) (k : RCache) (name : Bytes) : Res (Nat × RCache) :=
  match k.user with
  | some (n, u) =>
    if n = name then .ok (u, k)
    else (match lookUp c db.uid name with
      | .ok (v, keep) => .ok (v, if keep then { k with user := some (name, v) } else k)
      | .err e => .err e
      | .ub => .ub)
  | none =>
    match lookUp c db.uid name with
    | .ok (v, keep) => .ok (v, if keep then { k with user := some (name, v) } else k)
    | .err e => .err e
    | .ub => .ub

/-- src/cadecoder.c:3007-3059 `name_to_gid`. -/
def nameToGid (c : RCfg) (db : Names) (k : RCache) (name : Bytes) : Res (Nat × RCache) :=
  match k.group with
  | some (n, u) =>
    if n = name then .ok (u, k)
    else (match lookUp c db.gid name with
      | .ok (v, keep) => .ok (v, if keep then { k with group := some (name, v) } else k)
      | .err e => .err e
      | .ub => .ub)
  | none =>
    match lookUp c db.gid name with
    | .ok (v, keep) => .ok (v, if keep then { k with group := some (name, v) } else k)
    | .err e => .err e
    | .ub => .ub

/-- An id that is stored as a name (used if there is one) or as a number: src/cadecoder.c:3622-3632, 3634-3644, 3103-3113, 3133-3143.  A stored number
is cut to 32 bit. -/
def wantedId (c : RCfg) (toId : RCache → Bytes → Res (Nat × RCache)) (k : RCache) (name : Option Bytes) (id : Nat) : Res (Nat × RCache) :=
  match name with
  | some n => toId k n
  | none => if uidValid (unshiftUid c (id % 2 ^ 32)) then .ok (unshiftUid c (id % 2 ^ 32), k) else .err .EINVAL

/-- The name is used only under `WITH_USER_NAMES`. -/
def usedName (c : RCfg) (n : Option Bytes) : Option Bytes := if has c.replay withUserNames then n else none

/-- src/cadecoder.c:3618-3671: owner and group; after `fchown()` the mode is read again. -/
def restoreOwner (c : RCfg) (db : Names) (fs : Fs) (k : RCache) (e : Entry) (a : Attrs) (m : Meta) : Res (Meta × RCache) :=
  if has c.replay (withIds ||| withUserNames) then
    match wantedId c (nameToUid c db) k (usedName c a.user) e.uid with
    | .err x => .err x
    | .ub => .ub
    | .ok (uid, k) =>
      match wantedId c (nameToGid c db) k (usedName c a.group) e.gid with
      | .err x => .err x
      | .ub => .ub
      | .ok (gid, k) =>
        if m.uid ≠ uid ∨ m.gid ≠ gid then
          .ok ({ m with uid := uid, gid := gid, mode := m.mode &&& ~~~(fs.chownClear m.mode &&& 0xc00#64),
                        xattrs := if fs.chownCaps then m.xattrs.filter (fun x => x.1 != capName) else m.xattrs }, k)
        else .ok (m, k)
  else .ok (m, k)

/-! ### Mode and ACLs -/

/-- `fchmod()`; for objects that are not open `fchmodat(dir_fd, name, …, 0)`, which follows symbolic links: for one of these it would change some other
object, an outcome of its own here. -/
def chmod (m : Meta) (bits : Word) : Res Meta :=
  if isType m.mode ifLnk then .ub else .ok { m with mode := (m.mode &&& ~~~(0xfff#64)) ||| (bits &&& 0xfff#64) }

/-- src/cadecoder.c:3679-3694, the new mode under `WITH_READ_ONLY`. -/
def readOnlyMode (e : Entry) (m : Meta) : Word :=
  let n := (m.mode &&& 0x124#64) ||| 0x100#64
  let n := if isType m.mode ifDir then n ||| 0x40#64 else n
  if has e.mode 0x92#64 then
    n ||| 0x80#64 ||| (if has n 0x20#64 then 0x10#64 else 0#64) ||| (if has n 0x4#64 then 0x2#64 else 0#64)
  else n &&& ~~~(0x124#64)

/-- src/cadecoder.c:3673-3718: the permissions. -/
def restoreMode (c : RCfg) (e : Entry) (m : Meta) : Res Meta :=
  if has c.replay withReadOnly then
    if !has m.mode 0x100#64 || (isType m.mode ifDir && !has m.mode 0x40#64) || (!has e.mode 0x92#64) != (!has m.mode 0x80#64) then
      chmod m (readOnlyMode e m)
    else .ok m
  else if has c.replay (withPermissions ||| withAcl) then
    if (m.mode &&& 0xfff#64) ≠ (e.mode &&& 0xfff#64) then chmod m (e.mode &&& 0xfff#64) else .ok m
  else .ok m

/-- src/cadecoder.c:3093-3121 `ca_decoder_acl_add_user_entries` and 3123-3151 `ca_decoder_acl_add_group_entries`. -/
def aclIds (c : RCfg) (toId : RCache → Bytes → Res (Nat × RCache)) : RCache → List AclEnt → Res (List (Nat × Nat) × RCache)
  | k, [] => .ok ([], k)
  | k, x :: rest =>
    match wantedId c toId k x.name x.id with
    | .err e => .err e
    | .ub => .ub
    | .ok (u, k) =>
      match aclIds c toId k rest with
      | .err e => .err e
      | .ub => .ub
      | .ok (l, k) => .ok ((u, x.perm) :: l, k)

/-- Is nobody named twice, and is there a mask if someone is named?  (What `acl_set_file()` and the kernel demand of an ACL.) -/
def aclValid (mask : Bool) (users groups : List (Nat × Nat)) : Bool :=
  decide (users.map (·.1)).Nodup && decide (groups.map (·.1)).Nodup && (mask || (users == [] && groups == []))

/-- The nine bits of a mode from three permissions. -/
def permBits (u g o : Nat) : Word := BitVec.ofNat 64 (u % 8 * 64 + g % 8 * 8 + o % 8)

/-- `acl_set_file(…, ACL_TYPE_ACCESS, …)`: the mode follows the ACL; an ACL without mask is just the mode. -/
def setAcl (m : Meta) (u g o : Nat) (mask : Option Nat) (users groups : List (Nat × Nat)) : Meta :=
  { m with
    mode := (m.mode &&& ~~~(0x1ff#64)) ||| permBits u (mask.getD g) o
    ext := match mask with | none => none | some _ => some { users := users, groups := groups, groupObj := g } }

/-- src/cadecoder.c:3165-3216 `ca_decoder_child_to_acl` and the call of `acl_set_file()`, 3736-3747.  (`users`, `groups`: the entries, whose lists the
code keeps in reverse order, which does not matter.)  Symbolic links have no ACLs, nor have the objects of some file systems; this is an error only
if there is an ACL to be set. -/
def restoreAccess (c : RCfg) (db : Names) (fs : Fs) (k : RCache) (e : Entry) (a : Attrs) (m : Meta) : Res (Meta × RCache) :=
  match aclIds c (nameToUid c db) k a.aclUser with
  | .err x => .err x
  | .ub => .ub
  | .ok (users, k) =>
    match aclIds c (nameToGid c db) k a.aclGroup with
    | .err x => .err x
    | .ub => .ub
    | .ok (groups, k) =>
      if !fs.acl || isType m.mode ifLnk then (if haveAcl a then .err .EOPNOTSUPP else .ok (m, k))
      else if !aclValid a.groupObj.isSome users groups then .err .EINVAL
      else match a.groupObj with
        | some g => .ok (setAcl m (modePerm e.mode 6) g (modePerm e.mode 0) (some (modePerm e.mode 3)) users groups, k)
        | none => .ok (setAcl m (modePerm e.mode 6) (modePerm e.mode 3) (modePerm e.mode 0) none users groups, k)

/-- src/cadecoder.c:3218-3265 `ca_decoder_child_to_default_acl` and the call of `acl_set_file()`, 3751-3768; an empty ACL removes it. -/
def restoreDefault (c : RCfg) (db : Names) (fs : Fs) (k : RCache) (a : Attrs) (m : Meta) : Res (Meta × RCache) :=
  match a.aclDefault with
  | none => if !fs.acl then (if haveAcl a then .err .EOPNOTSUPP else .ok (m, k)) else .ok ({ m with dfl := none }, k)
  | some x =>
    match aclIds c (nameToUid c db) k a.defUser with
    | .err e => .err e
    | .ub => .ub
    | .ok (users, k) =>
      match aclIds c (nameToGid c db) k a.defGroup with
      | .err e => .err e
      | .ub => .ub
      | .ok (groups, k) =>
        if !fs.acl then .err .EOPNOTSUPP
        else if !aclValid (x.mask != u64max) users groups then .err .EINVAL
        else .ok ({ m with dfl := some { user := x.user % 8, group := x.group % 8, other := x.other % 8,
                                         mask := if x.mask = u64max then none else some (x.mask % 8), users := users, groups := groups } }, k)

/-- src/cadecoder.c:3720-3772: both. -/
def restoreAcl (c : RCfg) (db : Names) (fs : Fs) (k : RCache) (e : Entry) (a : Attrs) (m : Meta) : Res (Meta × RCache) :=
  if !has c.replay withAcl then .ok (m, k)
  else match restoreAccess c db fs k e a m with
    | .err x => .err x
    | .ub => .ub
    | .ok (m, k) => if isType m.mode ifDir then restoreDefault c db fs k a m else .ok (m, k)

/-! ### Attributes, labels, times, flags -/

/-- `fsetxattr()`. -/
def setXattr (l : List (Bytes × Bytes)) (x : Bytes × Bytes) : List (Bytes × Bytes) := l.filter (fun y => y.1 != x.1) ++ [x]

/-- Only files and directories have been opened. -/
def hasFd (m : Meta) : Bool := isType m.mode ifDir || isType m.mode ifReg

/-- src/cadecoder.c:3774-3852: attributes that casync can store and that are not in the archive are removed, the others are set. -/
def restoreXattrs (c : RCfg) (fs : Fs) (a : Attrs) (m : Meta) : Res Meta :=
  if !(has c.replay withXattrs && !isType m.mode ifLnk && hasFd m) then .ok m
  else if !fs.xattr && a.xattrs != [] then .err .EOPNOTSUPP
  else .ok { m with xattrs := a.xattrs.foldl setXattr (m.xattrs.filter (fun x => !xattrStore x.1 || a.xattrs.any (fun y => y.1 == x.1))) }

/-- src/cadecoder.c:3854-3876: the file capabilities. -/
def restoreFcaps (c : RCfg) (fs : Fs) (a : Attrs) (m : Meta) : Res Meta :=
  if !(has c.replay withFcaps && isType m.mode ifReg && hasFd m) then .ok m
  else match a.fcaps with
    | some v => if !fs.xattr then .err .EOPNOTSUPP else .ok { m with xattrs := setXattr m.xattrs (capName, v) }
    | none => .ok { m with xattrs := m.xattrs.filter (fun x => x.1 != capName) }

/-- src/cadecoder.c:3878-3933: the SELinux label.  (A label is removed with `fremovexattr()` or, for objects that are not open, `lremovexattr()`.) -/
def restoreSelinux (c : RCfg) (fs : Fs) (a : Attrs) (m : Meta) : Res Meta :=
  if !has c.replay withSelinux then .ok m
  else if !fs.selinux then (if a.selinux.isSome then .err .EOPNOTSUPP else .ok m)
  else .ok { m with selinux := a.selinux }

/-- `CA_FORMAT_WITH_SEC_TIME|CA_FORMAT_WITH_USEC_TIME|CA_FORMAT_WITH_NSEC_TIME|CA_FORMAT_WITH_2SEC_TIME`. -/
abbrev withTimes : Word := withSecTime ||| withUsecTime ||| withNsecTime ||| with2SecTime

/-- src/time-util.h:31-43 `nsec_to_timespec`. -/
def nsecToTimespec (u : Nat) : Int × Int := if u = u64max then (-1, -1) else (((u / 1000000000 : Nat) : Int), ((u % 1000000000 : Nat) : Int))

/-- src/cadecoder.c:3935-3950: the time. -/
def restoreTime (c : RCfg) (fs : Fs) (e : Entry) (m : Meta) : Meta :=
  if has c.replay withTimes then
    { m with sec := (fs.round (nsecToTimespec e.mtime)).1, nsec := (fs.round (nsecToTimespec e.mtime)).2 }
  else m

/-- src/chattr.c:43-60 `mask_attr_fd` with 27-40 `write_attr_fd`, 93-110 `mask_fat_attr_fd`: the new flags.  A file system that does not know the flags
has none (`old = 0`). -/
def maskAttr (supported : Bool) (old value mask : Word) : Res Word :=
  if mask = 0#64 then .ok old
  else
    let new := (old &&& ~~~mask) ||| (value &&& mask)
    if new = old then .ok old
    else if supported then .ok new
    else if new = 0#64 then .ok old
    else .err .EOPNOTSUPP

/-- src/cadecoder.c:3965-3974: the chattr(1) flags. -/
def restoreChattr (c : RCfg) (fs : Fs) (e : Entry) (m : Meta) : Res Meta :=
  if has c.replay withChattr && hasFd m then
    match maskAttr fs.chattr m.chattr (toMap chattrMap e.flags) (toMap chattrMap c.replay) with
    | .ok w => .ok { m with chattr := w }
    | .err x => .err x
    | .ub => .ub
  else .ok m

/-- src/cadecoder.c:3976-3990: the FAT attributes. -/
def restoreFat (c : RCfg) (fs : Fs) (e : Entry) (m : Meta) : Res Meta :=
  if has c.replay withFatAttrs && hasFd m then
    if fs.fat then
      match maskAttr true m.fat (toMap fatMap e.flags) (toMap fatMap c.replay) with
      | .ok w => .ok { m with fat := w }
      | .err x => .err x
      | .ub => .ub
    else if toMap fatMap e.flags &&& toMap fatMap c.replay ≠ 0#64 then .err .EOPNOTSUPP
    else .ok m
  else .ok m

/-- src/cadecoder.c:3992-4016: is it a subvolume as it should be, and the read only flag. -/
def restoreSubvol (c : RCfg) (e : Entry) (m : Meta) : Res Meta :=
  if has c.replay withSubvolume then
    if has e.flags withSubvolume != m.subvol then .err .EEXIST
    else if has c.replay withSubvolumeRo && m.subvol && hasFd m then .ok { m with subvolRo := has e.flags withSubvolumeRo }
    else .ok m
  else .ok m

/-- src/cadecoder.c:4018-4041: the file system must not have rounded the time too much. -/
def checkTime (c : RCfg) (e : Entry) (m : Meta) : Res Meta :=
  if has c.replay withTimes then
    match granularity c.replay with
    | .ok g => if timespecToNsec m.sec m.nsec / g = e.mtime / g then .ok m else .err .EOPNOTSUPP
    | .err x => .err x
    | .ub => .ub
  else .ok m

/-- src/cadecoder.c:3548-3557: objects of types that are not to be restored are left alone. -/
def notReplayed (c : RCfg) (e : Entry) : Bool :=
  (isType e.mode ifLnk && !has c.replay withSymlinks) ||
  (isType e.mode ifFifo && !has c.replay withFifos) ||
  (isType e.mode ifSock && !has c.replay withSockets) ||
  ((isType e.mode ifBlk || isType e.mode ifChr) && !has c.replay withDeviceNodes)

/-- src/cadecoder.c:3507-4043 `ca_decoder_finalize_child`, the metadata. -/
def finalize (c : RCfg) (db : Names) (fs : Fs) (k : RCache) (e : Entry) (a : Attrs) (m : Meta) : Res (Meta × RCache) :=
  if notReplayed c e then .ok (m, k)
  else if (m.mode &&& ifmt) ≠ (e.mode &&& ifmt) then .err .EEXIST
  else do
    let (m, k) ← restoreOwner c db fs k e a m
    let m ← restoreMode c e m
    let (m, k) ← restoreAcl c db fs k e a m
    let m ← restoreXattrs c fs a m
    let m ← restoreFcaps c fs a m
    let m ← restoreSelinux c fs a m
    let m := restoreTime c fs e m
    let m ← restoreChattr c fs e m
    let m ← restoreFat c fs e m
    let m ← restoreSubvol c e m
    let m ← checkTime c e m
    return (m, k)

/-- `APPLY_EARLY_FS_FL`, src/cadecoder.c:50-55. -/
abbrev applyEarly : Word := 0x80#64 ||| 0x4#64 ||| 0x800000#64 ||| 0x400#64 ||| 0x20000000#64

/-- src/cadecoder.c:2903-2922, the end of `ca_decoder_realize_child`: what is set on an object before it has its content.  The project id is written
if there is one in the archive (`write_quota_projid`, src/quota-projid.c:29-54).  The function is not called for the root directory
(src/cadecoder.c:4098-4105). -/
def early (c : RCfg) (fs : Fs) (e : Entry) (a : Attrs) (m : Meta) : Res Meta :=
  if !hasFd m then .ok m
  else match maskAttr fs.chattr m.chattr (toMap chattrMap e.flags) (toMap chattrMap c.replay &&& applyEarly) with
    | .err x => .err x
    | .ub => .ub
    | .ok w =>
      let m := { m with chattr := w }
      match a.quota with
      | some q => if has c.replay withQuotaProjid then .ok { m with projid := q % 2 ^ 32 } else .ok m
      | none => .ok m

end Casync.Meta
