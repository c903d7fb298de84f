import Verif.Model.Restore
import Verif.Spec.Meta
/-!
What it means that an object has got the metadata of another one, as far as the feature flags say.
-/
namespace Casync.Meta
open Casync Flags Archive

/-- An id of the range that is stored: at least `shift`, and below `shift + range` if there is a range. -/
def InRange (shift range u : Nat) : Prop := shift ≤ u ∧ (range ≠ 0 → u < shift + range)

/-- The ids that are stored of an object are of the range. -/
structure IdsInRange (c : Cfg) (m : Meta) : Prop where
  owner : has c.ff withIds = true → InRange c.shift c.range m.uid ∧ InRange c.shift c.range m.gid
  users : has c.ff withAcl = true → ∀ u ∈ namedUsers m, InRange c.shift c.range u
  groups : has c.ff withAcl = true → ∀ u ∈ namedGroups m, InRange c.shift c.range u

/-- Names and ids belong together. -/
structure Inverse (db : Names) : Prop where
  user : ∀ u n, db.user u = some n → db.uid n = some u
  group : ∀ u n, db.group u = some n → db.gid n = some u

/-- Two access ACLs say the same: the order of the entries does not matter. -/
inductive SameExt : Option ExtAcl → Option ExtAcl → Prop
  | none : SameExt none none
  | some {a b : ExtAcl} : a.users.Perm b.users → a.groups.Perm b.groups → a.groupObj = b.groupObj → SameExt (some a) (some b)

/-- Two default ACLs say the same. -/
inductive SameDfl : Option DefAcl → Option DefAcl → Prop
  | none : SameDfl none none
  | some {a b : DefAcl} : a.users.Perm b.users → a.groups.Perm b.groups → a.user = b.user → a.group = b.group → a.other = b.other → a.mask = b.mask →
      SameDfl (some a) (some b)

/-- The object `m'` has the metadata of `m`, as far as the flags `ff` say. -/
structure Same (ff : Word) (m m' : Meta) : Prop where
  /-- the same type of object -/
  type : m'.mode &&& ifmt = m.mode &&& ifmt
  /-- owner and group, if ids or names are stored -/
  owner : has ff (withIds ||| withUserNames) = true → m'.uid = m.uid ∧ m'.gid = m.gid
  /-- the twelve permission bits, if these or ACLs are stored -/
  perm : has ff (withPermissions ||| withAcl) = true → isType m.mode ifLnk = false → m'.mode &&& 0xfff#64 = m.mode &&& 0xfff#64
  /-- the ACLs, if stored -/
  acl : has ff withAcl = true → isType m.mode ifLnk = false → SameExt m.ext m'.ext
  defaultAcl : has ff withAcl = true → isType m.mode ifDir = true → SameDfl m.dfl m'.dfl
  /-- extended attributes that can be stored -/
  xattr : has ff withXattrs = true → isType m.mode ifDir = true ∨ isType m.mode ifReg = true → ∀ n, xattrStore n = true → xattrValue m' n = xattrValue m n
  /-- file capabilities -/
  fcaps : has ff withFcaps = true → isType m.mode ifReg = true → xattrValue m' capName = xattrValue m capName
  selinux : has ff withSelinux = true → m'.selinux = m.selinux
  /-- the time, up to the granularity that is stored -/
  time : ∀ g, granularity ff = .ok g → timespecToNsec m'.sec m'.nsec / g = timespecToNsec m.sec m.nsec / g
  /-- the chattr(1) flags that are stored -/
  chattr : isType m.mode ifDir = true ∨ isType m.mode ifReg = true → m'.chattr &&& toMap chattrMap ff = m.chattr &&& toMap chattrMap ff
  /-- the FAT attributes that are stored -/
  fat : isType m.mode ifDir = true ∨ isType m.mode ifReg = true → m'.fat &&& toMap fatMap ff = m.fat &&& toMap fatMap ff
  /-- is it a btrfs subvolume, and a read only one? -/
  subvol : has ff withSubvolume = true → isType m.mode ifDir = true → m'.subvol = m.subvol
  subvolRo : has ff withSubvolume = true → has ff withSubvolumeRo = true → isType m.mode ifDir = true → m.subvol = true → m'.subvolRo = m.subvolRo

/-- What a file system cannot do, its objects do not have; only directories are subvolumes; and what `futimens()` leaves is a time. -/
structure FsHas (fs : Fs) (m : Meta) : Prop where
  acl : fs.acl = false → m.ext = none ∧ m.dfl = none
  xattr : fs.xattr = false → m.xattrs = []
  selinux : fs.selinux = false → m.selinux = none
  chattr : fs.chattr = false → m.chattr = 0#64
  fat : fs.fat = false → m.fat = 0#64
  subvol : m.subvol = true → isType m.mode ifDir = true
  /-- symbolic links are always rwxrwxrwx -/
  link : isType m.mode ifLnk = true → m.mode &&& 0xfff#64 = 0x1ff#64

/-- The names in the decoder's cache are in the user database. -/
structure RCacheOK (db : Names) (k : RCache) : Prop where
  user : ∀ n u, k.user = some (n, u) → db.uid n = some u
  group : ∀ n u, k.group = some (n, u) → db.gid n = some u

end Casync.Meta
