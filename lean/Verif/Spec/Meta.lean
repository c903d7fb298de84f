import Verif.Model.Meta
import Verif.Spec.Archive
/-!
What a file system may say about an object, and which of this an archive can hold.
-/
namespace Casync.Meta
open Casync Flags Archive

/-- A valid access ACL: permissions are three bits, nobody is named twice. -/
structure ExtOK (a : ExtAcl) : Prop where
  users : ∀ x ∈ a.users, x.2 < 8 ∧ x.1 < 2 ^ 32
  groups : ∀ x ∈ a.groups, x.2 < 8 ∧ x.1 < 2 ^ 32
  usersOnce : (a.users.map (·.1)).Nodup
  groupsOnce : (a.groups.map (·.1)).Nodup
  groupObj : a.groupObj < 8

/-- A valid default ACL: as before, and it has a mask if someone is named. -/
structure DefOK (a : DefAcl) : Prop where
  obj : a.user < 8 ∧ a.group < 8 ∧ a.other < 8
  mask : ∀ p, a.mask = some p → p < 8
  masked : a.users ≠ [] ∨ a.groups ≠ [] → a.mask.isSome = true
  users : ∀ x ∈ a.users, x.2 < 8 ∧ x.1 < 2 ^ 32
  groups : ∀ x ∈ a.groups, x.2 < 8 ∧ x.1 < 2 ^ 32
  usersOnce : (a.users.map (·.1)).Nodup
  groupsOnce : (a.groups.map (·.1)).Nodup

/-- What Linux guarantees about the metadata of an object. -/
structure FsOK (m : Meta) : Prop where
  mode : m.mode &&& ~~~(0xffff#64) = 0#64
  ids : m.uid < 2 ^ 32 ∧ m.gid < 2 ^ 32
  nsec : 0 ≤ m.nsec ∧ m.nsec < 1000000000
  ext : ∀ a, m.ext = some a → ExtOK a
  dfl : ∀ a, m.dfl = some a → DefOK a
  xattrOnce : (m.xattrs.map (·.1)).Nodup
  xattrs : ∀ x ∈ m.xattrs, (0 : UInt8) ∉ x.1 ∧ x.2.length ≤ 65536
  selinux : ∀ s, m.selinux = some s → s ≠ [] ∧ (0 : UInt8) ∉ s ∧ s.length ≤ 4095
  projid : m.projid ≤ 0xffffffff

/-- The modification time in ns since 1970. -/
def mtimeNs (m : Meta) : Int := m.sec * 1000000000 + m.nsec

/-- Users and groups other than number 0 have names that an archive can hold. -/
structure NamesOK (db : Names) : Prop where
  user : ∀ u n, u ≠ 0 → db.user u = some n → NameOK n
  group : ∀ u n, u ≠ 0 → db.group u = some n → NameOK n

/-- The users and the groups that the ACLs name. -/
def namedUsers (m : Meta) : List Nat :=
  (match m.ext with | some a => a.users.map (·.1) | none => []) ++ (match m.dfl with | some a => a.users.map (·.1) | none => [])
def namedGroups (m : Meta) : List Nat :=
  (match m.ext with | some a => a.groups.map (·.1) | none => []) ++ (match m.dfl with | some a => a.groups.map (·.1) | none => [])

/-- What the archive format, as the decoder checks it, demands beyond what Linux guarantees.  Each of these has a counterexample in
`Props/Meta.lean`. -/
structure Fits (c : Cfg) (db : Names) (m : Meta) : Prop where
  /-- The time is not before 1970 and not after 2554, … -/
  time : c.gran ≠ u64max → 0 ≤ mtimeNs m ∧ mtimeNs m < 18446744073709551615
  /-- … and under `WITH_USEC_TIME` a multiple of a ms. -/
  usec : has c.ff withUsecTime = true → (mtimeNs m / 1000) % 1000 = 0
  /-- If there are only names and no ids: no object belongs to user or group 0, … -/
  notRoot : has c.ff withUserNames = true → has c.ff withIds = false → m.uid ≠ 0 ∧ m.gid ≠ 0
  /-- … and all users and groups have names. -/
  known : has c.ff withUserNames = true → has c.ff withIds = false →
    (∀ u, u = m.uid ∨ u ∈ namedUsers m → u ≠ 0 → (db.user u).isSome = true) ∧
    (∀ g, g = m.gid ∨ g ∈ namedGroups m → g ≠ 0 → (db.group g).isSome = true)
  /-- If the range makes several users of the file system the same in the archive, an ACL does not name two of these. -/
  apartUsers : has c.ff withAcl = true → ∀ u v, u ∈ namedUsers m → v ∈ namedUsers m → u ≠ v →
    (has c.ff withIds = true → shiftUid c u ≠ shiftUid c v) ∧ (has c.ff withIds = false → uidToName c db u ≠ uidToName c db v)
  apartGroups : has c.ff withAcl = true → ∀ u v, u ∈ namedGroups m → v ∈ namedGroups m → u ≠ v →
    (has c.ff withIds = true → shiftUid c u ≠ shiftUid c v) ∧ (has c.ff withIds = false → gidToName c db u ≠ gidToName c db v)

/-- The names in the cache are the ones of the ids beside them. -/
structure CacheOK (c : Cfg) (db : Names) (k : Cache) : Prop where
  user : ∀ n, k.userName = some n → has c.ff withUserNames = true ∧ uidToName c db k.uid = .ok (some n)
  group : ∀ n, k.groupName = some n → has c.ff withUserNames = true ∧ gidToName c db k.gid = .ok (some n)

mutual
/-- All objects of a tree are as Linux has them and fit into an archive. -/
def TreeFits (c : Cfg) (db : Names) : FsTree → Prop
  | .file m _ _ => FsOK m ∧ Fits c db m ∧ isType m.mode ifReg = true
  | .symlink m t => FsOK m ∧ Fits c db m ∧ isType m.mode ifLnk = true ∧ t ≠ [] ∧ (0 : UInt8) ∉ t ∧ t.length ≤ 4095
  | .device m x y => FsOK m ∧ Fits c db m ∧ (isType m.mode ifChr = true ∨ isType m.mode ifBlk = true) ∧ x < 2 ^ 12 ∧ y < 2 ^ 20
  | .special m => FsOK m ∧ Fits c db m ∧ (isType m.mode ifFifo = true ∨ isType m.mode ifSock = true)
  | .dir m true _ => FsOK m ∧ Fits c db m ∧ isType m.mode ifDir = true
  | .dir m false kids => FsOK m ∧ Fits c db m ∧ isType m.mode ifDir = true ∧ KidsFit c db kids
def KidsFit (c : Cfg) (db : Names) : FsKids → Prop
  | .nil => True
  | .cons false _ _ r => KidsFit c db r
  | .cons true name t r => SafeName name ∧ TreeFits c db t ∧ KidsFit c db r
end

end Casync.Meta
