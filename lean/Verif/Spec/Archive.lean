import Verif.Model.Encoder
import Verif.Spec.Decoder
/-!
The archive of a tree, what a decoder has to report for it, and which trees can be stored.
-/
namespace Casync.Archive
open Casync Flags

/-! ### The archive of a tree -/

/-- The rows of a directory table (`[]` if the table cannot be made). -/
def rowsOf (qsort : List Goodbye.NameItem → List Goodbye.NameItem) (items : List Goodbye.NameItem) (start : Nat) : List Goodbye.Item :=
  match Goodbye.goodbyeTable qsort items start with
  | .ok r => r
  | _ => []

mutual
/-- The archive of a tree whose first byte is at offset `base`: metadata, content, and for a directory the archives of the entries, each after its
name, and the table of the names with the places of the entries. -/
def encTree (qsort : List Goodbye.NameItem → List Goodbye.NameItem) (base : Nat) : Tree → Bytes
  | .file e a api c => headBytes (.file e a api c) ++ stored api c
  | .symlink e a t => headBytes (.symlink e a t)
  | .device e a x y => headBytes (.device e a x y)
  | .special e a => headBytes (.special e a)
  | .dir e a true kids => headBytes (.dir e a true kids) ++ goodbyeBytes (rowsOf qsort [] (base + (headBytes (.dir e a true kids)).length)) (headBytes (.dir e a true kids)).length
  | .dir e a false kids =>
    let h := headBytes (.dir e a false kids)
    let k := encKids qsort (base + h.length) kids
    h ++ (k.1 ++ goodbyeBytes (rowsOf qsort k.2 (base + (h.length + k.1.length))) (h.length + k.1.length))
/-- The archives of the entries of a directory from offset `base` on, and the places of the entries. -/
def encKids (qsort : List Goodbye.NameItem → List Goodbye.NameItem) (base : Nat) : Kids → Bytes × List Goodbye.NameItem
  | .nil => ([], [])
  | .cons false _ _ r => encKids qsort base r
  | .cons true name t r =>
    let b := strRecord .filename name ++ encTree qsort (base + (strRecord .filename name).length) t
    let k := encKids qsort (base + b.length) r
    (b ++ k.1, ⟨nameHash name, base, base + b.length⟩ :: k.2)
end

/-! ### What is to be seen -/

mutual
/-- The observations for a tree at `path`: its start with the metadata, its content or its entries, its end. -/
def events (path : List Bytes) : Tree → List Atom
  | .file e a api c => .nextFile path e a (.file (stored api c).length) :: ((stored api c).map .byte ++ [.doneFile path])
  | .symlink e a t => [.nextFile path e a (.symlink t), .doneFile path]
  | .device e a x y => [.nextFile path e a (.device x y), .doneFile path]
  | .special e a => [.nextFile path e a .nothing, .doneFile path]
  | .dir e a true _ => [.nextFile path e a .nothing, .doneFile path]
  | .dir e a false kids => .nextFile path e a .nothing :: (kidsEvents path kids ++ [.doneFile path])
def kidsEvents (path : List Bytes) : Kids → List Atom
  | .nil => []
  | .cons false _ _ r => kidsEvents path r
  | .cons true name t r => events (path ++ [name]) t ++ kidsEvents path r
end

/-! ### What can be stored -/

mutual
/-- The nesting depth. -/
def Tree.height : Tree → Nat
  | .dir _ _ _ kids => 1 + kids.height
  | _ => 1
def Kids.height : Kids → Nat
  | .nil => 0
  | .cons true _ t r => max t.height r.height
  | .cons false _ _ r => max 1 r.height
end

/-- A user or group name: letters, digits, "_" and "-", not starting with a digit or "-", at most 255 bytes; not "root". -/
structure NameOK (n : Bytes) : Prop where
  first : ∃ c cs, n = c :: cs ∧ (isLetter c = true ∨ c = 95) ∧ ∀ x ∈ cs, isLetter x = true ∨ isDigit10 x = true ∨ x = 95 ∨ x = 45
  len : n.length ≤ 255
  notRoot : n ≠ [114, 111, 111, 116]

/-- A numeric id under the flags: 16 or 32 bits without the two invalid values, or zero if no ids are stored. -/
def IdOK (ff : Word) (u : Nat) : Prop :=
  if has ff with16BitUids then u < 65535
  else if has ff with32BitUids then u < 4294967295 ∧ u ≠ 65535
  else u = 0

/-- A time in ns under the flags.  (That USEC time has to be a multiple of a ms is what the decoder wants.) -/
def TimeOK (ff : Word) (t : Nat) : Prop :=
  t < u64max ∧
  if has ff withNsecTime then True
  else if has ff withUsecTime then 1000000 ∣ t
  else if has ff withSecTime then 1000000000 ∣ t
  else if has ff with2SecTime then 2000000000 ∣ t
  else t = 0

/-- The permission bits under the flags. -/
def PermOK (ff : Word) (m : Word) : Prop :=
  if isType m ifLnk then m &&& 0xfff#64 = 0x1ff#64
  else has ff (withPermissions ||| withAcl) = true ∨
    m &&& 0xfff#64 = (if isType m ifDir then 0x1ff#64 else 0x1b6#64) ∨
    (has ff withReadOnly = true ∧ m &&& 0xfff#64 = (if isType m ifDir then 0x16d#64 else 0x124#64))

/-- The ENTRY record under the flags. -/
structure EntryOK (ff : Word) (e : Entry) : Prop where
  same : e.ff = ff
  bits : e.mode &&& ~~~(0xffff#64) = 0#64
  perm : PermOK ff e.mode
  uid : IdOK ff e.uid
  gid : IdOK ff e.gid
  time : TimeOK ff e.mtime
  flags : e.flags &&& ~~~(ff &&& entryFlagBits) = 0#64
  subvol : isType e.mode ifDir = false → has e.flags withSubvolume = false
  flagsFor : isType e.mode ifReg = false → isType e.mode ifDir = false → e.flags = 0#64

/-- ACL entries are ordered by id, then by name (none first), then by permissions. -/
inductive AclBefore : AclEnt → AclEnt → Prop
  | id {a b : AclEnt} : a.id < b.id → AclBefore a b
  | named {a b : AclEnt} {n} : a.id = b.id → a.name = none → b.name = some n → AclBefore a b
  | name {a b : AclEnt} {m n} : a.id = b.id → a.name = some m → b.name = some n → strLt m n = true → AclBefore a b
  | perm {a b : AclEnt} : a.id = b.id → a.name = b.name → a.perm < b.perm → AclBefore a b

/-- An ACL entry under the flags. -/
structure AclOK (ff : Word) (a : AclEnt) : Prop where
  flag : has ff withAcl = true
  id : IdOK ff a.id
  perm : a.perm < 8
  name : ∀ n, a.name = some n → has ff withUserNames = true ∧ NameOK n

/-- An extended attribute: its name has a namespace and a rest, and there is a limit on the size. -/
structure XattrOK (x : Bytes × Bytes) : Prop where
  name : ∃ ns rest, x.1 = ns ++ 46 :: rest ∧ ns ≠ [] ∧ (46 : UInt8) ∉ ns ∧ rest ≠ [] ∧ x.1.length ≤ 255
  noNul : (0 : UInt8) ∉ x.1
  size : x.1.length + 1 + x.2.length ≤ 65792

/-- The metadata beside the ENTRY record, of an object of this mode with these ids, under the flags. -/
structure AttrsOK (ff : Word) (e : Entry) (a : Attrs) : Prop where
  user : ∀ n, a.user = some n → has ff withUserNames = true ∧ NameOK n
  group : ∀ n, a.group = some n → has ff withUserNames = true ∧ NameOK n
  names : has ff withUserNames = true → has ff (with16BitUids ||| with32BitUids) = false → a.user.isSome = true ∧ a.group.isSome = true
  xattrFlag : a.xattrs ≠ [] → has ff withXattrs = true
  xattrs : ∀ x ∈ a.xattrs, XattrOK x
  xattrOrder : a.xattrs.Pairwise (fun x y => strLt x.1 y.1 = true)
  aclUser : ∀ x ∈ a.aclUser, AclOK ff x
  aclGroup : ∀ x ∈ a.aclGroup, AclOK ff x
  defUser : ∀ x ∈ a.defUser, AclOK ff x
  defGroup : ∀ x ∈ a.defGroup, AclOK ff x
  aclUserOrder : a.aclUser.Pairwise AclBefore
  aclGroupOrder : a.aclGroup.Pairwise AclBefore
  defUserOrder : a.defUser.Pairwise AclBefore
  defGroupOrder : a.defGroup.Pairwise AclBefore
  groupObj : ∀ p, a.groupObj = some p → has ff withAcl = true ∧ p < 8
  needsGroupObj : (a.aclUser ≠ [] ∨ a.aclGroup ≠ []) → a.groupObj.isSome = true
  aclDefault : ∀ d, a.aclDefault = some d → has ff withAcl = true ∧ d.user < 8 ∧ d.group < 8 ∧ d.other < 8 ∧ (d.mask = u64max ∨ d.mask < 8)
  needsMask : (a.defUser ≠ [] ∨ a.defGroup ≠ []) → ∃ d, a.aclDefault = some d ∧ d.mask < 8
  defaultDir : isType e.mode ifDir = false → a.aclDefault = none
  selinux : ∀ s, a.selinux = some s → has ff withSelinux = true ∧ s ≠ [] ∧ (0 : UInt8) ∉ s ∧ s.length ≤ 4095
  fcaps : ∀ s, a.fcaps = some s → isType e.mode ifReg = true ∧ s.length ≤ 65536
  quota : ∀ q, a.quota = some q → (isType e.mode ifReg = true ∨ isType e.mode ifDir = true) ∧ q ≠ 0 ∧ q ≤ 0xffffffff
  link : isType e.mode ifLnk = true → a.xattrs = [] ∧ a.aclUser = [] ∧ a.aclGroup = [] ∧ a.groupObj = none

structure ObjOK (ff : Word) (e : Entry) (a : Attrs) : Prop where
  entry : EntryOK ff e
  attrs : AttrsOK ff e a

mutual
/-- A tree that can be stored under the flags `ff`. -/
def Storable (ff : Word) : Tree → Prop
  | .file e a _ _ => ObjOK ff e a ∧ isType e.mode ifReg = true
  | .symlink e a t => ObjOK ff e a ∧ isType e.mode ifLnk = true ∧ has ff withSymlinks = true ∧ t ≠ [] ∧ (0 : UInt8) ∉ t ∧ t.length ≤ 4095
  | .device e a x y => ObjOK ff e a ∧ (isType e.mode ifChr = true ∨ isType e.mode ifBlk = true) ∧ has ff withDeviceNodes = true ∧ x < 2 ^ 12 ∧ y < 2 ^ 20
  | .special e a => ObjOK ff e a ∧
      ((isType e.mode ifFifo = true ∧ has ff withFifos = true) ∨ (isType e.mode ifSock = true ∧ has ff withSockets = true))
  | .dir e a _ kids => ObjOK ff e a ∧ isType e.mode ifDir = true ∧ StorableKids ff kids
/-- All entries that are stored have proper names and can be stored. -/
def StorableKids (ff : Word) : Kids → Prop
  | .nil => True
  | .cons false _ _ r => StorableKids ff r
  | .cons true name t r => SafeName name ∧ Storable ff t ∧ StorableKids ff r
end

/-- The first observation of a tree. -/
def Tree.shown : Tree → Shown
  | .file _ _ api c => .file (stored api c).length
  | .symlink _ _ t => .symlink t
  | .device _ _ x y => .device x y
  | .special _ _ => .nothing
  | .dir _ _ _ _ => .nothing

end Casync.Archive
