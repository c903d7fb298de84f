import Verif.Model.Number
import Verif.Model.ChunkId
import Verif.Model.Restore
import Verif.Spec.Decoder
/-!
What `casync list` and `casync mtree` print.
-/
namespace Casync.Listing
open Casync Flags Archive

/-! ### Text -/

/-- `octchar`, src/util.c:403-405. -/
def octchar (x : Nat) : UInt8 := UInt8.ofNat (48 + x % 8)

/-- One turn of the loop of `mtree_escape_full`, src/casync-tool.c:1760-1773. -/
def escapeByte (b : UInt8) : Bytes :=
  if b ≤ 32 ∨ 127 ≤ b ∨ b = 92 ∨ b = 35 then [92, octchar (b.toNat / 64), octchar (b.toNat / 8 % 8), octchar (b.toNat % 8)] else [b]

/-- `mtree_escape_full`, `mtree_escape`, src/casync-tool.c:1747-1783. -/
def escape (p : Bytes) : Bytes := p.flatMap escapeByte

/-- `empty_to_dot`, src/casync-tool.c:1785-1790. -/
def emptyToDot (p : Bytes) : Bytes := if p = [] then [46] else p

/-- `ls_format_mode`, src/util.c:627-681; `none` is NULL. -/
def lsMode (m : Word) : Option Bytes :=
  let kind : Option UInt8 :=
    if m &&& ifmt = ifSock then some 115 else if m &&& ifmt = ifDir then some 100 else if m &&& ifmt = ifReg then some 45
    else if m &&& ifmt = ifBlk then some 98 else if m &&& ifmt = ifChr then some 99 else if m &&& ifmt = ifLnk then some 108
    else if m &&& ifmt = ifFifo then some 112 else none
  match kind with
  | none => none
  | some k => some [k,
      if has m 0x100#64 then 114 else 45, if has m 0x80#64 then 119 else 45,
      if has m 0x800#64 then (if has m 0x40#64 then 115 else 83) else (if has m 0x40#64 then 120 else 45),
      if has m 0x20#64 then 114 else 45, if has m 0x10#64 then 119 else 45,
      if has m 0x400#64 then (if has m 0x8#64 then 115 else 83) else (if has m 0x8#64 then 120 else 45),
      if has m 0x4#64 then 114 else 45, if has m 0x2#64 then 119 else 45,
      if isType m ifDir && has m 0x200#64 then (if has m 0x1#64 then 116 else 84) else (if has m 0x1#64 then 120 else 45)]

/-- `%04o` of a number below 4096. No repo lines. -/
def octal4 (n : Nat) : Bytes := [octchar (n / 512), octchar (n / 64), octchar (n / 8), octchar n]

/-- `%09u` of a number below 10^9. No repo lines. -/
def pad9 (n : Nat) : Bytes := List.replicate (9 - (Number.dec n).length) 48 ++ Number.dec n

/-! ### The current object -/

/-- What the getters said, with the initial values of `list_one_file`, src/casync-tool.c:1826-1836, where they failed. -/
structure Facts where
  path : Bytes
  mode : Word
  target : Option Bytes := none
  mtime : Nat := u64max
  size : Nat := u64max
  uid : Nat := Meta.uidInvalid
  gid : Nat := Meta.uidInvalid
  user : Option Bytes := none
  group : Option Bytes := none
  rdev : Option (Nat × Nat) := none
  chattr : Word := 0xffffffff#64
  fat : Word := 0xffffffff#64
  features : Word
  deriving DecidableEq, Repr

/-- `CA_FORMAT_WITH_NSEC_TIME|…`, src/cadecoder.c:4659-4663. -/
abbrev withTime : Word := withNsecTime ||| withUsecTime ||| withSecTime ||| with2SecTime

/-- `ca_decoder_current_user`, `ca_decoder_current_group`, src/cadecoder.c:4748-4828. -/
def nameOf (c : Meta.RCfg) (ff : Word) (name : Option Bytes) (id : Nat) : Option Bytes :=
  if !has c.replay withUserNames then none
  else match name with
    | some n => some n
    | none =>
      if has ff Meta.withIds then
        if !Meta.uidValid (Meta.unshiftUid c (id % 2 ^ 32)) then none
        else if Meta.unshiftUid c (id % 2 ^ 32) ≠ 0 then none
        else some [114, 111, 111, 116]
      else none

/-- `n->symlink_target` of what the decoder has seen after the records. No repo lines. -/
def targetOf : Shown → Option Bytes
  | .symlink t => some t
  | _ => none
/-- `n->size`. No repo lines. -/
def sizeOf : Shown → Nat
  | .file n => n
  | _ => u64max
/-- `n->rdev`. No repo lines. -/
def rdevOf : Shown → Option (Nat × Nat)
  | .device x y => some (x, y)
  | _ => none

/-- The getters of the decoder, src/cadecoder.c:4625-4900, for an object with these records; the feature flags are those of the archive, which
every ENTRY repeats. -/
def facts (c : Meta.RCfg) (path : Bytes) (e : Entry) (a : Attrs) (s : Shown) : Facts where
  path := path
  mode := e.mode
  target := if isType e.mode ifLnk then targetOf s else none
  mtime := if has c.replay withTime then e.mtime else u64max
  size := if isType e.mode ifReg then sizeOf s else u64max
  uid := if has c.replay Meta.withIds then e.uid % 2 ^ 32 else Meta.uidInvalid
  gid := if has c.replay Meta.withIds then e.gid % 2 ^ 32 else Meta.uidInvalid
  user := nameOf c e.ff a.user e.uid
  group := nameOf c e.ff a.group e.gid
  rdev := if isType e.mode ifChr || isType e.mode ifBlk then rdevOf s else none
  chattr := if isType e.mode ifReg || isType e.mode ifDir then Meta.toMap Meta.chattrMap (e.flags &&& c.replay) else 0xffffffff#64
  fat := if isType e.mode ifReg || isType e.mode ifDir then Meta.toMap Meta.fatMap (e.flags &&& c.replay) else 0xffffffff#64
  features := e.ff

/-! ### The lines -/

/-- The line of `casync list`, src/casync-tool.c:1809-1812; a mode without a proper type does not get here (`none`). -/
def listLine (f : Facts) : Option Bytes :=
  match lsMode f.mode with
  | none => none
  | some m => some (m ++ 32 :: (emptyToDot (escape f.path) ++ [10]))

/-- `type=`, src/casync-tool.c:1851-1864. -/
def typeWord (m : Word) : Option Bytes :=
  if isType m ifLnk then some [108, 105, 110, 107]
  else if isType m ifDir then some [100, 105, 114]
  else if isType m ifReg then some [102, 105, 108, 101]
  else if isType m ifSock then some [115, 111, 99, 107, 101, 116]
  else if isType m ifChr then some [99, 104, 97, 114]
  else if isType m ifBlk then some [98, 108, 111, 99, 107]
  else if isType m ifFifo then some [102, 105, 102, 111]
  else none

/-- The table of flags, src/casync-tool.c:1911-1921: "hidden", "system", "archive", "sappend", "nodump", "simmutable". -/
def flagTable : List (Word × Bytes) :=
  [(withFlagHidden, [104, 105, 100, 100, 101, 110]), (withFlagSystem, [115, 121, 115, 116, 101, 109]),
   (withFlagArchive, [97, 114, 99, 104, 105, 118, 101]), (withFlagAppend, [115, 97, 112, 112, 101, 110, 100]),
   (withFlagNodump, [110, 111, 100, 117, 109, 112]), (withFlagImmutable, [115, 105, 109, 109, 117, 116, 97, 98, 108, 101])]

/-- Whether a flag is shown as set, src/casync-tool.c:1933-1938. -/
def flagSet (f : Facts) (flag : Word) : Bool :=
  if has flag Meta.withFatAttrs then has f.fat (Meta.toMap Meta.fatMap flag) else has f.chattr (Meta.toMap Meta.chattrMap flag)

/-- The flags that are shown, src/casync-tool.c:1929-1942. -/
def shownFlags (f : Facts) : List (Bytes × Bool) :=
  (flagTable.filter fun x => has f.features x.1).map fun x => (x.2, flagSet f x.1)

/-- A flag as text. No repo lines. -/
def flagText (x : Bytes × Bool) : Bytes := (if x.2 then [] else [110, 111]) ++ x.1

/-- With a separator in between. No repo lines. -/
def sepBy (c : UInt8) : List Bytes → Bytes
  | [] => []
  | [a] => a
  | a :: b :: r => a ++ c :: sepBy c (b :: r)

/-- What follows `key=`, in the order of src/casync-tool.c:1851-1949, and the digest of 2337-2355 for regular files: its name and value. -/
def fields (digest : Option (Bytes × Bytes)) (f : Facts) : List (Bytes × Option Bytes) :=
  [([116, 121, 112, 101], typeWord f.mode),
   ([109, 111, 100, 101], some (octal4 (f.mode &&& 0xfff#64).toNat)),
   ([115, 105, 122, 101], if f.size ≠ u64max then some (Number.dec f.size) else none),
   ([108, 105, 110, 107], f.target.map escape),
   ([100, 101, 118, 105, 99, 101], f.rdev.map fun x => [108, 105, 110, 117, 120, 44] ++ (Number.dec x.1 ++ 44 :: Number.dec x.2)),
   ([117, 105, 100], if Meta.uidValid f.uid then some (Number.dec f.uid) else none),
   ([103, 105, 100], if Meta.uidValid f.gid then some (Number.dec f.gid) else none),
   ([117, 110, 97, 109, 101], f.user.map escape),
   ([103, 110, 97, 109, 101], f.group.map escape),
   ([102, 108, 97, 103, 115], if shownFlags f ≠ [] then some (sepBy 44 ((shownFlags f).map flagText)) else none),
   ([116, 105, 109, 101], if f.mtime ≠ u64max then some (Number.dec (f.mtime / 1000000000) ++ 46 :: pad9 (f.mtime % 1000000000)) else none),
   ((digest.map (·.1)).getD [], if isType f.mode ifReg then digest.map (·.2) else none)]

/-- ` key=value` for those that are shown. No repo lines. -/
def words : List (Bytes × Option Bytes) → Bytes
  | [] => []
  | (_, none) :: r => words r
  | (k, some v) :: r => 32 :: (k ++ 61 :: v) ++ words r

/-- The digest's name, src/casync-tool.c:2338-2341, by whether it is SHA512-256. -/
def digestName (sha512 : Bool) : Bytes :=
  if sha512 then [115, 104, 97, 53, 49, 50, 50, 53, 54, 100, 105, 103, 101, 115, 116] else [115, 104, 97, 50, 53, 54, 100, 105, 103, 101, 115, 116]

/-- The line of `casync mtree`, src/casync-tool.c:1849-1954 and, for a regular file, 2337-2355, with its digest. Between the two of a regular file
nothing else is printed. -/
def mtreeLine (sha512 : Bool) (f : Facts) (digest : Bytes) : Bytes :=
  emptyToDot (escape f.path) ++ (words (fields (some (digestName sha512, ChunkId.format digest)) f) ++ [10])

/-- A whole listing. No repo lines. -/
def mtree (sha512 : Bool) : List (Facts × Bytes) → Bytes
  | [] => []
  | (f, d) :: r => mtreeLine sha512 f d ++ mtree sha512 r

/-- A whole listing of `casync list`. No repo lines. -/
def list : List Facts → Option Bytes
  | [] => some []
  | f :: r => match listLine f, list r with
    | some x, some y => some (x ++ y)
    | _, _ => none

end Casync.Listing
