import Verif.Model.Listing
/-!
What a listing is to tell.
-/
namespace Casync.Listing
open Casync Flags Archive

/-- What is to be seen of an object: its path, type and permissions, and the rest where there is any. -/
structure Visible where
  path : Bytes
  kind : Word
  perm : Word
  size : Option Nat
  target : Option Bytes
  device : Option (Nat × Nat)
  uid : Option Nat
  gid : Option Nat
  user : Option Bytes
  group : Option Bytes
  flags : List (Bytes × Bool)
  mtime : Option Nat
  digest : Option Bytes
  deriving DecidableEq, Repr

/-- What is to be seen of the object with these properties, whose content has this digest. -/
def visible (x : Facts × Bytes) : Visible where
  path := x.1.path
  kind := x.1.mode &&& ifmt
  perm := x.1.mode &&& 0xfff#64
  size := if x.1.size = u64max then none else some x.1.size
  target := x.1.target
  device := x.1.rdev
  uid := if Meta.uidValid x.1.uid then some x.1.uid else none
  gid := if Meta.uidValid x.1.gid then some x.1.gid else none
  user := x.1.user
  group := x.1.group
  flags := shownFlags x.1
  mtime := if x.1.mtime = u64max then none else some x.1.mtime
  digest := if isType x.1.mode ifReg then some x.2 else none

/-- An object that is in an archive: one of the seven types, and a path that is not "." (components are never "."). -/
def Proper (f : Facts) : Prop :=
  f.path ≠ [46] ∧ (isType f.mode ifLnk ∨ isType f.mode ifDir ∨ isType f.mode ifReg ∨ isType f.mode ifSock ∨ isType f.mode ifChr ∨ isType f.mode ifBlk ∨
    isType f.mode ifFifo)

/-- Text that is neither white space nor a comment for mtree, and that every terminal shows: printable ASCII without blanks, "#" and, but for escape
sequences, without "\". -/
def Plain (b : UInt8) : Prop := 32 < b ∧ b < 127 ∧ b ≠ 35

/-- An octal digit. -/
def octal (b : UInt8) : Nat := b.toNat - 48

/-- Text back to bytes, as mtree reads it. -/
def unescape : Bytes → Bytes
  | [] => []
  | b :: r => if b = 92 then match r with
      | x :: y :: z :: r => UInt8.ofNat (octal x * 64 + octal y * 8 + octal z) :: unescape r
      | r => r
    else b :: unescape r

end Casync.Listing
