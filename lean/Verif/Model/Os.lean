import Verif.Base.Res
import Verif.Base.Bytes
/-!
A small model of the operating system: names, inodes and the system calls that the chunk store and the file
installation code issue; and programs as sequences of system calls.

No repo lines: this is the environment of the modelled code. Simplifications: a path is one opaque byte string (the
existence of parent directories is not checked, except that a directory with entries cannot be removed); a descriptor
is the inode it refers to; each descriptor that is written to was created by the program itself, so that writing
appends.
-/
namespace Casync.Os
open Casync

abbrev Path := Bytes

/-- What a name refers to. -/
inductive Node
  | dir
  | symlink
  | file (ino : Nat)
  deriving DecidableEq, Repr

/-- The file system. `next` is the first inode number that has never been used; the two Booleans are capabilities of
the file system (`renameat2(RENAME_NOREPLACE)` and `linkat` work). -/
structure FS where
  names : Path → Option Node
  data : Nat → Bytes
  next : Nat
  hasRename2 : Bool
  hasLink : Bool

/-- System calls. -/
inductive Call
  | access (p : Path)
  | mkdir (p : Path)
  | rmdir (p : Path)
  | unlink (p : Path)
  | creat (p : Path)           -- open(O_WRONLY|O_CREAT|O_EXCL)
  | openRd (p : Path)          -- open(O_RDONLY|O_NOFOLLOW)
  | read (ino off n : Nat)
  | write (ino : Nat) (b : Bytes)
  | symlink (p : Path)
  | rename2 (a b : Path)       -- renameat2(RENAME_NOREPLACE)
  | rename (a b : Path)
  | link (a b : Path)
  deriving DecidableEq, Repr

/-- Answers of the kernel. -/
inductive Ans
  | ok
  | fd (ino : Nat)
  | count (n : Nat)
  | data (b : Bytes)
  | err (e : Errno)
  deriving DecidableEq, Repr

/-- The environment's choice for one system call: an injected failure, or the number of bytes that a read or write
transfers. -/
structure Choice where
  fail : Option Errno
  n : Nat

/-- The errors an injected failure may report: errors that make a statement about the existence of a name or about the
capabilities of the file system are not invented. -/
def injected : Errno → Errno
  | .ENOENT => .EIO
  | .EEXIST => .EIO
  | .ELOOP => .EIO
  | .ENOTTY => .EIO
  | .ENOSYS => .EIO
  | .EBADF => .EIO
  | .EOPNOTSUPP => .EIO
  | .EINVAL => .EIO
  | e => e

def setName (fs : FS) (p : Path) (x : Option Node) : FS :=
  { fs with names := fun q => if q = p then x else fs.names q }

/-- A directory with entries. -/
def HasEntries (fs : FS) (p : Path) : Prop := ∃ q, fs.names (p ++ 47 :: q) ≠ none

open Classical in
/-- Kernel semantics of one system call. -/
noncomputable def sem (fs : FS) (c : Call) (ch : Choice) : Ans × FS :=
  match ch.fail with
  | some e => (.err (injected e), fs)
  | none =>
    match c with
    | .access p => if fs.names p = none then (.err .ENOENT, fs) else (.ok, fs)
    | .mkdir p => if fs.names p = none then (.ok, setName fs p (some .dir)) else (.err .EEXIST, fs)
    | .rmdir p =>
      if fs.names p = none then (.err .ENOENT, fs)
      else if fs.names p ≠ some .dir then (.err .ENOTDIR, fs)
      else if HasEntries fs p then (.err .ENOTEMPTY, fs)
      else (.ok, setName fs p none)
    | .unlink p =>
      if fs.names p = none then (.err .ENOENT, fs)
      else if fs.names p = some .dir then (.err .EISDIR, fs)
      else (.ok, setName fs p none)
    | .creat p =>
      if fs.names p = none then
        (.fd fs.next,
          { setName fs p (some (.file fs.next)) with
            data := fun i => if i = fs.next then [] else fs.data i, next := fs.next + 1 })
      else (.err .EEXIST, fs)
    | .openRd p =>
      match fs.names p with
      | none => (.err .ENOENT, fs)
      | some .dir => (.err .EISDIR, fs)
      | some .symlink => (.err .ELOOP, fs)
      | some (.file i) => (.fd i, fs)
    | .read i off n => (.data (((fs.data i).drop off).take (min n (max 1 ch.n))), fs)
    | .write i b =>
      if b = [] then (.count 0, fs)
      else
        let n := min b.length (max 1 ch.n)
        (.count n, { fs with data := fun j => if j = i then fs.data i ++ b.take n else fs.data j })
    | .symlink p => if fs.names p = none then (.ok, setName fs p (some .symlink)) else (.err .EEXIST, fs)
    | .rename2 a b =>
      if !fs.hasRename2 then (.err .ENOSYS, fs)
      else if fs.names a = none then (.err .ENOENT, fs)
      else if fs.names b ≠ none then (.err .EEXIST, fs)
      else (.ok, setName (setName fs b (fs.names a)) a none)
    | .rename a b =>
      if fs.names a = none then (.err .ENOENT, fs)
      else if fs.names b = some .dir then (.err .EISDIR, fs)
      else if fs.names a = fs.names b then (.ok, fs)   -- rename(2): same inode, nothing happens
      else (.ok, setName (setName fs b (fs.names a)) a none)
    | .link a b =>
      if !fs.hasLink then (.err .EOPNOTSUPP, fs)
      else if fs.names a = none then (.err .ENOENT, fs)
      else if fs.names a = some .dir then (.err .EPERM, fs)
      else if fs.names b ≠ none then (.err .EEXIST, fs)
      else (.ok, setName fs b (fs.names a))

/-- A program: ends, or issues a system call and continues with the answer. -/
inductive Prog (α : Type)
  | ret (a : α)
  | call (c : Call) (k : Ans → Prog α)

namespace Prog

def bind {α β : Type} : Prog α → (α → Prog β) → Prog β
  | .ret a, f => f a
  | .call c k, f => .call c (fun a => bind (k a) f)

instance : Monad Prog where
  pure := .ret
  bind := bind

/-- One system call. -/
def sys (c : Call) : Prog Ans := .call c .ret

end Prog

/-- Run a program for as many system calls as there are choices; it may be stopped ("crash") anywhere by giving fewer
choices than it needs. -/
noncomputable def runFor {α : Type} : List Choice → FS → Prog α → FS × Prog α
  | [], fs, P => (fs, P)
  | _ :: _, fs, .ret a => (fs, .ret a)
  | ch :: chs, fs, .call c k =>
    let r := sem fs c ch
    runFor chs r.2 (k r.1)

/-- A complete run: `env` makes the choice for the system call number `t`, `t + 1`, … -/
noncomputable def exec {α : Type} (env : Nat → Choice) : Nat → FS → Prog α → α × FS
  | _, fs, .ret a => (a, fs)
  | t, fs, .call c k => exec env (t + 1) (sem fs c (env t)).2 (k (sem fs c (env t)).1)

/-- Everything a program can return, whatever the answers to its system calls are: any disk contents, any failures, any
interference. -/
def Outcome {α : Type} : Prog α → α → Prop
  | .ret a, b => b = a
  | .call _ k, b => ∃ ans, Outcome (k ans) b

/-- As `runFor`, with arbitrary interference by other processes before every system call: the `i`-th entry gives the
file system the other processes leave behind. -/
noncomputable def runWith {α : Type} : List (Choice × (FS → FS)) → FS → Prog α → FS × Prog α
  | [], fs, P => (fs, P)
  | (_, f) :: l, fs, .ret a => runWith l (f fs) (.ret a)
  | (ch, f) :: l, fs, .call c k =>
    let r := sem (f fs) c ch
    runWith l r.2 (k r.1)

/-- The contents of the file a name refers to. -/
def content (fs : FS) (p : Path) : Option Bytes :=
  match fs.names p with
  | some (.file i) => some (fs.data i)
  | _ => none

end Casync.Os
