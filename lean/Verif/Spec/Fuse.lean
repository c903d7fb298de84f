import Verif.Model.Fuse
import Verif.Spec.Seek
/-!
What a mounted archive has to show.
-/
namespace Casync.Fuse
open Casync Flags Archive

/-- The length of the content, for regular files. -/
def sizeOf : Tree → Nat
  | .file _ _ api c => (stored api c).length
  | _ => 0

/-- The number of a device. -/
def deviceOf : Tree → Nat × Nat
  | .device _ _ x y => (x, y)
  | _ => (0, 0)

/-- Directories have a link more. -/
def linksOf : Tree → Nat
  | .dir _ _ _ _ => 2
  | _ => 1

/-- `stat()` of an archived object. -/
def statOf (s : Tree) : Stat :=
  { mode := s.entry.mode, nlink := linksOf s, size := sizeOf s, rdev := deviceOf s, uid := s.entry.uid, gid := s.entry.gid, mtime := s.entry.mtime }

/-- The entries of an archived directory, after "." and "..". -/
def listingOf (s : Tree) : Listing := [([46], none), ([46, 46], none)] ++ s.entries.map fun x => (x.1, some (statOf x.2))

/-- The value of an extended attribute for a caller with room for `size` bytes; 0 asks for the length. -/
def xattrOf (s : Tree) (name : Bytes) (size : Nat) : Reply :=
  match s.attrs.xattrs.find? (fun x => x.1 == name) with
  | none => .failed .ENODATA
  | some x => if size = 0 then .length x.2.length else if size < x.2.length then .failed .ERANGE else .data x.2

/-- The names of the extended attributes, each followed by a NUL. -/
def xattrNames (s : Tree) : Bytes := s.attrs.xattrs.flatMap fun x => x.1 ++ [0]

/-- The path of a call. -/
def Call.path : Call → List Bytes
  | .getattr p => components p
  | .readlink p _ => components p
  | .readdir p _ => components p
  | .open p _ => components p
  | .read p _ _ => components p
  | .getxattr p _ _ => components p
  | .listxattr p _ => components p

/-- The right answer for an object that is there.  (The content of a file can be followed by something else; the kernel, which knows the size of the file,
cuts it off.  An offset beyond the end of the file gives `ENOENT`, not an empty answer; a kernel does not ask for that either.) -/
def RightFor (s : Tree) : Call → Reply → Prop
  | .getattr _, r => r = .stat (statOf s)
  | .readlink _ n, r => match s with | .symlink _ _ b => r = .target (b.take n) | _ => r = .failed .ENODATA
  | .readdir _ room, r => r = if room < s.entries.length + 2 then .failed .ENOBUFS else .listing (listingOf s)
  | .open _ ro, r => r = if ro then .opened else .denied
  | .read _ n off, r =>
    match s with
    | .file _ _ api c =>
      if (stored api c).length < off then r = .failed .ENOENT
      else ∃ b, r = .data b ∧ b.length ≤ n ∧ ((stored api c).drop off).take n <+: b
    | _ => True
  | .getxattr _ name n, r => r = xattrOf s name n
  | .listxattr _ n, r =>
    r = if n = 0 then .length (xattrNames s).length else if n < (xattrNames s).length then .failed .ERANGE else .data (xattrNames s)

/-- The right answer: what is in the tree at this path, `ENOENT` if there is nothing. -/
def Right (t : Tree) (c : Call) (r : Reply) : Prop :=
  match t.find c.path with
  | some s => RightFor s c r
  | none => r = .failed .ENOENT

/-- What a kernel asks: the entries only of directories, the content only of regular files, at least one byte of it and at an offset below 2^63; and there is
room for "." and "..". -/
def Sensible (t : Tree) : Call → Prop
  | .readdir p room => 2 ≤ room ∧ ∀ s, t.find (components p) = some s → ∃ e a api k, s = .dir e a api k
  | .read p n off => 0 < n ∧ off < 2 ^ 63 ∧ ∀ s, t.find (components p) = some s → ∃ e a api c, s = .file e a api c
  | _ => True

/-- The errors that `ca_sync_step()` can meet by itself: those of the source of the archive, and others. -/
def Env.errs : Env → List Errno
  | .run (.fail e) => [e]
  | .run _ => []
  | .idle => []
  | .fail e => [e]

/-- All that can go wrong outside during a call. -/
def errors (size : Option Errno) (es : List Env) : List Errno := size.toList ++ es.flatMap Env.errs

/-- The source of the archive delivers whatever is needed, in pieces of any sizes. -/
def delivers (f : Nat → Nat) : Nat → List Env
  | 0 => []
  | k + 1 => .run (.bytes (f 0)) :: delivers (fun i => f (i + 1)) k

/-- A new file system for the archive `A`, when the feature flags have been read.  No flags are masked. -/
inductive Mounted (ff : Word) (A : Bytes) : Mount → Prop
  | mk (cfg : DCfg) (expected mode : Word) (es : List Env) {m : Mount} : cfg.naked = false → expected = none64 ∨ expected = ff → isType mode ifDir = true →
      warmUp A es { dec := sStart cfg expected none64 mode A.length } = (m, some (.ok ())) → Mounted ff A m

/-- The calls that have been made, one after the other; `true` if nothing has gone wrong outside during any of them. -/
inductive History (A : Bytes) (t : Tree) (m0 : Mount) : Mount → Bool → Prop
  | start : History A t m0 m0 true
  | call {m b c size es m' r} : History A t m0 m b → Sensible t c → serve A m c size es = (m', some r) →
      History A t m0 m' (b && (errors size es).isEmpty)

end Casync.Fuse
