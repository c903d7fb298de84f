import Verif.Model.Format
/-!
Removing files: `src/rm-rf.c` and `ca_decoder_node_delete()` of `src/cadecoder.c`.

The target directory is a finite tree.  What may go wrong is given by an arbitrary function of the path and the system call (`Fail`); `ENOENT`
for an object means that somebody else removed it.  `readdir()` delivers the entries that were there when it began, each once; whether an
entry is a directory is always known from it (`d_type`).
-/
namespace Casync.Delete
open Casync

mutual
/-- An object: anything but a directory (`reg`: a regular file; `data` identifies it), or a directory with the device it is on. -/
inductive Obj
  | leaf (reg : Bool) (data : Nat)
  | dir (dev : Nat) (kids : Dir)
/-- The entries of a directory, in the order of `readdir()`, without "." and "..". -/
inductive Dir
  | nil
  | cons (name : Bytes) (o : Obj) (rest : Dir)
end

/-- The system calls on an object: `fstatat`, `openat`/`fdopendir`, the k-th `readdir`, `unlinkat`, and the calls of the second try of
`unlinkat_immutable`: `openat`/`fstat`, removing the immutable flag (also: it was not set), and `unlinkat`. No repo lines. -/
inductive Sys
  | stat | open | readdir (k : Nat) | unlink | reopen | clear | unlinkAgain
  deriving DecidableEq, Repr

/-- What fails. No repo lines. -/
abbrev Fail := List Bytes → Sys → Option Errno

/-- `unlinkat_immutable`, src/rm-rf.c:17-59: the error, if any. `undo` is `REMOVE_UNDO_IMMUTABLE`; `able`: a regular file, or a directory
that is removed as such. -/
def unlinkImm (fail : Fail) (undo able : Bool) (path : List Bytes) : Option Errno :=
  match fail path .unlink with
  | none => none
  | some e =>
    if e ≠ .EPERM then some e
    else if !undo then some .EPERM
    else match fail path .reopen with
      | some e => some e
      | none =>
        if !able then some .EPERM
        else match fail path .clear with
          | some e => some e
          | none => fail path .unlinkAgain

/-- `if (ret == 0 && errno != ENOENT) ret = -errno;`, src/rm-rf.c:121 and others. -/
def note (ret : Option Errno) (e : Errno) : Option Errno :=
  match ret with
  | some r => some r
  | none => if e = .ENOENT then none else some e

/-- `if (r < 0 && ret == 0) ret = r;`, src/rm-rf.c:146-147. -/
def orElse (ret r : Option Errno) : Option Errno :=
  match ret with
  | some x => some x
  | none => r

/-- Is the object gone after a call with this result? No repo lines. -/
def gone : Option Errno → Bool
  | none => true
  | some e => decide (e = .ENOENT)

/-- `unlinkat(…, AT_REMOVEDIR)` of a directory that still has these entries. -/
def rmdirImm (fail : Fail) (undo : Bool) (path : List Bytes) : Dir → Option Errno
  | .nil => unlinkImm fail undo true path
  | .cons _ _ _ => some .ENOTEMPTY

/-- `rm_rf_children`, src/rm-rf.c:61-178, with `REMOVE_PHYSICAL` and without `REMOVE_SPAN_DEVICES` and `REMOVE_ONLY_DIRECTORIES`:
entry number `k` and the following ones of the directory `path`; the entries that are left and the return value. -/
def rmChildren (fail : Fail) (undo : Bool) (rootDev : Nat) (path : List Bytes) (k : Nat) (ret : Option Errno) : Dir → Dir × Option Errno
  | .nil =>
    match fail path (.readdir k) with
    | some e => (.nil, some e)
    | none => (.nil, ret)
  | .cons name (.leaf reg data) rest =>
    match fail path (.readdir k) with
    | some e => (.cons name (.leaf reg data) rest, some e)
    | none =>
      let u := unlinkImm fail undo reg (path ++ [name])
      let ret := match u with | some e => note ret e | none => ret
      let r := rmChildren fail undo rootDev path (k + 1) ret rest
      (if gone u then r.1 else .cons name (.leaf reg data) r.1, r.2)
  | .cons name (.dir dev kids) rest =>
    match fail path (.readdir k) with
    | some e => (.cons name (.dir dev kids) rest, some e)
    | none =>
      match fail (path ++ [name]) .stat with
      | some e =>
        let r := rmChildren fail undo rootDev path (k + 1) (note ret e) rest
        (if gone (some e) then r.1 else .cons name (.dir dev kids) r.1, r.2)
      | none =>
        if dev ≠ rootDev then
          let r := rmChildren fail undo rootDev path (k + 1) ret rest
          (.cons name (.dir dev kids) r.1, r.2)
        else match fail (path ++ [name]) .open with
          | some e =>
            let r := rmChildren fail undo rootDev path (k + 1) (note ret e) rest
            (if gone (some e) then r.1 else .cons name (.dir dev kids) r.1, r.2)
          | none =>
            let c := rmChildren fail undo rootDev (path ++ [name]) 0 none kids
            let u := rmdirImm fail undo (path ++ [name]) c.1
            let ret := orElse ret c.2
            let ret := match u with | some e => note ret e | none => ret
            let r := rmChildren fail undo rootDev path (k + 1) ret rest
            (if gone u then r.1 else .cons name (.dir dev c.1) r.1, r.2)

/-- `rm_rf_at`, src/rm-rf.c:180-233, with `REMOVE_ROOT|REMOVE_PHYSICAL`, for an object that exists: what is left of it, and the
error. The device is that of the object itself (`root_dev` is NULL, 88-96). The name is not "/" (it comes from `readdir()`). -/
def rmAt (fail : Fail) (undo : Bool) (path : List Bytes) : Obj → Option Obj × Option Errno
  | .leaf reg data =>
    match fail path .open with
    | some e => (if gone (some e) then none else some (.leaf reg data), some e)
    | none =>
      match unlinkImm fail undo reg path with
      | none => (none, none)
      | some e => if e = .ENOENT then (none, none) else (some (.leaf reg data), some e)
  | .dir dev kids =>
    match fail path .open with
    | some e => (if gone (some e) then none else some (.dir dev kids), some e)
    | none =>
      let c := rmChildren fail undo dev path 0 none kids
      match rmdirImm fail undo path c.1 with
      | none => (none, c.2)
      | some e => if e = .ENOENT then (none, c.2) else (some (.dir dev c.1), orElse c.2 (some e))

/-- `comparison_fn_strcmpp`, src/cadecoder.c:3328-3332. -/
def strcmpp (a b : Bytes) : Ordering := if a = b then .eq else if Archive.strLt a b then .lt else .gt

/-- `bsearch()` of the C library (glibc, bits/stdlib-bsearch.h) on the elements `l` to `u - 1`; `fuel` is at least `u - l`. No repo lines. -/
def bsearch (key : Bytes) (a : List Bytes) : Nat → Nat → Nat → Bool
  | 0, _, _ => false
  | fuel + 1, l, u =>
    if l < u then
      let i := (l + u) / 2
      match a[i]? with
      | none => false
      | some x => match strcmpp key x with
        | .lt => bsearch key a fuel l i
        | .gt => bsearch key a fuel (i + 1) u
        | .eq => true
    else false

/-- `safe_bsearch`, src/cadecoder.c:3334-3345. -/
def listed (dirents : List Bytes) (name : Bytes) : Bool := bsearch name dirents dirents.length 0 dirents.length

/-- The entry `name` with what is left of it, before the others. No repo lines. -/
def putBack (name : Bytes) : Option Obj → Dir → Dir
  | some o, r => .cons name o r
  | none, r => r

/-- The loop of `ca_decoder_node_delete`, src/cadecoder.c:3384-3409, from entry number `k` on. -/
def deleteLoop (fail : Fail) (undo : Bool) (path : List Bytes) (dirents : List Bytes) (k : Nat) : Dir → Dir × Res Unit
  | .nil =>
    match fail path (.readdir k) with
    | some e => (.nil, .err e)
    | none => (.nil, .ok ())
  | .cons name o rest =>
    match fail path (.readdir k) with
    | some e => (.cons name o rest, .err e)
    | none =>
      if listed dirents name then
        let r := deleteLoop fail undo path dirents (k + 1) rest
        (.cons name o r.1, r.2)
      else
        let x := rmAt fail undo (path ++ [name]) o
        match x.2 with
        | some e => (putBack name x.1 rest, .err e)
        | none =>
          let r := deleteLoop fail undo path dirents (k + 1) rest
          (putBack name x.1 r.1, r.2)

/-- `ca_decoder_node_delete`, src/cadecoder.c:3347-3415, for a directory that is open and whose names are known: `delete` is the setting,
`path` the directory, `dirents` the names the archive lists, in its order. -/
def nodeDelete (fail : Fail) (undo delete : Bool) (path : List Bytes) (dirents : List Bytes) (target : Dir) : Dir × Res Unit :=
  if !delete then (target, .ok ())
  else match fail path .open with
    | some e => (target, .err e)
    | none => deleteLoop fail undo path dirents 0 target

end Casync.Delete
