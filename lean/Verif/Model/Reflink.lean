import Verif.Model.Location
import Verif.Model.Holes
/-!
Sharing the data of an extracted file with the files it came from: `reflink_fd()` (reflink.c), `ca_location_open()` (calocation.c) and
`ca_decoder_node_reflink()` (cadecoder.c).
-/
namespace Casync.Reflink
open Casync Location

/-- What the mode of an open file says, as far as reflink.c:113-116 looks at it. -/
inductive Kind
  | reg | dir | other
  deriving DecidableEq, Repr

/-- An open file: its kind, its content and what `ca_location_open()` looks at (calocation.c:579-597): the inode number, the later one of its
modification and change times, and the answer of `FS_IOC_GETVERSION` (`none`: not supported). -/
structure File where
  kind : Kind
  bytes : Bytes
  inode : Nat := 0
  mtime : Nat := 0
  generation : Option Nat := none
  deriving DecidableEq, Repr

/-- What the kernel does with the `FICLONERANGE` of reflink.c:135-142: it takes over the whole range, or it fails after having taken over the
first `k` bytes of it. -/
inductive Clone
  | done
  | failed (e : Errno) (k : Nat)
  deriving DecidableEq, Repr

/-- The system around one call of `reflink_fd()`: the failure of one of the two `fstat()` (reflink.c:106-109), whether the buffers can be
allocated and the files can be read (`validate()`, before and after), and what the kernel does. -/
structure Env where
  stat : Option Errno := none
  before : Bool := true
  after : Bool := true
  clone : Clone := .done
  deriving DecidableEq, Repr

/-- `FS_BLOCK_SIZE`, reflink.c:12. -/
abbrev block : Nat := 4096

/-- `pread()` of a regular file: all that is asked for, or what there is up to the end of the file.  No repo lines. -/
def pread (b : Bytes) (off n : Nat) : Bytes := (b.drop off).take n

/-- `validate()`, reflink.c:46-67, with `pread_try_harder()`, 17-43: the assertions hold.  `can` says that memory is there and that reading
works, if need be through `/proc/self/fd`. -/
def validate (can : Bool) (src : Bytes) (so : Nat) (dst : Bytes) (dO n : Nat) : Bool :=
  can && (pread src so n).length == n && (pread dst dO n).length == n && pread src so n == pread dst dO n

/-- What `FICLONERANGE` takes over: `src_length` bytes at `src_offset`, or all up to the end of the file if `src_length` is 0.  No repo lines. -/
def cloned (src : Bytes) (so len : Nat) : Bytes := if len = 0 then src.drop so else pread src so len

/-- `reflink_fd()`, reflink.c:69-150.  The checks of the file descriptors, 83-86, are left out: the caller passes open ones.  Delivers the
destination file as it is afterwards and the result, with `*ret_reflinked`. -/
def reflink (src : File) (so : Nat) (dst : File) (dO size : Nat) (v : Env) : File × Res Nat :=
  if so % block ≠ dO % block then (dst, .err .EBADR)
  else if (so + size) % 2 ^ 64 < so then (dst, .err .ERANGE)
  else if (dO + size) % 2 ^ 64 < dO then (dst, .err .ERANGE)
  else if so % block > 0 ∧ block - so % block ≥ size then (dst, .err .EBADR)
  else
    let add := if so % block > 0 then block - so % block else 0
    let so := so + add
    let dO := dO + add
    let size := size - add
    match v.stat with
    | some e => (dst, .err e)
    | none =>
      if src.kind = .dir ∨ dst.kind = .dir then (dst, .err .EISDIR)
      else if src.kind ≠ .reg ∨ dst.kind ≠ .reg then (dst, .err .ENOTTY)
      else
        let atEnd := decide (so + size ≥ src.bytes.length) && decide (dO + size ≥ dst.bytes.length)
        let reflinked := if atEnd then size else size / block * block
        let len := if atEnd then 0 else size / block * block
        if atEnd = false ∧ size / block * block = 0 then (dst, .err .EBADR)
        else if !validate v.before src.bytes so dst.bytes dO reflinked then (dst, .ub)
        else match v.clone with
          | .failed e k => ({ dst with bytes := Holes.pwrite dst.bytes dO ((cloned src.bytes so len).take k) }, .err e)
          | .done =>
            let dst' := { dst with bytes := Holes.pwrite dst.bytes dO (cloned src.bytes so len) }
            if !validate v.after src.bytes so dst'.bytes dO reflinked then (dst', .ub)
            else (dst', .ok reflinked)

/-- What the file system says to one location: whether the root has been given up (`CaFileRoot.invalidated`), and the file that
`openat()`/`open()` of the path finds, or its error. -/
structure Place where
  invalidated : Bool := false
  found : Res File
  deriving DecidableEq, Repr

/-- `ca_location_open()`, calocation.c:536-604.  Which of the two ways of opening is used, 549-569, does not matter here; a failing `fstat()` is
left out. -/
def locationOpen (l : Location) (p : Place) : Res File :=
  if l.designator = void then .err .ENOTTY
  else if l.root = none then .err .EUNATCH
  else if p.invalidated then .err .EUNATCH
  else match p.found with
    | .ok f =>
      if l.mtime ≠ u64max then
        if f.inode ≠ l.inode then .err .ESTALE
        else if l.mtime ≠ f.mtime then .err .ESTALE
        else if l.generation ≠ none ∧ f.generation ≠ l.generation then .err .ESTALE
        else .ok f
      else .ok f
    | .err e => .err e
    | .ub => .ub

/-- `ERRNO_IS_UNSUPPORTED()`, util.h:773-774. -/
def unsupported (e : Errno) : Bool := e == .ENOTTY || e == .ENOSYS || e == .EBADF || e == .EOPNOTSUPP || e == .EINVAL

/-- `CA_LOCATION_PAYLOAD`, calocation.h:22. -/
abbrev payload : UInt8 := 112

/-- The loop of `ca_decoder_node_reflink()`, cadecoder.c:3288-3323: `off` is `offset`, `n` what has been added to `n_reflink_bytes`. -/
def reflinkLoop : List (Location × Place × Env) → Nat → Nat → File → File × Res Nat
  | [], _, n, dst => (dst, .ok n)
  | (l, p, v) :: r, off, n, dst =>
    if l.designator ≠ payload then reflinkLoop r (off + l.size) n dst
    else match locationOpen l p with
      | .err .ENOENT => reflinkLoop r (off + l.size) n dst
      | .err e => (dst, .err e)
      | .ub => (dst, .ub)
      | .ok src =>
        match reflink src l.offset dst off l.size v with
        | (dst', .ok k) => reflinkLoop r (off + l.size) (n + k) dst'
        | (dst', .ub) => (dst', .ub)
        | (dst', .err e) =>
          if e = .EBADR ∨ e = .EXDEV then reflinkLoop r (off + l.size) n dst'
          else if unsupported e then (dst', .ok n)
          else (dst', .err e)

/-- `ca_decoder_node_reflink()`, cadecoder.c:3267-3326, for a node of a regular file with an open file: where its content came from, with what
the system says about each place, and the file.  `enabled` is `--reflink=`. -/
def nodeReflink (enabled : Bool) (origin : List (Location × Place × Env)) (dst : File) : File × Res Nat :=
  if !enabled then (dst, .ok 0) else reflinkLoop origin 0 0 dst

end Casync.Reflink
