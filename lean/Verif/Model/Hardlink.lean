import Verif.Model.Seed
import Verif.Model.Meta
import Verif.Model.Digest
/-!
Hard links to seed files instead of extracted files (`--hardlink=yes`).
-/
namespace Casync.Hardlink
open Casync Flags Archive

/-! ### The seed -/

/-- `ca_seed_cache_hardlink`, src/caseed.c:405-467, of a seed with `cache_hardlink`: at the end of an object with this mode, hard link digest
and path.  `mkdirat()` has succeeded. -/
def cacheHardlink (fail : Seed.Fail) (c : Seed.Cache) (mode : Word) (digest : Res Bytes) (path : Bytes) : Res Seed.Cache :=
  if !isType mode ifReg then .ok c
  else match digest with
    | .err e => .err e
    | .ub => .ub
    | .ok d =>
      match Location.new (some path) 101 0 u64max with
      | .err e => .err e
      | .ub => .ub
      | .ok l =>
        match Seed.symlinkat fail c (Location.format l Location.withAll) (Seed.entryPath d) with
        | .ok c => .ok c
        | .ub => .ub
        | .err .EEXIST => .ok c
        | .err e => .err e

/-! ### The file systems -/

/-- A file: what `stat()` and the like say of it, and its content. Only hard links make it appear under several names. No repo lines. -/
structure Inode where
  info : Meta.Meta
  content : Bytes
  deriving DecidableEq, Repr

/-- Which file the paths below the roots of the seeds and the names in the directory of the extracted file stand for, and the files.
No repo lines. -/
structure FS where
  seeds : Nat → Bytes → Option Nat
  dir : Bytes → Option Nat
  inode : Nat → Inode

/-- A changed entry of the directory. No repo lines. -/
def FS.put (fs : FS) (name : Bytes) (x : Option Nat) : FS := { fs with dir := fun n => if n = name then x else fs.dir n }

/-- What fails for reasons that are not modelled. `stat`, `link`, `temp`, `link2`, `rename`, `exchange`, `rename2`, `unlink` are the calls of
`ca_decoder_try_hardlink()` and `ca_decoder_install_file()` in their order; `rm` says whether a removal succeeds. No repo lines. -/
structure Env where
  stat : Option Errno := none
  link : Option Errno := none
  temp : Option Errno := none
  link2 : Option Errno := none
  rename : Option Errno := none
  exchange : Option Errno := none
  rm : Option Errno := none
  rename2 : Option Errno := none
  unlink : Option Errno := none
  deriving DecidableEq, Repr

/-- `linkat()`. No repo lines. -/
def linkat (fail : Option Errno) (fs : FS) (i : Nat) (name : Bytes) : FS × Res Unit :=
  match fail with
  | some e => (fs, .err e)
  | none => if (fs.dir name).isSome then (fs, .err .EEXIST) else (fs.put name (some i), .ok ())

/-- `renameat()` of something that is not a directory: nothing happens if both names stand for the same file (rename(2)); a directory is not
replaced. No repo lines. -/
def renameat (fail : Option Errno) (fs : FS) (from_ to_ : Bytes) : FS × Res Unit :=
  match fail with
  | some e => (fs, .err e)
  | none =>
    match fs.dir from_ with
    | none => (fs, .err .ENOENT)
    | some i =>
      match fs.dir to_ with
      | some j => if j = i then (fs, .ok ()) else if isType (fs.inode j).info.mode ifDir then (fs, .err .EISDIR) else ((fs.put to_ (some i)).put from_ none, .ok ())
      | none => ((fs.put to_ (some i)).put from_ none, .ok ())

/-- `renameat2(RENAME_EXCHANGE)`. No repo lines. -/
def exchange (fail : Option Errno) (fs : FS) (x y : Bytes) : FS × Res Unit :=
  match fail with
  | some e => (fs, .err e)
  | none => if (fs.dir x).isSome && (fs.dir y).isSome then ((fs.put x (fs.dir y)).put y (fs.dir x), .ok ()) else (fs, .err .ENOENT)

/-- `unlinkat()`, `rm_rf_at()`: the name is gone, or stays. No repo lines. -/
def remove (fail : Option Errno) (fs : FS) (x : Bytes) : FS × Res Unit :=
  match fail with
  | some e => (fs, .err e)
  | none => (fs.put x none, .ok ())

/-- `ca_decoder_install_file`, src/cadecoder.c:3445-3506, without `undo_immutable` (with it, EPERM leads to a second attempt after the flag of
the destination was cleared). -/
def installFile (v : Env) (fs : FS) (t name : Bytes) : FS × Res Unit :=
  match renameat v.rename fs t name with
  | (fs, .ok ()) => (fs, .ok ())
  | (fs, .ub) => (fs, .ub)
  | (fs, .err e) =>
    if e ≠ .ENOTDIR ∧ e ≠ .EISDIR then (fs, .err e)
    else match exchange v.exchange fs t name with
      | (fs, .ok ()) => remove v.rm fs t
      | (fs, _) => renameat v.rename2 (remove v.rm fs name).1 t name

/-! ### The decoder -/

/-- A file that has been extracted under a temporary name: `name`, `temporary_name`, `entry` and `size` of the node. No repo lines of its own. -/
structure Node where
  name : Bytes
  temp : Bytes
  entry : Entry
  size : Nat
  deriving DecidableEq, Repr

/-- `ca_decoder_mode_mask`, src/cadecoder.c:5486-5496. -/
def modeMask (ff : Word) : Word :=
  if has ff withPermissions then 0xfff#64
  else if has ff withReadOnly then 0x80#64
  else 0#64

/-- `CA_FORMAT_WITH_SEC_TIME|CA_FORMAT_WITH_USEC_TIME|CA_FORMAT_WITH_NSEC_TIME|CA_FORMAT_WITH_2SEC_TIME`, src/cadecoder.c:5557. -/
abbrev withTimes : Word := withSecTime ||| withUsecTime ||| withNsecTime ||| with2SecTime

/-- The superficial checks of `ca_decoder_try_hardlink`, src/cadecoder.c:5540-5567. -/
def looksSame (ff : Word) (n : Node) (x : Inode) : Res Bool :=
  if !isType x.info.mode ifReg then .ok false
  else if x.content.length ≠ n.size then .ok false
  else if (x.info.mode ^^^ n.entry.mode) &&& modeMask ff ≠ 0#64 then .ok false
  else if has ff Meta.withIds && (decide (x.info.uid ≠ n.entry.uid) || decide (x.info.gid ≠ n.entry.gid)) then .ok false
  else if has ff withTimes then
    match granularity ff with
    | .err e => .err e
    | .ub => .ub
    | .ok g => .ok (decide (Meta.timespecToNsec x.info.sec x.info.nsec / g = n.entry.mtime / g))
  else .ok true

/-- `EXDEV`, `EMLINK`, `EPERM`: no hard links here, src/cadecoder.c:5577, 5590. -/
def noLinks (e : Errno) : Bool := e == .EXDEV || e == .EMLINK || e == .EPERM

/-- The end of `ca_decoder_try_hardlink`, src/cadecoder.c:5604-5614. -/
def dropTemp (v : Env) (fs : FS) (n : Node) : FS × Res Bool :=
  match remove v.unlink fs n.temp with
  | (fs, .ok ()) => (fs, .ok true)
  | (fs, .err e) => (fs, .err e)
  | (fs, .ub) => (fs, .ub)

/-- src/cadecoder.c:5573-5602: put the link in place. `t` is what `tempfn_random()` chooses. -/
def placeLink (v : Env) (fs : FS) (n : Node) (t : Bytes) (i : Nat) : FS × Res Bool :=
  match linkat v.link fs i n.name with
  | (fs, .ok ()) => dropTemp v fs n
  | (fs, .ub) => (fs, .ub)
  | (fs, .err e) =>
    if noLinks e then (fs, .ok false)
    else if e ≠ .EEXIST then (fs, .err e)
    else match v.temp with
      | some e => (fs, .err e)
      | none =>
        match linkat v.link2 fs i t with
        | (fs, .err e) => if noLinks e then (fs, .ok false) else (fs, .err e)
        | (fs, .ub) => (fs, .ub)
        | (fs, .ok ()) =>
          match installFile v fs t n.name with
          | (fs, .ok ()) => dropTemp v fs n
          | (fs, .err e) => ((remove none fs t).1, .err e)
          | (fs, .ub) => (fs, .ub)

/-- `ca_decoder_try_hardlink`, src/cadecoder.c:5498-5615, of a regular file below a directory that is extracted; `s` is the seed whose root it gets. -/
def tryHardlink (ff : Word) (v : Env) (fs : FS) (n : Node) (t : Bytes) (s : Nat) (path : Bytes) : FS × Res Bool :=
  match v.stat with
  | some e => if e = .ENOENT then (fs, .ok false) else (fs, .err e)
  | none =>
    match fs.seeds s path with
    | none => (fs, .ok false)
    | some i =>
      match looksSame ff n (fs.inode i) with
      | .err e => (fs, .err e)
      | .ub => (fs, .ub)
      | .ok false => (fs, .ok false)
      | .ok true => placeLink v fs n t i

/-- The loop of `ca_sync_try_hardlink`, src/casync.c:2592-2614: what the seeds have for the digest, each with its number, the failures of this round
and the temporary name chosen. -/
def trySeeds (ff : Word) (n : Node) : List (Nat × Res Bytes × Env × Bytes) → FS → FS × Res Bool
  | [], fs => (fs, .ok false)
  | (s, target, v, t) :: r, fs =>
    match target with
    | .err e => if e = .ENOENT then trySeeds ff n r fs else (fs, .err e)
    | .ub => (fs, .ub)
    | .ok p =>
      match tryHardlink ff v fs n t s p with
      | (fs, .ok false) => trySeeds ff n r fs
      | (fs, x) => (fs, x)

end Casync.Hardlink
