import Verif.Base.Res
import Verif.Base.Bytes
/-!
Model of `loop_write()`, `write_zeroes()`, `memeqzero()` and `loop_write_with_holes()` of `src/util.c`.

The world is one open file: its contents, the file position, the number of system calls made so far (`tick`) and the number of
bytes passed to `write(2)` so far (`written`, for stating what was punched). The environment answers the system call with
number `t`: it fails with some errno, or succeeds; a successful `write(2)` may be partial, `count` says how much (at least one
byte, at most what was asked for; `write(2)` does not return 0 for a positive size). `off_t` overflow is an explicit check as
in the C code.
-/
namespace Casync.Holes
open Casync

/-- The open file the functions work on (no repo lines: kernel state). -/
structure World where
  file : Bytes
  pos : Nat
  tick : Nat
  written : Nat
  deriving DecidableEq, Repr

/-- The kernel's answer to a system call (no repo lines: kernel behaviour). -/
structure Answer where
  fail : Option Errno
  count : Nat

abbrev Env := Nat → Answer

/-- Kernel semantics of writing `data` at offset `pos`: overwrite, and fill a gap behind the old end with zeroes. -/
def pwrite (file : Bytes) (pos : Nat) (data : Bytes) : Bytes :=
  if data = [] then file
  else file.take pos ++ List.replicate (pos - file.length) 0 ++ data ++ file.drop (pos + data.length)

/-- `write(2)`: how many bytes were written. -/
def sysWrite (env : Env) (w : World) (data : Bytes) : Res (Nat × World) :=
  match (env w.tick).fail with
  | some e => .err e
  | none =>
    let n := min data.length (max 1 (env w.tick).count)
    .ok (n, { file := pwrite w.file w.pos (data.take n), pos := w.pos + n, tick := w.tick + 1, written := w.written + n })

/-- src/util.c:25-46 `loop_write` on a valid descriptor. -/
def loopWrite (env : Env) (w : World) (p : Bytes) : Res World :=
  if h : p = [] then .ok w
  else
    match hw : sysWrite env w p with
    | .err e => .err e
    | .ub => .ub
    | .ok (n, w') => loopWrite env w' (p.drop n)
termination_by p.length
decreasing_by
  have : 0 < p.length := List.length_pos_iff.2 h
  unfold sysWrite at hw
  split at hw
  · cases hw
  · have := congrArg Prod.fst (Res.ok.inj hw)
    simp only at this
    rw [List.length_drop]; omega

/-- src/util.c:131-144, the fallback loop of `write_zeroes`: writes of at most `bs` zero bytes. -/
def writeZeroBlocks (env : Env) (w : World) (bs : Nat) (l : Nat) : Res World :=
  if h : l = 0 ∨ bs = 0 then .ok w
  else
    match hw : sysWrite env w (List.replicate (min l bs) 0) with
    | .err e => .err e
    | .ub => .ub
    | .ok (n, w') => writeZeroBlocks env w' bs (l - n)
termination_by l
decreasing_by
  unfold sysWrite at hw
  split at hw
  · cases hw
  · have := congrArg Prod.fst (Res.ok.inj hw)
    rw [List.length_replicate] at this
    simp only at this
    omega

/-- Kernel semantics of `ftruncate` to a larger size. -/
def extendTo (file : Bytes) (n : Nat) : Bytes := file ++ List.replicate (n - file.length) 0

/-- Kernel semantics of `fallocate(FALLOC_FL_PUNCH_HOLE|FALLOC_FL_KEEP_SIZE, p, l)`: the range reads as zeroes, the size stays. -/
def punch (file : Bytes) (p l : Nat) : Bytes :=
  file.take p ++ List.replicate (min l (file.length - p)) 0 ++ file.drop (p + l)

/-- src/util.c:83-145 `write_zeroes` for `l > 0`: the Boolean is "holes were punched" (return value 1). System calls in order:
lseek(CUR), lseek(END), fallocate (if the file reaches beyond the position), ftruncate (if the range reaches beyond the end),
lseek(SET). -/
def writeZeroes (env : Env) (w : World) (l : Nat) : Res (Bool × World) :=
  if l = 0 then .ok (false, w)
  else
    let fallback (w : World) : Res (Bool × World) := do
      let w ← writeZeroBlocks env w (min 4096 l) l
      .ok (false, w)
    let p := w.pos
    match (env w.tick).fail with
    | some _ => fallback { w with tick := w.tick + 1 }
    | none =>
      let w := { w with tick := w.tick + 1 }
      if p + l ≥ 2 ^ 63 then .err .EOVERFLOW
      else
        match (env w.tick).fail with
        | some e => .err e
        | none =>
          let e := w.file.length
          let w := { w with tick := w.tick + 1, pos := e }
          -- fallocate
          let punched : Option World :=
            if e > p then
              match (env w.tick).fail with
              | some _ => none
              | none => some { w with tick := w.tick + 1, file := punch w.file p l }
            else some w
          match punched with
          | none =>
            let w := { w with tick := w.tick + 1 }
            match (env w.tick).fail with
            | some e => .err e
            | none => fallback { w with tick := w.tick + 1, pos := p }
          | some w =>
            let trunc : Res World :=
              if p + l > e then
                match (env w.tick).fail with
                | some e => .err e
                | none => .ok { w with tick := w.tick + 1, file := extendTo w.file (p + l) }
              else .ok w
            match trunc with
            | .err e => .err e
            | .ub => .ub
            | .ok w =>
              match (env w.tick).fail with
              | some e => .err e
              | none => .ok (true, { w with tick := w.tick + 1, pos := p + l })

/-- src/util.c:147-168 `memeqzero`: check up to 16 bytes, then compare the data with itself shifted by 16 (`memcmp`). -/
def memeqzero (data : Bytes) : Bool :=
  if data.length < 16 then data.all (· == 0)
  else (data.take 16).all (· == 0) && decide (data.take (data.length - 16) = data.drop 16)

/-- src/util.c:23 `HOLE_MIN`. -/
abbrev HOLE_MIN : Nat := 4096

/-- src/util.c:178-213, the loop of `loop_write_with_holes`, and what follows it (215-238). Positions are indexes into `p`
(`zs` is `zero_start`). Result: number of bytes punched. -/
def holesLoop (env : Env) (p : Bytes) (w : World) (start : Nat) (zs : Option Nat) (q : Nat) (np : Nat) : Res (Nat × World) :=
  if h : q < p.length then
    let left := min HOLE_MIN (p.length - q)
    if memeqzero ((p.drop q).take left) then
      holesLoop env p w start (some (zs.getD q)) (q + left) np
    else
      match zs with
      | none => holesLoop env p w start none (q + left) np
      | some z =>
        if q - z ≥ HOLE_MIN then
          match loopWrite env w ((p.drop start).take (z - start)) with
          | .err e => .err e
          | .ub => .ub
          | .ok w =>
            match writeZeroes env w (q - z) with
            | .err e => .err e
            | .ub => .ub
            | .ok (false, w) => do
              let w ← loopWrite env w (p.drop q)
              .ok (np, w)
            | .ok (true, w) => holesLoop env p w q none (q + left) (np + (q - z))
        else holesLoop env p w start none (q + left) np
  else
    match zs with
    | some z =>
      if q - z ≥ HOLE_MIN then do
        let w ← loopWrite env w ((p.drop start).take (z - start))
        let r ← writeZeroes env w (q - z)
        .ok (if r.1 then np + (q - z) else np, r.2)
      else do
        let w ← loopWrite env w ((p.drop start).take (q - start))
        .ok (np, w)
    | none => do
      let w ← loopWrite env w ((p.drop start).take (q - start))
      .ok (np, w)
termination_by p.length - q
decreasing_by all_goals (simp only [HOLE_MIN]; omega)

/-- src/util.c:170-238 `loop_write_with_holes`: number of bytes punched, and the world afterwards. -/
def loopWriteWithHoles (env : Env) (w : World) (p : Bytes) : Res (Nat × World) := holesLoop env p w 0 none 0 0

end Casync.Holes
