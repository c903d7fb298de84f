import Verif.Model.Chunker
import Verif.Model.Number
/-!
Model of `--chunk-size=`: parsing it (`parse_chunk_sizes`, src/casync-tool.c) and handing the sizes to the synchronizer
(`load_chunk_size`, src/casync-tool.c; `ca_sync_set_chunk_size_*`, src/casync.c).
-/
namespace Casync.ChunkOptions
open Casync Casync.Chunker

/-- `strchr(v, ':')`: what is before the first colon and after it. No repo lines. -/
def cut (t : Bytes) : Option (Bytes × Bytes) :=
  match t.dropWhile (· ≠ 58) with
  | [] => none
  | _ :: after => some (t.takeWhile (· ≠ 58), after)

/-- Minimum, average and maximum, `arg_chunk_size_min`, `arg_chunk_size_avg`, `arg_chunk_size_max`, src/casync-tool.c:60-62; 0 is "not
given". -/
structure Sizes where
  min : Nat := 0
  avg : Nat := 0
  max : Nat := 0
  deriving DecidableEq, Repr

/-- A triple, src/casync-tool.c:219-247: the parts are read and checked one after the other. -/
def parseTriple (fm : Bytes → Nat → Option Nat) (p q r : Bytes) : Res Sizes :=
  match Number.parseSize fm p with
  | .err e => .err e
  | .ub => .ub
  | .ok a =>
    if a < limitMin then .err .ERANGE
    else match Number.parseSize fm q with
    | .err e => .err e
    | .ub => .ub
    | .ok b =>
      if b < a then .err .EINVAL
      else match Number.parseSize fm r with
      | .err e => .err e
      | .ub => .ub
      | .ok c =>
        if c < b then .err .EINVAL
        else if c > limitMax then .err .ERANGE
        else .ok { min := a, avg := b, max := c }

/-- A single size, src/casync-tool.c:250-263. -/
def parseSingle (fm : Bytes → Nat → Option Nat) (t : Bytes) : Res Sizes :=
  match Number.parseSize fm t with
  | .err e => .err e
  | .ub => .ub
  | .ok b =>
    if b < limitMin then .err .ERANGE
    else if b > limitMax then .err .ERANGE
    else .ok { min := 0, avg := b, max := 0 }

/-- `parse_chunk_sizes`, src/casync-tool.c:192-271. The text is a C string without its NUL; `fm` is the floating point arithmetic of
`parse_size` (Model/Number). The messages are not modelled. -/
def parse (fm : Bytes → Nat → Option Nat) (t : Bytes) : Res Sizes :=
  if t = [97, 117, 116, 111] then .ok {}
  else match cut t with
  | none => parseSingle fm t
  | some (p, rest) =>
    match cut rest with
    | none => .err .EINVAL
    | some (q, r) => parseTriple fm p q r

/-- The chunk size part of `struct CaSync`, src/casync.c:146-151: the chunker and the sizes that were asked for. -/
structure Sync where
  chunker : Chunker
  asked : Sizes := {}

/-- `ca_sync_set_chunk_size_min`, src/casync.c:211-223. -/
def setMin (fpu : Fpu) (s : Sync) (v : Nat) : Res Sync := do
  let c ← setSize fpu s.chunker v s.asked.avg s.asked.max
  .ok { chunker := c, asked := { s.asked with min := v } }

/-- `ca_sync_set_chunk_size_avg`, src/casync.c:225-237. -/
def setAvg (fpu : Fpu) (s : Sync) (v : Nat) : Res Sync := do
  let c ← setSize fpu s.chunker s.asked.min v s.asked.max
  .ok { chunker := c, asked := { s.asked with avg := v } }

/-- `ca_sync_set_chunk_size_max`, src/casync.c:239-251. -/
def setMax (fpu : Fpu) (s : Sync) (v : Nat) : Res Sync := do
  let c ← setSize fpu s.chunker s.asked.min s.asked.avg v
  .ok { chunker := c, asked := { s.asked with max := v } }

/-- `load_chunk_size`, src/casync-tool.c:795-834 (the output for `--verbose` is not modelled). -/
def load (fpu : Fpu) (arg : Sizes) (s : Sync) : Res Sync := do
  let s ← if arg.avg ≠ 0 then setAvg fpu s arg.avg else .ok s
  let s ← if arg.min ≠ 0 then setMin fpu s arg.min else .ok s
  if arg.max ≠ 0 then setMax fpu s arg.max else .ok s

end Casync.ChunkOptions
