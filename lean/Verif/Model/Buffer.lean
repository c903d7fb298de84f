import Verif.Base.Res
import Verif.Base.Bytes
/-!
Model of `src/realloc-buffer.c` and `src/realloc-buffer.h`.

`data` is the allocated memory (length `allocated`); NULL is the empty list. Uninitialised memory is an arbitrary function
`junk` from addresses to bytes, a parameter of every operation that allocates. `size_t` values are `Nat`; additions that
can wrap are reduced modulo 2^64 as in C. `malloc` does not fail. A NULL result of the C functions is the error `ENOMEM`
here; a failed assertion or an access outside of the allocated memory is `Res.ub`.
-/
namespace Casync.Buffer
open Casync

/-- src/realloc-buffer.h:10-15 `ReallocBuffer`. -/
structure Buf where
  data : Bytes
  allocated : Nat
  start : Nat
  stop : Nat
  deriving DecidableEq, Repr

/-- The zero-initialised buffer (`ReallocBuffer b = {}` as in src/realloc-buffer.h:10-15). -/
def empty0 : Buf := { data := [], allocated := 0, start := 0, stop := 0 }

/-- src/realloc-buffer.c:12 `REALLOC_BUFFER_MAX`. -/
abbrev MAX : Nat := 1024 * 1024 * 1024

/-- src/util.h:536-538 `ALIGN_TO` for a page size that is a power of two (4096). -/
def alignTo (l ali : Nat) : Nat := (l + ali - 1) / ali * ali

/-- src/realloc-buffer.h:45-51 `realloc_buffer_size`. -/
def size (b : Buf) : Res Nat := do
  Res.assert (decide (b.start ≤ b.stop))
  Res.assert (decide (b.stop ≤ b.allocated))
  .ok (b.stop - b.start)

/-- src/realloc-buffer.h:17-27 `realloc_buffer_data`: the offset of the first byte in `data`. -/
def dataOff (b : Buf) : Res Nat := do
  Res.assert (decide (b.start ≤ b.stop))
  Res.assert (decide (b.stop ≤ b.allocated))
  .ok b.start

/-- `malloc(n)`: fresh memory (no repo lines: C library). -/
def malloc (junk : Nat → UInt8) (n : Nat) : Bytes := (List.range n).map junk

/-- `realloc(p, n)` to a size that is not smaller: the old bytes, then uninitialised ones (C library). -/
def realloc (junk : Nat → UInt8) (old : Bytes) (n : Nat) : Bytes :=
  old.take n ++ (malloc junk n).drop old.length

/-- `memcpy(p + off, src, len)` into memory `m` (C library); outside of the memory: undefined. -/
def memcpy (m : Bytes) (off : Nat) (src : Bytes) : Res Bytes :=
  if off + src.length ≤ m.length then .ok (m.take off ++ src ++ m.drop (off + src.length)) else .ub

/-- src/realloc-buffer.c:14-70 `realloc_buffer_acquire`: the new buffer and the offset of the returned pointer in
`data`. -/
def acquire (junk : Nat → UInt8) (b : Buf) (sz : Nat) : Res (Buf × Nat) :=
  if sz = 0 then .ok ({ b with start := 0, stop := 0 }, 0)
  else if sz > MAX then .err .ENOMEM
  else
    let ne := (b.start + sz) % 2 ^ 64
    if ne < b.start then .err .ENOMEM
    else if ne ≤ b.allocated then do
      let b := { b with stop := ne }
      let off ← dataOff b
      .ok (b, off)
    else
      let na := b.allocated * 2 % 2 ^ 64
      if na < b.allocated then .err .ENOMEM
      else
        let na := if na > MAX then MAX else na
        let ns := alignTo (max na sz) 4096
        if b.start = 0 then
          .ok ({ data := realloc junk b.data ns, allocated := ns, start := 0, stop := sz }, 0)
        else do
          let off ← dataOff b
          let len ← size b
          if off + len ≤ b.data.length then
            let m ← memcpy (malloc junk ns) 0 ((b.data.drop off).take len)
            .ok ({ data := m, allocated := ns, start := 0, stop := sz }, 0)
          else .ub

/-- src/realloc-buffer.c:72-114 `realloc_buffer_acquire0`. -/
def acquire0 (b : Buf) (sz : Nat) : Res (Buf × Nat) :=
  if sz = 0 then .ok ({ b with start := 0, stop := 0 }, 0)
  else if sz > MAX then .err .ENOMEM
  else if sz < b.allocated then do
    let m ← memcpy b.data 0 (List.replicate sz 0)
    let b := { b with data := m, start := 0, stop := sz }
    let off ← dataOff b
    .ok (b, off)
  else
    let na := b.allocated * 2 % 2 ^ 64
    if na < b.allocated then .err .ENOMEM
    else
      let na := if na > MAX then MAX else na
      let ns := alignTo (max na sz) 4096
      .ok ({ data := List.replicate ns 0, allocated := ns, start := 0, stop := sz }, 0)

/-- src/realloc-buffer.c:116-134 `realloc_buffer_extend`. -/
def extend (junk : Nat → UInt8) (b : Buf) (add : Nat) : Res (Buf × Nat) := do
  let old ← size b
  let new := (old + add) % 2 ^ 64
  if new < old then .err .ENOMEM
  else do
    let r ← acquire junk b new
    .ok (r.1, r.2 + old)

/-- src/realloc-buffer.c:136-145 `realloc_buffer_extend0`. -/
def extend0 (junk : Nat → UInt8) (b : Buf) (add : Nat) : Res (Buf × Nat) := do
  let r ← extend junk b add
  let m ← memcpy r.1.data r.2 (List.replicate add 0)
  .ok ({ r.1 with data := m }, r.2)

/-- src/realloc-buffer.c:147-159 `realloc_buffer_append`. -/
def append (junk : Nat → UInt8) (b : Buf) (p : Bytes) : Res (Buf × Nat) := do
  let r ← extend junk b p.length
  let m ← memcpy r.1.data r.2 p
  .ok ({ r.1 with data := m }, r.2)

/-- src/realloc-buffer.c:161-167 `realloc_buffer_free`. -/
def free (_ : Buf) : Buf := empty0

/-- src/realloc-buffer.h:67-69 `realloc_buffer_empty`. -/
def emptyBuf (b : Buf) : Buf := { b with start := 0, stop := 0 }

/-- src/realloc-buffer.c:169-193 `realloc_buffer_advance`. -/
def advance (b : Buf) (sz : Nat) : Res Buf :=
  if sz = 0 then .ok b
  else
    let ns := (b.start + sz) % 2 ^ 64
    if ns < b.start then .err .EINVAL
    else if ns > b.stop then .err .EINVAL
    else if ns = b.stop then .ok { b with start := 0, stop := 0 }
    else .ok { b with start := ns }

/-- src/realloc-buffer.c:195-212 `realloc_buffer_shorten`. -/
def shorten (b : Buf) (sz : Nat) : Res Buf := do
  let cur ← size b
  if sz > cur then .err .EINVAL
  else if sz = 0 then .ok b
  else
    let b := { b with stop := b.stop - sz }
    if b.stop = b.start then .ok { b with start := 0, stop := 0 } else .ok b

/-- src/realloc-buffer.c:214-228 `realloc_buffer_truncate`. -/
def truncate (b : Buf) (sz : Nat) : Res Buf :=
  if sz = 0 then .ok { b with start := 0, stop := 0 }
  else do
    let cur ← size b
    if sz > cur then .err .EINVAL else .ok { b with stop := b.start + sz }

/-- src/def.h:8 `BUFFER_SIZE`. -/
abbrev BUFFER_SIZE : Nat := 64 * 1024

/-- src/realloc-buffer.c:230-256 `realloc_buffer_read_size`. `reply` is what `read(2)` answers: `none` is an error (errno
`EIO` stands for any), `some d` are the bytes delivered; the kernel never delivers more than asked for. The Boolean is
"some bytes were read". -/
def readSize (junk : Nat → UInt8) (b : Buf) (add : Nat) (reply : Option Bytes) : Res (Buf × Except Errno Bool) := do
  let add := if add = 2 ^ 64 - 1 ∨ add < BUFFER_SIZE then BUFFER_SIZE else add
  let r ← extend junk b add
  match reply with
  | none => do
    let b ← shorten r.1 add
    .ok (b, .error .EIO)
  | some d =>
    if d.length > add then .ub
    else do
      let m ← memcpy r.1.data r.2 d
      let b ← shorten { r.1 with data := m } (add - d.length)
      .ok (b, .ok (decide (0 < d.length)))

/-- src/realloc-buffer.c:297-318 `realloc_buffer_steal`: the memory handed out and the emptied buffer. With `start == 0`
the whole allocation is handed out (the caller knows the size), otherwise a copy of the contents. -/
def steal (b : Buf) : Res (Bytes × Buf) :=
  if b.start = 0 then .ok (b.data, empty0)
  else do
    let off ← dataOff b
    let len ← size b
    .ok ((b.data.drop off).take len, empty0)

/-- src/realloc-buffer.c:320-342 `realloc_buffer_donate`. -/
def donate (junk : Nat → UInt8) (b : Buf) (p : Bytes) : Res Buf := do
  let cur ← size b
  if cur > 0 then do
    let r ← append junk b p
    .ok r.1
  else .ok { data := p, allocated := p.length, start := 0, stop := p.length }

/-- src/realloc-buffer.c:430-459 `realloc_buffer_memchr`: index of the first byte `c`. -/
def memchr (b : Buf) (c : UInt8) : Res Nat := do
  let l ← size b
  if l = 0 then .err .ENXIO
  else do
    let off ← dataOff b
    match ((b.data.drop off).take l).idxOf? c with
    | none => .err .ENXIO
    | some d => if d < 2 ^ 31 then .ok d else .err .EOVERFLOW

/-- The operations a user of the buffer has. -/
inductive Op
  | acquire (n : Nat) | acquire0 (n : Nat) | extend (n : Nat) | extend0 (n : Nat) | append (p : Bytes)
  | free | empty | advance (n : Nat) | shorten (n : Nat) | truncate (n : Nat)
  | read (n : Nat) (reply : Option Bytes) | donate (p : Bytes) | steal
  deriving DecidableEq, Repr

/-- Apply an operation (dispatch over the functions above). -/
def exec (junk : Nat → UInt8) (b : Buf) : Op → Res Buf
  | .acquire n => do let r ← acquire junk b n; .ok r.1
  | .acquire0 n => do let r ← acquire0 b n; .ok r.1
  | .extend n => do let r ← extend junk b n; .ok r.1
  | .extend0 n => do let r ← extend0 junk b n; .ok r.1
  | .append p => do let r ← append junk b p; .ok r.1
  | .free => .ok (free b)
  | .empty => .ok (emptyBuf b)
  | .advance n => advance b n
  | .shorten n => shorten b n
  | .truncate n => truncate b n
  | .read n reply => do let r ← readSize junk b n reply; .ok r.1
  | .donate p => donate junk b p
  | .steal => do let r ← steal b; .ok r.2

/-- Run operations one after another; a refused one leaves the buffer as it is (the C functions return before changing
anything). The list of Booleans says which ones were carried out. -/
def run (junk : Nat → Nat → UInt8) (t : Nat) (b : Buf) : List Op → Res (Buf × List Bool)
  | [] => .ok (b, [])
  | op :: ops =>
    match exec (junk t) b op with
    | .ok b' => do
      let r ← run junk (t + 1) b' ops
      .ok (r.1, true :: r.2)
    | .err _ => do
      let r ← run junk (t + 1) b ops
      .ok (r.1, false :: r.2)
    | .ub => .ub

end Casync.Buffer
