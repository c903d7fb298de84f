import Verif.Base.Res

/-!
Model of `src/cachunker.c`, `src/cachunker.h` and of the caller loop `ca_sync_write_chunks()` /
`ca_sync_write_final_chunk()` in `src/casync.c`.
-/
namespace Casync.Chunker
open Casync

/-- `CA_CHUNKER_WINDOW_SIZE`, cachunker.h:14 -/
abbrev windowSize : Nat := 48
/-- `CA_CHUNK_SIZE_LIMIT_MAX`, cachunk.h:11 -/
abbrev limitMax : Nat := 128 * 1024 * 1024
/-- `CA_CHUNK_SIZE_LIMIT_MIN`, cachunk.h:12 -/
abbrev limitMin : Nat := 1
/-- `CA_CHUNK_SIZE_AVG_DEFAULT`, cachunker.h:11 -/
abbrev avgDefault : Nat := 64 * 1024

/-- `rol32`, util.h:667-674 -/
def rol32 (x : BitVec 32) (i : Nat) : BitVec 32 :=
  let i := i % 32
  if i = 0 then x else (x <<< i) ||| (x >>> (32 - i))

/-- `buzhash_table`, cachunker.c:91-156 -/
def buzhashTable : Array (BitVec 32) := #[
  0x458be752, 0xc10748cc, 0xfbbcdbb8, 0x6ded5b68, 0xb10a82b5, 0x20d75648, 0xdfc5665f, 0xa8428801,
  0x7ebf5191, 0x841135c7, 0x65cc53b3, 0x280a597c, 0x16f60255, 0xc78cbc3e, 0x294415f5, 0xb938d494,
  0xec85c4e6, 0xb7d33edc, 0xe549b544, 0xfdeda5aa, 0x882bf287, 0x3116737c, 0x05569956, 0xe8cc1f68,
  0x0806ac5e, 0x22a14443, 0x15297e10, 0x50d090e7, 0x4ba60f6f, 0xefd9f1a7, 0x5c5c885c, 0x82482f93,
  0x9bfd7c64, 0x0b3e7276, 0xf2688e77, 0x8fad8abc, 0xb0509568, 0xf1ada29f, 0xa53efdfe, 0xcb2b1d00,
  0xf2a9e986, 0x6463432b, 0x95094051, 0x5a223ad2, 0x9be8401b, 0x61e579cb, 0x1a556a14, 0x5840fdc2,
  0x9261ddf6, 0xcde002bb, 0x52432bb0, 0xbf17373e, 0x7b7c222f, 0x2955ed16, 0x9f10ca59, 0xe840c4c9,
  0xccabd806, 0x14543f34, 0x1462417a, 0x0d4a1f9c, 0x087ed925, 0xd7f8f24c, 0x7338c425, 0xcf86c8f5,
  0xb19165cd, 0x9891c393, 0x325384ac, 0x0308459d, 0x86141d7e, 0xc922116a, 0xe2ffa6b6, 0x53f52aed,
  0x2cd86197, 0xf5b9f498, 0xbf319c8f, 0xe0411fae, 0x977eb18c, 0xd8770976, 0x9833466a, 0xc674df7f,
  0x8c297d45, 0x8ca48d26, 0xc49ed8e2, 0x7344f874, 0x556f79c7, 0x6b25eaed, 0xa03e2b42, 0xf68f66a4,
  0x8e8b09a2, 0xf2e0e62a, 0x0d3a9806, 0x9729e493, 0x8c72b0fc, 0x160b94f6, 0x450e4d3d, 0x7a320e85,
  0xbef8f0e1, 0x21d73653, 0x4e3d977a, 0x1e7b3929, 0x1cc6c719, 0xbe478d53, 0x8d752809, 0xe6d8c2c6,
  0x275f0892, 0xc8acc273, 0x4cc21580, 0xecc4a617, 0xf5f7be70, 0xe795248a, 0x375a2fe9, 0x425570b6,
  0x8898dcf8, 0xdc2d97c4, 0x0106114b, 0x364dc22f, 0x1e0cad1f, 0xbe63803c, 0x5f69fac2, 0x4d5afa6f,
  0x1bc0dfb5, 0xfb273589, 0x0ea47f7b, 0x3c1c2b50, 0x21b2a932, 0x6b1223fd, 0x2fe706a8, 0xf9bd6ce2,
  0xa268e64e, 0xe987f486, 0x3eacf563, 0x1ca2018c, 0x65e18228, 0x2207360a, 0x57cf1715, 0x34c37d2b,
  0x1f8f3cde, 0x93b657cf, 0x31a019fd, 0xe69eb729, 0x8bca7b9b, 0x4c9d5bed, 0x277ebeaf, 0xe0d8f8ae,
  0xd150821c, 0x31381871, 0xafc3f1b0, 0x927db328, 0xe95effac, 0x305a47bd, 0x426ba35b, 0x1233af3f,
  0x686a5b83, 0x50e072e5, 0xd9d3bb2a, 0x8befc475, 0x487f0de6, 0xc88dff89, 0xbd664d5e, 0x971b5d18,
  0x63b14847, 0xd7d3c1ce, 0x7f583cf3, 0x72cbcb09, 0xc0d0a81c, 0x7fa3429b, 0xe9158a1b, 0x225ea19a,
  0xd8ca9ea3, 0xc763b282, 0xbb0c6341, 0x020b8293, 0xd4cd299d, 0x58cfa7f8, 0x91b4ee53, 0x37e4d140,
  0x95ec764c, 0x30f76b06, 0x5ee68d24, 0x679c8661, 0xa41979c2, 0xf2b61284, 0x4fac1475, 0x0adb49f9,
  0x19727a23, 0x15a7e374, 0xc43a18d5, 0x3fb1aa73, 0x342fc615, 0x924c0793, 0xbee2d7f0, 0x8a279de9,
  0x4aa2d70c, 0xe24dd37f, 0xbe862c0b, 0x177c22c2, 0x5388e5ee, 0xcd8a7510, 0xf901b4fd, 0xdbc13dbc,
  0x6c0bae5b, 0x64efe8c7, 0x48b02079, 0x80331a49, 0xca3d8ae6, 0xf3546190, 0xfed7108b, 0xc49b941b,
  0x32baf4a9, 0xeb833a4a, 0x88a3f1a5, 0x3a91ce0a, 0x3cc27da1, 0x7112e684, 0x4a3096b1, 0x3794574c,
  0xa3c8b6f3, 0x1d213941, 0x6e0a2e00, 0x233479f1, 0x0f4cd82f, 0x6093edd2, 0x5d7d209e, 0x464fe319,
  0xd4dcac9e, 0x0db845cb, 0xfb5e4bc3, 0xe0256ce1, 0x09fb4ed1, 0x0914be1e, 0xa5bdb2c3, 0xc6eb57bb,
  0x30320350, 0x3f397e91, 0xa67791bc, 0x86bc0e2c, 0xefa0a7e2, 0xe9ff7543, 0xe733612c, 0xd185897b,
  0x329e5388, 0x91dd236b, 0x2ecb0d93, 0xf4d82a3d, 0x35b5c03f, 0xe4e606f0, 0x05b21843, 0x37b45964,
  0x5eff22f4, 0x6027f4cc, 0x77178b3c, 0xae507131, 0x7bf7cabc, 0xf9c18d66, 0x593ade65, 0xd95ddf11
]

/-- Table lookup `buzhash_table[b]` (cachunker.c:91-156). The table has 256 entries, so the lookup
with a byte is always in range (`table_size` in Lemmas/Chunker.lean). -/
def tab (b : UInt8) : BitVec 32 := buzhashTable.getD b.toNat 0

/-- `struct CaChunker`, cachunker.h:22-36. `window` always has 48 entries (part of the invariant);
`size_t` counters are `Nat`. -/
structure Chunker where
  h : BitVec 32
  wsize : Nat
  csize : Nat
  min : Nat
  max : Nat
  avg : Nat
  discr : Nat
  window : List UInt8
  deriving Repr, DecidableEq

/-- `ca_chunker_start`'s loop over the window, cachunker.c:171-174: all but the last byte are
rotated by the distance to the end, `n - i` for `i = 1..n-1`; the last one enters unrotated.
Reading from an empty buffer would be out of bounds; the caller passes 48 bytes. -/
def startLoop (h : BitVec 32) : List UInt8 → BitVec 32
  | [] => h
  | [b] => h ^^^ tab b
  | b :: b' :: rest => startLoop (h ^^^ rol32 (tab b) (rest.length + 1)) (b' :: rest)

/-- `ca_chunker_start`, cachunker.c:158-177 (the four asserts on the configured sizes, 164-167, are the
configuration invariant `Config` in Props/Chunker.lean, established by `setSize`). -/
def start (c : Chunker) (p : List UInt8) : Chunker :=
  { c with wsize := p.length, h := startLoop c.h p }

/-- `ca_chunker_roll`, cachunker.c:179-186 -/
def roll (c : Chunker) (leave enter : UInt8) : Chunker :=
  { c with h := rol32 c.h 1 ^^^ rol32 (tab leave) c.wsize ^^^ tab enter }

/-- `shall_break`, cachunker.c:188-195. `v` is the hash just computed (= `c.h`). -/
def shallBreak (c : Chunker) : Bool :=
  c.csize ≥ c.max || c.h.toNat % c.discr == c.discr - 1

/-- `CA_CHUNKER_IS_FIXED_SIZE`, cachunker.c:197-200 -/
def isFixed (c : Chunker) : Bool := c.min == c.avg && c.max == c.avg

/-- label `now:` of `ca_chunker_scan`, cachunker.c:286-291 -/
def reset (c : Chunker) : Chunker := { c with h := 0, csize := 0, wsize := 0 }

/-- `memcpy(c->window + off, src, n)`, cachunker.c:249 -/
def copyAt (w : List UInt8) (off : Nat) (src : List UInt8) : List UInt8 :=
  w.take off ++ src ++ w.drop (off + src.length)

/-- The `while (n > 0)` loop of `ca_chunker_scan`, cachunker.c:269-284.
`k` counts the bytes consumed so far, `idx` is the ring buffer position. -/
def rollLoop (c : Chunker) (idx k : Nat) : List UInt8 → Option Nat × Chunker
  | [] => (none, c)
  | q :: rest =>
    let c := roll c (c.window.getD idx 0) q
    let c := { c with csize := c.csize + 1 }
    let k := k + 1
    if shallBreak c then (some k, reset c)
    else
      let c := { c with window := c.window.set idx q }
      let idx := idx + 1
      let idx := if idx = windowSize then 0 else idx
      rollLoop c idx k rest

/-- `ca_chunker_scan`, cachunker.c:202-292. `none` is `(size_t) -1` ("no border found").
`Res.ub` is the failing `assert(c->chunk_size < fixed_size)` of line 215. -/
def scan (c : Chunker) (p : List UInt8) : Res (Option Nat × Chunker) :=
  if isFixed c then
    if ¬ c.csize < c.avg then .ub
    else
      let m := Nat.min (c.avg - c.csize) p.length
      let c := { c with csize := c.csize + m }
      if c.csize < c.avg then .ok (none, c) else .ok (some m, reset c)
  else
    let skip := if c.min > windowSize then c.min - windowSize else 0
    let k := if c.csize < skip then skip - c.csize else 0
    if c.csize < skip ∧ k ≥ p.length then
      .ok (none, { c with csize := c.csize + p.length })
    else
      let q := p.drop k
      let c := { c with csize := c.csize + k }
      if c.wsize < windowSize then
        let m := Nat.min (windowSize - c.wsize) q.length
        let c := { c with window := copyAt c.window c.wsize (q.take m),
                          wsize := c.wsize + m, csize := c.csize + m }
        let q := q.drop m
        if c.wsize < windowSize then .ok (none, c)
        else
          let c := start c (c.window.take c.wsize)
          let k := k + m
          if shallBreak c then .ok (some k, reset c)
          else .ok (rollLoop c ((c.csize - skip) % windowSize) k q)
      else .ok (rollLoop c ((c.csize - skip) % windowSize) k q)

/-- Result of the floating point parts of `ca_chunker_set_size`: they are parameters of the model,
so the theorems hold whatever the floating point unit delivers.
`geo min max` is `(size_t) lrint(pow(2, (log2(min) + log2(max)) / 2))` (cachunker.c:24);
`discr avg` is `CA_CHUNKER_DISCRIMINATOR_FROM_AVG(avg)` (cachunker.h:20), where `none` means that the
conversion of a value outside the range of `size_t` is undefined behaviour. -/
structure Fpu where
  geo : Nat → Nat → Nat
  discr : Nat → Option Nat

/-- `CA_CHUNKER_DISCRIMINATOR_FROM_AVG`, cachunker.h:20, in exact rational arithmetic (numerator and
denominator scaled by 10^15): `avg / (1.33237515 - 1.42888852e-7 * avg)` rounded towards zero.
A zero or negative denominator gives an infinite or negative value: its conversion to `size_t` is
undefined (none) unless it is above -1. -/
def discrExact (avg : Nat) : Option Nat :=
  if 142888852 * avg < 1332375150000000 then
    some (avg * 1000000000000000 / (1332375150000000 - 142888852 * avg))
  else none

/-- `size_t` wrap-around -/
def wrap64 (n : Nat) : Nat := n % 2 ^ 64

/-- `ca_chunker_set_size`, determining `avg_size`, cachunker.c:22-42 -/
def pickAvg (fpu : Fpu) (minSize avgSize maxSize : Nat) : Res Nat :=
  if avgSize = 0 then
    let a :=
      if minSize ≠ 0 ∧ maxSize ≠ 0 then fpu.geo minSize maxSize
      else if minSize ≠ 0 then wrap64 (minSize * 4)
      else if maxSize ≠ 0 then maxSize / 4
      else avgDefault
    let a := if a < limitMin then limitMin else a
    .ok (if a > limitMax then limitMax else a)
  else if avgSize < limitMin then .err .ERANGE
  else if avgSize > limitMax then .err .ERANGE
  else .ok avgSize

/-- `ca_chunker_set_size`, determining `min_size`, cachunker.c:44-53 -/
def pickMin (minSize avg : Nat) : Res Nat :=
  if minSize = 0 then .ok (if avg / 4 < limitMin then limitMin else avg / 4)
  else if minSize < limitMin then .err .ERANGE
  else if minSize > avg then .err .EINVAL
  else .ok minSize

/-- `ca_chunker_set_size`, determining `max_size`, cachunker.c:55-64 -/
def pickMax (maxSize avg : Nat) : Res Nat :=
  if maxSize = 0 then
    .ok (if wrap64 (avg * 4) > limitMax then limitMax else wrap64 (avg * 4))
  else if maxSize > limitMax then .err .ERANGE
  else if maxSize < avg then .err .EINVAL
  else .ok maxSize

/-- `ca_chunker_set_size`, cachunker.c:9-89 -/
def setSize (fpu : Fpu) (c : Chunker) (minSize avgSize maxSize : Nat) : Res Chunker :=
  if c.wsize ≠ 0 then .err .EBUSY
  else do
    let avg ← pickAvg fpu minSize avgSize maxSize
    let mn ← pickMin minSize avg
    let mx ← pickMax maxSize avg
    Res.assert (limitMin ≤ mn)
    Res.assert (mn ≤ avg)
    Res.assert (avg ≤ mx)
    Res.assert (mx ≤ limitMax)
    match fpu.discr avg with
    | none => .ub
    | some d =>
      let d := if d < mn then mn else d
      let d := if d > mx then mx else d
      .ok { c with min := mn, avg := avg, max := mx, discr := d }

/-- `CA_CHUNKER_INIT`, cachunker.h:39-45 (the remaining members are zero-initialised) -/
def init : Chunker :=
  { h := 0, wsize := 0, csize := 0, min := avgDefault / 4, avg := avgDefault, max := avgDefault * 4,
    discr := (discrExact avgDefault).getD 0, window := List.replicate windowSize 0 }

/-- The part of `struct CaSync` that chunking uses: the chunker, `s->buffer` (bytes since the last cut)
and the sequence of chunks passed to `ca_sync_write_one_chunk()` so far. -/
structure Writer where
  chunker : Chunker
  buffer : List UInt8
  out : List (List UInt8)
  deriving Repr, DecidableEq

/-- `ca_sync_write_chunks`, casync.c:1692-1764 (origin tracking is modelled in Model/Origin.lean; storing the
chunk is the append to `out`). The `fuel` bounds the number of loop iterations; running out of it
is `ub`, and `writeChunks` provides enough (each iteration consumes at least one byte, which is a
theorem, not an assumption). -/
def writeLoop : Nat → Writer → List UInt8 → Res Writer
  | _, w, [] => .ok w
  | 0, _, _ :: _ => .ub
  | fuel + 1, w, p@(_ :: _) =>
    match scan w.chunker p with
    | .ub => .ub
    | .err e => .err e
    | .ok (none, c) => .ok { w with chunker := c, buffer := w.buffer ++ p }
    | .ok (some k, c) =>
      writeLoop fuel { chunker := c, buffer := [], out := w.out ++ [w.buffer ++ p.take k] } (p.drop k)

@[inherit_doc writeLoop]
def writeChunks (w : Writer) (p : List UInt8) : Res Writer := writeLoop p.length w p

/-- A sequence of `ca_sync_write_chunks()` calls, one per buffer produced by the encoder. -/
def writeAll (w : Writer) : List (List UInt8) → Res Writer
  | [] => .ok w
  | p :: ps => do
    let w ← writeChunks w p
    writeAll w ps

/-- `ca_sync_write_final_chunk`, casync.c:1766-1795 (chunk part) -/
def writeFinal (w : Writer) : List (List UInt8) :=
  if w.buffer.length > 0 then w.out ++ [w.buffer] else w.out

end Casync.Chunker
