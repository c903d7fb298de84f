import Verif.Base.Res
import Verif.Base.Bytes
/-!
Model of `src/siphash24.c`. `uint64_t` is `UInt64` (wrapping, as in C); the `inlen` counter (`size_t`) is a `Nat` reduced
modulo 2^64 at each addition.
-/
namespace Casync.SipHash
open Casync

/-- src/siphash24.h:10-17 `struct siphash`. -/
structure State where
  v0 : UInt64
  v1 : UInt64
  v2 : UInt64
  v3 : UInt64
  padding : UInt64
  inlen : Nat
  deriving DecidableEq, Repr

/-- src/siphash24.c:27-31 `rotate_left` (called with constants `0 < b < 64` only). -/
def rotateLeft (x : UInt64) (b : UInt64) : UInt64 := (x <<< b) ||| (x >>> (64 - b))

/-- src/siphash24.c:33-50 `sipround`, statement by statement. -/
def sipround (s : State) : State :=
  let s := { s with v0 := s.v0 + s.v1 }
  let s := { s with v1 := rotateLeft s.v1 13 }
  let s := { s with v1 := s.v1 ^^^ s.v0 }
  let s := { s with v0 := rotateLeft s.v0 32 }
  let s := { s with v2 := s.v2 + s.v3 }
  let s := { s with v3 := rotateLeft s.v3 16 }
  let s := { s with v3 := s.v3 ^^^ s.v2 }
  let s := { s with v0 := s.v0 + s.v3 }
  let s := { s with v3 := rotateLeft s.v3 21 }
  let s := { s with v3 := s.v3 ^^^ s.v0 }
  let s := { s with v2 := s.v2 + s.v1 }
  let s := { s with v1 := rotateLeft s.v1 17 }
  let s := { s with v1 := s.v1 ^^^ s.v2 }
  { s with v2 := rotateLeft s.v2 32 }

/-- `read_le64` (src/util.h): the first eight bytes as a little endian number. -/
def readLe64 (p : Bytes) : UInt64 := UInt64.ofNat (rdLE (p.take 8))

/-- src/siphash24.c:52-70 `siphash24_init`. -/
def init (k : Bytes) : State :=
  let k0 := readLe64 k
  let k1 := readLe64 (k.drop 8)
  { v0 := 0x736f6d6570736575 ^^^ k0
    v1 := 0x646f72616e646f6d ^^^ k1
    v2 := 0x6c7967656e657261 ^^^ k0
    v3 := 0x7465646279746573 ^^^ k1
    padding := 0
    inlen := 0 }

/-- src/siphash24.c:105-108 and 126-129: absorb one word. -/
def absorb (m : UInt64) (s : State) : State :=
  let s := { s with v3 := s.v3 ^^^ m }
  let s := sipround (sipround s)
  { s with v0 := s.v0 ^^^ m }

/-- src/siphash24.c:88-89, the loop that fills up the padding: bytes left, number of padding bytes, state. -/
def fill : Bytes → Nat → State → Bytes × Nat × State
  | [], left, s => ([], left, s)
  | b :: bs, left, s =>
    if left < 8 then fill bs (left + 1) { s with padding := s.padding ||| (b.toUInt64 <<< UInt64.ofNat (left * 8)) }
    else (b :: bs, left, s)

/-- src/siphash24.c:114-130, the loop over whole words: `k` words from `p` on (`(end - in) / 8` rounds). -/
def wordLoop : Nat → Bytes → State → Bytes × State
  | 0, p, s => (p, s)
  | k + 1, p, s => wordLoop k (p.drop 8) (absorb (readLe64 p) s)

/-- src/siphash24.c:132-155, the `switch` with fall through: bytes `left-1`, …, 0. Reading behind the input is undefined. -/
def tail : Nat → Bytes → State → Res State
  | 0, _, s => .ok s
  | n + 1, p, s =>
    match p[n]? with
    | none => .ub
    | some b => tail n p { s with padding := s.padding ||| (b.toUInt64 <<< UInt64.ofNat (n * 8)) }

/-- src/siphash24.c:111-155, the part of `siphash24_compress` behind the padding: words, then the rest. `in > end`
(a pointer difference that would go negative) is undefined. -/
def compressRest (p : Bytes) (s : State) : Res State :=
  if p.length < s.inlen % 8 then .ub
  else
    let r := wordLoop ((p.length - s.inlen % 8 + 7) / 8) p s
    tail (s.inlen % 8) r.1 r.2

/-- src/siphash24.c:72-156 `siphash24_compress`. -/
def compress (p : Bytes) (s : State) : Res State :=
  let left := s.inlen % 8
  let s := { s with inlen := (s.inlen + p.length) % 2 ^ 64 }
  if left > 0 then
    let r := fill p left s
    if r.1 = [] ∧ r.2.1 < 8 then .ok r.2.2
    else compressRest r.1 { absorb r.2.2.padding r.2.2 with padding := 0 }
  else compressRest p s

/-- src/siphash24.c:158-192 `siphash24_finalize`. -/
def finalize (s : State) : UInt64 :=
  let b := s.padding ||| (UInt64.ofNat s.inlen <<< 56)
  let s := absorb b s
  let s := { s with v2 := s.v2 ^^^ 0xff }
  let s := sipround (sipround (sipround (sipround s)))
  s.v0 ^^^ s.v1 ^^^ s.v2 ^^^ s.v3

/-- src/siphash24.c:194-205 `siphash24`. -/
def siphash24 (data : Bytes) (k : Bytes) : Res UInt64 := do
  let s ← compress data (init k)
  .ok (finalize s)

/-- A sequence of `siphash24_compress()` calls (as `src/hashmap.c:318-322` and the hash functions issue them). -/
def compressAll : List Bytes → State → Res State
  | [], s => .ok s
  | p :: ps, s => do
    let s ← compress p s
    compressAll ps s

end Casync.SipHash
