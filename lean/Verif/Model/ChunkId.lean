import Verif.Base.Res
import Verif.Base.Bytes
/-!
Model of `src/cachunkid.c` and `src/cachunkid.h`: textual form and store path of chunk ids.

C strings are byte lists without the terminating NUL; reading the index just behind the list gives the NUL,
reading further is undefined behaviour. Characters are `UInt8`.
-/
namespace Casync.ChunkId
open Casync

/-- `v[i]` of a C string (no repo lines: the language's array access on a NUL terminated array). -/
def strAt (v : Bytes) (i : Nat) : Res UInt8 :=
  if h : i < v.length then .ok v[i] else if i = v.length then .ok 0 else .ub

/-- src/cachunkid.c:10-13 `encode_char`. -/
def encodeChar (x : UInt8) : UInt8 :=
  let x := x &&& 0xF
  (if x < 10 then 48 else 97 - 10) + x

/-- src/cachunkid.c:15-22 `decode_char`; `none` is `-EINVAL`. -/
def decodeChar (x : UInt8) : Option UInt8 :=
  if 48 ≤ x ∧ x ≤ 57 then some (x - 48)
  else if 97 ≤ x ∧ x ≤ 102 then some (x - 97 + 10)
  else none

/-- src/cachunkid.c:31-42, the loop of `ca_chunk_id_parse`: `n` bytes from index `i` on. The result `none` is
the NULL pointer. -/
def parseLoop (v : Bytes) : Nat → Nat → Res (Option Bytes)
  | _, 0 => .ok (some [])
  | i, n + 1 => do
    let c ← strAt v (i * 2)
    match decodeChar c with
    | none => .ok none
    | some x => do
      let c ← strAt v (i * 2 + 1)
      match decodeChar c with
      | none => .ok none
      | some y => do
        let r ← parseLoop v (i + 1) n
        match r with
        | none => .ok none
        | some bs => .ok (some ((x <<< 4 ||| y) :: bs))

/-- src/cachunkid.c:24-49 `ca_chunk_id_parse`; `none` is the NULL pointer. -/
def parse (v : Bytes) : Res (Option Bytes) := do
  let r ← parseLoop v 0 32
  match r with
  | none => .ok none
  | some id => do
    let c ← strAt v 64
    if c ≠ 0 then .ok none else .ok (some id)

/-- src/cachunkid.c:51-63 `ca_chunk_id_format`: the two digits of each byte in turn. -/
def format : Bytes → Bytes
  | [] => []
  | b :: bs => encodeChar (b >>> 4) :: encodeChar (b &&& 0xF) :: format bs

/-- src/cachunkid.c:88-112 `ca_chunk_id_format_path`: prefix, the first four digits, a slash, all digits,
suffix. NULL prefix and suffix are the empty string. -/
def formatPath (pre id suf : Bytes) : Bytes :=
  pre ++ ((format id).take 4 ++ (47 :: (format id ++ suf)))

/-- src/cachunkid.h:25-35 `ca_chunk_id_equal` on non-NULL pointers (`memcmp`). -/
def equal (a b : Bytes) : Bool := a == b

/-- src/cachunkid.h:37-48 `ca_chunk_id_is_null`, the loop: `n` rounds, each of which looks at `u64[0]`, that
is the first eight bytes (little endian does not matter for a comparison with zero). -/
def isNullLoop (id : Bytes) : Nat → Bool
  | 0 => true
  | n + 1 => if rdLE (id.take 8) ≠ 0 then false else isNullLoop id n

/-- src/cachunkid.h:37-48 `ca_chunk_id_is_null` on a non-NULL pointer: `CA_CHUNK_ID_SIZE / 8` rounds. -/
def isNull (id : Bytes) : Bool := isNullLoop id 4

end Casync.ChunkId
