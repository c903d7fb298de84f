import Verif.Base.Bytes
/-!
SipHash-2-4 as published (Aumasson, Bernstein, 2012), on a whole message, independently of the code.
-/
namespace Casync.SipHash.Spec
open Casync

/-- Rotation of a 64 bit word. -/
def rotl (x : UInt64) (k : Nat) : UInt64 := ⟨x.toBitVec.rotateLeft k⟩

/-- SipRound of the paper, section 2.2. -/
def round : UInt64 × UInt64 × UInt64 × UInt64 → UInt64 × UInt64 × UInt64 × UInt64
  | (v0, v1, v2, v3) =>
    let a0 := v0 + v1
    let a2 := v2 + v3
    let a1 := rotl v1 13 ^^^ a0
    let a3 := rotl v3 16 ^^^ a2
    let b0 := rotl a0 32
    let c2 := a2 + a1
    let c0 := b0 + a3
    (c0, rotl a1 17 ^^^ c2, rotl c2 32, rotl a3 21 ^^^ c0)

/-- Compression of one message word: two rounds. -/
def word (v : UInt64 × UInt64 × UInt64 × UInt64) (m : UInt64) : UInt64 × UInt64 × UInt64 × UInt64 :=
  match round (round (v.1, v.2.1, v.2.2.1, v.2.2.2 ^^^ m)) with
  | (v0, v1, v2, v3) => (v0 ^^^ m, v1, v2, v3)

/-- The message words: little endian words of eight bytes; the last one holds the remaining bytes and, in its most
significant byte, the length of the message modulo 256. -/
def words (len : Nat) (data : Bytes) : List UInt64 :=
  if 8 ≤ data.length then UInt64.ofNat (rdLE (data.take 8)) :: words len (data.drop 8)
  else [UInt64.ofNat (rdLE data + 2 ^ 56 * (len % 256))]
termination_by data.length
decreasing_by rw [List.length_drop]; omega

/-- SipHash-2-4 with the 16 byte key `k`. -/
def siphash (k data : Bytes) : UInt64 :=
  let k0 := UInt64.ofNat (rdLE (k.take 8))
  let k1 := UInt64.ofNat (rdLE ((k.drop 8).take 8))
  let v := (k0 ^^^ 0x736f6d6570736575, k1 ^^^ 0x646f72616e646f6d, k0 ^^^ 0x6c7967656e657261, k1 ^^^ 0x7465646279746573)
  match (words data.length data).foldl word v with
  | (v0, v1, v2, v3) =>
    match round (round (round (round (v0, v1, v2 ^^^ 0xff, v3)))) with
    | (v0, v1, v2, v3) => v0 ^^^ v1 ^^^ v2 ^^^ v3

end Casync.SipHash.Spec
