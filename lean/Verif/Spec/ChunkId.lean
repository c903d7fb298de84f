import Verif.Base.Bytes
/-!
What the textual form of a chunk id is, independently of the code: the lower case hexadecimal number of each
byte, two digits per byte.
-/
namespace Casync.ChunkId.Spec
open Casync

/-- The sixteen lower case hexadecimal digits (ASCII). -/
def digits : List UInt8 := [48, 49, 50, 51, 52, 53, 54, 55, 56, 57, 97, 98, 99, 100, 101, 102]

/-- Text `t` denotes the bytes `id`: two digits per byte, the most significant first. -/
def Denotes : List UInt8 → Bytes → Prop
  | [], [] => True
  | a :: b :: t, x :: id =>
    (∃ i j : Nat, digits[i]? = some a ∧ digits[j]? = some b ∧ x.toNat = 16 * i + j) ∧ Denotes t id
  | _, _ => False

end Casync.ChunkId.Spec
