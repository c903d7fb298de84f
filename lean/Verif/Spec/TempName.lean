import Verif.Base.Bytes
/-!
What a path, a directory and a file name are; hexadecimal digits.
-/
namespace Casync.TempName
open Casync

/-- `p` names the entry `f` of the directory that the prefix `d` stands for (nothing, or a text that ends with a slash). No repo lines. -/
structure Entry (p d f : Bytes) : Prop where
  path : p = d ++ f
  dir : d = [] ∨ ∃ e, d = e ++ [47]
  name : (47 : UInt8) ∉ f

/-- A name a directory entry of the system can have: 1 to 255 bytes (`NAME_MAX`), no slash, and not one of the two directories every
directory has. No repo lines. -/
structure Nameable (f : Bytes) : Prop where
  some : 1 ≤ f.length
  short : f.length ≤ 255
  slash : (47 : UInt8) ∉ f
  dot : f ≠ [46]
  dots : f ≠ [46, 46]

/-- The bytes `0`..`9`, `a`..`f`. No repo lines. -/
def IsHex (b : UInt8) : Prop := 48 ≤ b.toNat ∧ b.toNat ≤ 57 ∨ 97 ≤ b.toNat ∧ b.toNat ≤ 102

end Casync.TempName
