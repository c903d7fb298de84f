import Verif.Base.Bytes
/-!
What the different kinds of locators look like.
-/
namespace Casync.LocatorSpec
open Casync

/-- Letters, digits and punctuation, as ASCII ranges. -/
def Lower (b : UInt8) : Prop := 97 ≤ b.toNat ∧ b.toNat ≤ 122
def Upper (b : UInt8) : Prop := 65 ≤ b.toNat ∧ b.toNat ≤ 90
def Digit (b : UInt8) : Prop := 48 ≤ b.toNat ∧ b.toNat ≤ 57
/-- Lower case letters, digits, `+`, `.`, `-`. -/
def ProtoChar (b : UInt8) : Prop := Lower b ∨ Digit b ∨ b = 43 ∨ b = 46 ∨ b = 45
/-- Letters, digits, `-`, `_`, `.`, `%`. -/
def HostChar (b : UInt8) : Prop := Lower b ∨ Upper b ∨ Digit b ∨ b = 45 ∨ b = 95 ∨ b = 46 ∨ b = 37
/-- The same and `@`, `:`, `[`, `]`. -/
def UrlHostChar (b : UInt8) : Prop := HostChar b ∨ b = 64 ∨ b = 58 ∨ b = 91 ∨ b = 93

/-- `PROTOCOL://HOST` followed by nothing or by `/`, `;` or `?` and anything; the protocol starts with a letter. -/
def IsUrl (s : Bytes) : Prop :=
  ∃ c proto host rest, s = c :: proto ++ [58, 47, 47] ++ host ++ rest ∧ Lower c ∧ (∀ b ∈ proto, ProtoChar b) ∧ host ≠ [] ∧
    (∀ b ∈ host, UrlHostChar b) ∧ (rest = [] ∨ ∃ x r, rest = x :: r ∧ (x = 47 ∨ x = 59 ∨ x = 63))

/-- `HOST:PATH` or `USER@HOST:PATH`, with no part empty. -/
def IsSsh (s : Bytes) : Prop :=
  ∃ target path, s = target ++ [58] ++ path ∧ path ≠ [] ∧
    ((target ≠ [] ∧ ∀ b ∈ target, HostChar b) ∨
     ∃ user host, target = user ++ [64] ++ host ∧ user ≠ [] ∧ host ≠ [] ∧ (∀ b ∈ user, HostChar b) ∧ (∀ b ∈ host, HostChar b))

/-- The last component of a path. -/
def IsLastComponent (p last : Bytes) : Prop := 47 ∉ last ∧ (p = last ∨ ∃ dir, p = dir ++ [47] ++ last)

/-- The value of a hexadecimal digit. -/
def HexDigit (x : UInt8) (i : Nat) : Prop :=
  (i < 10 ∧ x.toNat = 48 + i) ∨ (10 ≤ i ∧ i < 16 ∧ (x.toNat = 87 + i ∨ x.toNat = 55 + i))

/-- A percent encoding of a string: every byte as it is (but not `%`), or as `%` and two hexadecimal digits. -/
inductive Encodes : Bytes → Bytes → Prop
  | nil : Encodes [] []
  | lit (b : UInt8) (h : b ≠ 37) {e p : Bytes} : Encodes e p → Encodes (b :: e) (b :: p)
  | esc (x y b : UInt8) (i j : Nat) (hx : HexDigit x i) (hy : HexDigit y j) (hb : b.toNat = 16 * i + j) {e p : Bytes} :
      Encodes e p → Encodes (37 :: x :: y :: e) (b :: p)

end Casync.LocatorSpec
