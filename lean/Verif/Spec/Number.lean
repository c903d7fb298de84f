import Verif.Base.Bytes
/-!
What a size given as text denotes: a sum of numbers with units, `1G512M`, units in descending order.  Written without reference to the
parser.
-/
namespace Casync.SizeSpec
open Casync

/-- Decimal digits and the number they denote: `d₀…dₖ` denotes `10 * (d₀…dₖ₋₁) + dₖ`. -/
inductive Decimal : Bytes → Nat → Prop
  | one (d : Nat) : d < 10 → Decimal [UInt8.ofNat (48 + d)] d
  | snoc (ds : Bytes) (n d : Nat) : Decimal ds n → d < 10 → Decimal (ds ++ [UInt8.ofNat (48 + d)]) (n * 10 + d)

/-- The unit letters from the largest to the smallest, with the number of bytes; nothing means bytes, too. -/
inductive Unit' : Nat → Bytes → Nat → Prop
  | E : Unit' 0 [69] (2 ^ 60)
  | P : Unit' 1 [80] (2 ^ 50)
  | T : Unit' 2 [84] (2 ^ 40)
  | G : Unit' 3 [71] (2 ^ 30)
  | M : Unit' 4 [77] (2 ^ 20)
  | K : Unit' 5 [75] (2 ^ 10)
  | B : Unit' 6 [66] 1
  | none : Unit' 7 [] 1

/-- Blanks: space, tab, newline, carriage return. -/
def Blanks (w : Bytes) : Prop := ∀ b ∈ w, b = 32 ∨ b = 9 ∨ b = 10 ∨ b = 13

/-- `Size k t n`: the text `t` denotes `n` bytes and uses only units from the `k`th on: blanks, an optional plus sign, a number,
an optional dot without digits, blanks, a unit, and then either the end or the same again with smaller units. -/
inductive Size : Nat → Bytes → Nat → Prop
  | last {k u n f : Nat} {w sgn ds dot w' sfx : Bytes} : Blanks w → (sgn = [] ∨ sgn = [43]) → Decimal ds n → (dot = [] ∨ dot = [46]) →
      Blanks w' → Unit' u sfx f → k ≤ u → Size k (w ++ (sgn ++ (ds ++ (dot ++ (w' ++ sfx))))) (n * f)
  | more {k u n f m : Nat} {w sgn ds dot w' sfx rest : Bytes} : Blanks w → (sgn = [] ∨ sgn = [43]) → Decimal ds n →
      (dot = [] ∨ dot = [46]) → Blanks w' → Unit' u sfx f → k ≤ u → Size (u + 1) rest m →
      Size k (w ++ (sgn ++ (ds ++ (dot ++ (w' ++ (sfx ++ rest)))))) (n * f + m)

/-- The value of a digit character. -/
def DigitOf (b : UInt8) (d : Nat) : Prop :=
  (d < 10 ∧ b = UInt8.ofNat (48 + d)) ∨ (10 ≤ d ∧ d < 16 ∧ (b = UInt8.ofNat (87 + d) ∨ b = UInt8.ofNat (55 + d)))

/-- Digits of a base up to 16 (`0`-`9`, `a`-`f`, `A`-`F`) and the number they denote. -/
inductive Numeral (base : Nat) : Bytes → Nat → Prop
  | one (b : UInt8) (d : Nat) : DigitOf b d → d < base → Numeral base [b] d
  | snoc (ds : Bytes) (n : Nat) (b : UInt8) (d : Nat) : Numeral base ds n → DigitOf b d → d < base → Numeral base (ds ++ [b]) (n * base + d)

/-- A C number literal, blanks and a plus sign before it: decimal, octal with a leading zero, or hexadecimal after `0x`. -/
inductive Literal : Bytes → Nat → Prop
  | dec {w sgn ds n} : Blanks w → (sgn = [] ∨ sgn = [43]) → Numeral 10 ds n → ds.head? ≠ some 48 → Literal (w ++ (sgn ++ ds)) n
  | oct {w sgn ds n} : Blanks w → (sgn = [] ∨ sgn = [43]) → Numeral 8 ds n → ds.head? = some 48 → Literal (w ++ (sgn ++ ds)) n
  | hex {w sgn ds n x} : Blanks w → (sgn = [] ∨ sgn = [43]) → (x = 120 ∨ x = 88) → Numeral 16 ds n → Literal (w ++ (sgn ++ (48 :: x :: ds))) n

/-- Hexadecimal digits with an optional `0x`, blanks and a plus sign before them. -/
inductive HexLiteral : Bytes → Nat → Prop
  | plain {w sgn ds n} : Blanks w → (sgn = [] ∨ sgn = [43]) → Numeral 16 ds n → HexLiteral (w ++ (sgn ++ ds)) n
  | prefixed {w sgn ds n x} : Blanks w → (sgn = [] ∨ sgn = [43]) → (x = 120 ∨ x = 88) → Numeral 16 ds n →
      HexLiteral (w ++ (sgn ++ (48 :: x :: ds))) n

end Casync.SizeSpec
