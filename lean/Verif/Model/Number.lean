import Verif.Base.Res
import Verif.Base.Bytes
/-!
Numbers as text: `safe_atou`, `safe_atollu` (`safe_atou64`), `safe_atollx` (`safe_atox64`) and `parse_size`, the `strtoull()` they
rest on, and the `%u`, `%llu`, `%llx` conversions of `printf()`.

C strings are byte lists; the terminating NUL is the end of the list.
-/
namespace Casync.Number
open Casync

/-- `WHITESPACE`, util.h:421 (`" \t\n\r"`). -/
def isWs (b : UInt8) : Bool := b == 32 || b == 9 || b == 10 || b == 13

/-- `isspace()` of the C locale, what `strtoull()` skips: additionally vertical tab and form feed. -/
def isSpace (b : UInt8) : Bool := isWs b || b == 11 || b == 12

/-- Value of a digit or letter as `strtoull()` counts it. -/
def digitVal (b : UInt8) : Option Nat :=
  if 48 ≤ b.toNat ∧ b.toNat ≤ 57 then some (b.toNat - 48)
  else if 97 ≤ b.toNat ∧ b.toNat ≤ 122 then some (b.toNat - 87)
  else if 65 ≤ b.toNat ∧ b.toNat ≤ 90 then some (b.toNat - 55)
  else none

/-- Is `b` a digit of the given base? -/
def isDigit (base : Nat) (b : UInt8) : Bool :=
  match digitVal b with
  | some v => v < base
  | none => false

/-- The number a digit string denotes, most significant digit first. -/
def digitsVal (base : Nat) (ds : Bytes) : Nat :=
  ds.foldl (fun acc b => acc * base + (digitVal b).getD 0) 0

/-- What `strtoull()` reports. -/
structure Parsed where
  /-- `errno == ERANGE` -/
  overflow : Bool
  value : Nat
  /-- `*endptr` -/
  rest : Bytes
  deriving DecidableEq, Repr

/-- The base `strtoull()` uses and the digits it looks at: `0x` is skipped in base 16 (and selects it in base 0) when a hexadecimal digit
follows, a leading `0` selects base 8 in base 0. -/
def selectBase (base : Nat) (s : Bytes) : Nat × Bytes :=
  match s with
  | 48 :: x :: d :: r =>
    if (x == 120 || x == 88) && (base == 0 || base == 16) && isDigit 16 d then (16, d :: r)
    else if base == 0 then (8, s) else (base, s)
  | 48 :: _ => if base == 0 then (8, s) else (base, s)
  | _ => if base == 0 then (10, s) else (base, s)

/-- The digits part of `strtoull()`: `none` when there is no digit. -/
def strtoullDigits (neg : Bool) (base : Nat) (s : Bytes) : Option Parsed :=
  let bs := selectBase base s
  let ds := bs.2.takeWhile (isDigit bs.1)
  let v := digitsVal bs.1 ds
  if ds.isEmpty then none
  else some {
    overflow := 2 ^ 64 ≤ v
    value := if 2 ^ 64 ≤ v then u64max else if neg then (2 ^ 64 - v) % 2 ^ 64 else v
    rest := bs.2.dropWhile (isDigit bs.1) }

/-- `strtoull(s, &end, base)` of the C library in the C locale; `none` stands for `end == s`.  A negative number is negated modulo
`2^64` without an error. -/
def strtoull (base : Nat) (s : Bytes) : Option Parsed :=
  match s.dropWhile isSpace with
  | 45 :: r => strtoullDigits true base r
  | 43 :: r => strtoullDigits false base r
  | r => strtoullDigits false base r

/-- The common body of `safe_atollu()` (util.c:795-816, base 0) and `safe_atollx()` (util.c:818-839, base 16). -/
def safeAto (base : Nat) (s : Bytes) : Res Nat :=
  let s := s.dropWhile isWs
  match strtoull base s with
  | none => .err .EINVAL
  | some p =>
    if p.overflow then .err .ERANGE
    else if p.rest ≠ [] then .err .EINVAL
    else if s.head? = some 45 then .err .ERANGE
    else .ok p.value

/-- `safe_atou64()`, util.h:284-286. -/
def atou64 (s : Bytes) : Res Nat := safeAto 0 s

/-- `safe_atox64()`, util.h:292-294. -/
def atox64 (s : Bytes) : Res Nat := safeAto 16 s

/-- `safe_atou()`, util.c:762-793 (`unsigned long` has 64 bit, `unsigned` 32). -/
def atou (s : Bytes) : Res Nat :=
  match safeAto 0 s with
  | .ok v => if v < 2 ^ 32 then .ok v else .err .ERANGE
  | r => r

/-- The character of a digit: `0`-`9`, `a`-`f`, as `printf()` writes it. -/
def digitChar (d : Nat) : UInt8 := if d < 10 then UInt8.ofNat (48 + d) else UInt8.ofNat (87 + d)

/-- `printf()` conversion of an unsigned number in the given base. -/
def fmt (base n : Nat) : Bytes :=
  if h : n < base ∨ base < 2 then [digitChar n]
  else fmt base (n / base) ++ [digitChar (n % base)]
termination_by n
decreasing_by exact Nat.div_lt_self (by omega) (by omega)

/-- `%u`, `%llu` -/
def dec (n : Nat) : Bytes := fmt 10 n

/-- `%llx` -/
def hex (n : Nat) : Bytes := fmt 16 n

/-! ### `parse_size` -/

/-- The unit table of `parse_size()`, parse-util.c:22-31. -/
def units : List (Bytes × Nat) :=
  [([69], 1024 ^ 6), ([80], 1024 ^ 5), ([84], 1024 ^ 4), ([71], 1024 ^ 3), ([77], 1024 ^ 2), ([75], 1024), ([66], 1), ([], 1)]

/-- First unit at or after position `start` whose suffix `e` starts with, parse-util.c:77-82. -/
def findUnit (e : Bytes) : List (Bytes × Nat) → Nat → Option (Nat × Bytes × Nat)
  | [], _ => none
  | (sfx, f) :: us, i => if sfx.isPrefixOf e then some (i, sfx, f) else findUnit e us (i + 1)

/-- Parsing the fraction after the dot, parse-util.c:60-75: `none` for an overflow of `strtoull()`, otherwise the digits (possibly none)
and what follows. -/
def fracDigits (e : Bytes) : Option (Bytes × Bytes) :=
  let ds := e.takeWhile (isDigit 10)
  if 2 ^ 64 ≤ digitsVal 10 ds then none else some (ds, e.dropWhile (isDigit 10))

/-- The number at the start of a component: integral part, fraction digits, rest; parse-util.c:49-75. -/
def component (p : Bytes) : Res (Nat × Bytes × Bytes) :=
  match strtoull 10 p with
  | none => .err .EINVAL
  | some n =>
    if n.overflow then .err .ERANGE
    else match n.rest with
      | 46 :: e =>
        match fracDigits e with
        | none => .err .ERANGE
        | some (ds, r) => .ok (n.value, ds, r)
      | r => .ok (n.value, [], r)

/-- One turn of the `do … while` loop of `parse_size()`, parse-util.c:43-98.  `fm ds f` stands for `frac > 0` and `(unsigned long long) (frac * factor)`
in the `double` arithmetic of the compiler, where `ds` are the digits after the dot and `f` the factor: `none` when `frac` is zero (the
product is 0 then).  All sums and products are modulo `2^64`. -/
def parseTurn (fm : Bytes → Nat → Option Nat) (p : Bytes) (start r : Nat) : Res (Nat × Nat × Bytes) :=
  let p := p.dropWhile isWs
  if p.head? = some 45 then .err .ERANGE
  else match component p with
  | .err e => .err e
  | .ub => .ub
  | .ok (l, ds, e) =>
    let e := e.dropWhile isWs
    match findUnit e (units.drop start) start with
    | none => .err .EINVAL
    | some (i, sfx, f) =>
      let fr := if ds = [] then none else fm ds f
      if (l + (if fr.isSome then 1 else 0)) % 2 ^ 64 > u64max / f then .err .ERANGE
      else
        let tmp := (l * f + fr.getD 0) % 2 ^ 64
        if tmp > u64max - r then .err .ERANGE
        else .ok (r + tmp, i + 1, e.drop sfx.length)

/-- `parse_size()`, parse-util.c:15-103.  The loop moves `start_pos` forward in every turn and fails when no unit is left, so the number
of units plus one is enough fuel; running out of it (proved impossible) would be `.ub`. -/
def parseSizeLoop (fm : Bytes → Nat → Option Nat) : Nat → Bytes → Nat → Nat → Res Nat
  | 0, _, _, _ => .ub
  | fuel + 1, p, start, r =>
    match parseTurn fm p start r with
    | .err e => .err e
    | .ub => .ub
    | .ok (r', start', p') => if p' = [] then .ok r' else parseSizeLoop fm fuel p' start' r'

/-- `parse_size()`, parse-util.c:15-103. -/
def parseSize (fm : Bytes → Nat → Option Nat) (t : Bytes) : Res Nat := parseSizeLoop fm 9 t 0 0

end Casync.Number
