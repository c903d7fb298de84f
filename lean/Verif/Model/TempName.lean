import Verif.Base.Res
import Verif.Model.Locator
/-!
The names of temporary files.

Sources: src/util.c:407-411, 444-501, src/util.h:355-371.

Paths are C strings: lists of bytes other than zero. Allocation failure is not modelled. The random number is a parameter.
-/
namespace Casync.TempName
open Casync

/-- `hexchar()`, src/util.c:407-411. -/
def hexchar (x : Nat) : UInt8 :=
  let d := x % 16
  if d < 10 then UInt8.ofNat (48 + d) else UInt8.ofNat (87 + d)

/-- `dot_or_dot_dot()`, src/util.h:355-371. -/
def dotOrDotDot (p : Bytes) : Bool :=
  match p with
  | [a] => a = 46
  | [a, b] => a = 46 && b = 46
  | _ => false

/-- `filename_is_valid()`, src/util.c:444-461. `FILENAME_MAX` is 4096. -/
def filenameIsValid (p : Bytes) : Bool :=
  if p = [] then false
  else if dotOrDotDot p then false
  else if p.contains 47 then false
  else if p.length > 4096 then false
  else true

/-- The loop of `tempfn_random()`, src/util.c:491-494: `n` more digits of `u`. -/
def digits : Nat → Nat → Bytes
  | 0, _ => []
  | n + 1, u => hexchar (u % 16) :: digits n (u / 16)

/-- Where the last part of a path starts, src/util.c:479-480. -/
def cut (p : Bytes) : Nat :=
  match Locator.strrchr 47 p with
  | some e => e + 1
  | none => 0

/-- `tempfn_random()`, src/util.c:463-501, where `random_u64()` gives `u`. -/
def tempfn (p : Bytes) (u : Nat) : Res Bytes :=
  let fn := p.drop (cut p)
  if filenameIsValid fn then .ok (p.take (cut p) ++ [46, 35] ++ fn ++ digits 16 u) else .err .EINVAL

end Casync.TempName
