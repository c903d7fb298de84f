import Verif.Base.Bytes
/-!
Which directory is fit for temporary files.
-/
namespace Casync.TmpDir.Spec
open Casync

/-- `..` is one of the parts between the slashes of a path. -/
def HasDotDot (p : Bytes) : Prop := ∃ a b, p = a ++ [46, 46] ++ b ∧ (a = [] ∨ a.getLast? = some 47) ∧ (b = [] ∨ b.head? = some 47)

/-- An absolute path of a directory, without `..`, that is not too long for the system. -/
structure Fit (isDir : Bytes → Prop) (p : Bytes) : Prop where
  absolute : p.head? = some 47
  inside : ¬ HasDotDot p
  short : p.length < 4096
  dir : isDir p

/-- The first of the values that are set and fit. -/
inductive First (isDir : Bytes → Prop) : List (Option Bytes) → Bytes → Prop
  | here {p vs} : Fit isDir p → First isDir (some p :: vs) p
  | later {v vs q} : (∀ p, v = some p → ¬ Fit isDir p) → First isDir vs q → First isDir (v :: vs) q

end Casync.TmpDir.Spec
