import Verif.Base.Bytes
/-!
What exclusion rules mean.
-/
namespace Casync.MatchSpec
open Casync

/-- A component of a rule: a pattern, and whether it only matches directories. -/
structure Comp where
  pattern : Bytes
  dirOnly : Bool
  deriving DecidableEq

/-- A rule: a sequence of components.  An anchored rule applies to paths relative to the directory the rule was given for, another one (with
a single component) to names in that directory and in all directories below.  A negative rule makes an exception. -/
structure Rule where
  negative : Bool
  anchored : Bool
  comps : List Comp
  deriving DecidableEq

/-- The components of an anchored rule match those of a path; `isDir` is about the last one, all others are directories. -/
def MatchesAll (fnm : Bytes → Bytes → Bool) (isDir : Bool) : List Comp → List Bytes → Prop
  | [c], [n] => fnm c.pattern n = true ∧ (c.dirOnly = true → isDir = true)
  | c :: c' :: cs, n :: n' :: ns => fnm c.pattern n = true ∧ MatchesAll fnm isDir (c' :: cs) (n' :: ns)
  | _, _ => False

/-- A rule given for a directory applies to a path relative to that directory. -/
def Applies (fnm : Bytes → Bytes → Bool) (r : Rule) (path : List Bytes) (isDir : Bool) : Prop :=
  if r.anchored then MatchesAll fnm isDir r.comps path
  else ∃ c n pre, r.comps = [c] ∧ path = pre ++ [n] ∧ fnm c.pattern n = true ∧ (c.dirOnly = true → isDir = true)

/-- A rule with the given sign, given for some directory on the way, applies to the path. -/
def Hit (fnm : Bytes → Bytes → Bool) (rules : List Bytes → Rule → Prop) (negative : Bool) (path : List Bytes) (isDir : Bool) : Prop :=
  ∃ dir rel r, path = dir ++ rel ∧ rules dir r ∧ r.negative = negative ∧ Applies fnm r rel isDir

/-- A path is excluded: a positive rule applies to it and no negative one does. -/
def Excluded (fnm : Bytes → Bytes → Bool) (rules : List Bytes → Rule → Prop) (path : List Bytes) (isDir : Bool) : Prop :=
  Hit fnm rules false path isDir ∧ ¬ Hit fnm rules true path isDir

/-- A path is left out of the archive when it or a directory leading to it is excluded. -/
def LeftOut (fnm : Bytes → Bytes → Bool) (rules : List Bytes → Rule → Prop) (path : List Bytes) (isDir : Bool) : Prop :=
  ∃ pre post, path = pre ++ post ∧ pre ≠ [] ∧ Excluded fnm rules pre (if post = [] then isDir else true)

/-! ### What the lines of an exclude file say -/

/-- The pieces of a string between separators. -/
def pieces (sep : UInt8 → Bool) : Bytes → List Bytes
  | [] => [[]]
  | b :: bs =>
    if sep b then [] :: pieces sep bs
    else match pieces sep bs with
      | [] => [[b]]
      | x :: xs => (b :: x) :: xs

/-- All components but the last one are directories, that one is if the line ends in a slash. -/
def toComps (trailing : Bool) : List Bytes → List Comp
  | [] => []
  | [n] => [⟨n, trailing⟩]
  | n :: n' :: ns => ⟨n, true⟩ :: toComps trailing (n' :: ns)

/-- The rule in a line: `!` makes it negative, a slash anywhere makes it anchored; slashes separate components, which may not be `.` or `..`. -/
def lineRule (line : Bytes) : Option Rule :=
  let negative := line.head? = some 33
  let p := if negative then line.drop 1 else line
  let names := (pieces (· = 47) p).filter (· ≠ [])
  if names = [] ∨ [46] ∈ names ∨ [46, 46] ∈ names then none
  else some ⟨negative, p.contains 47, toComps (p.getLast? = some 47) names⟩

/-- Without blanks and tabs at both ends. -/
def strip (l : Bytes) : Bytes :=
  ((l.reverse.dropWhile fun b => b = 32 || b = 9).reverse).dropWhile fun b => b = 32 || b = 9

/-- The lines with rules in an exclude file: neither empty nor comments. -/
def ruleLines (content : Bytes) : List Bytes :=
  ((pieces (fun b => b = 10 || b = 0) content).map strip).filter fun l => l ≠ [] ∧ l.head? ≠ some 35

end Casync.MatchSpec
