import Verif.Base.Res
import Verif.Base.Bytes
/-!
Exclusion rules (camatch.c): the tree built from the lines of a `.caexclude` file, its normalization, and the test of a name.
-/
namespace Casync.Match
open Casync

/-- `CaMatchType`, camatch.h:12-18. -/
inductive Kind
  | positive
  | negative
  | inner
  deriving DecidableEq, Repr

/-- The fields of a `CaMatch` node other than its children, camatch.h:20-35. -/
structure Head where
  kind : Kind
  name : Bytes
  anchored : Bool
  dirOnly : Bool
  deriving DecidableEq, Repr

/-- `CaMatch`, camatch.h:20-35; the reference count is left out: nodes are values (the code copies shared nodes before changing them,
`ca_match_make_writable()`, camatch.c:258-293). -/
inductive Match
  | node (head : Head) (children : List Match)

/-- The head of a node. -/
def Match.head : Match → Head
  | .node h _ => h

/-- The children of a node. -/
def Match.children : Match → List Match
  | .node _ cs => cs

/-- A rule set: the children of the nameless top node (`ca_match_alloc_subtree()`, camatch.c:31-42); a `NULL` pointer is the empty set. -/
abbrev Rules := List Match

/-! ### Parsing -/

/-- The components of a rule, camatch.c:65-122: every component but the last becomes an inner node, all but the first are anchored.  Every
turn consumes at least one character; the length is enough fuel. -/
def parseComponents (kind : Kind) : Nat → Bool → Bytes → Res Match
  | 0, _, _ => .ub
  | fuel + 1, anchored, p =>
    let name := p.takeWhile (· ≠ 47)
    let r := p.dropWhile (· ≠ 47)
    if name = [] ∨ name = [46] ∨ name = [46, 46] then .err .EINVAL
    else
      let rest := r.dropWhile (· = 47)
      if rest = [] then .ok (.node ⟨kind, name, anchored, r ≠ []⟩ [])
      else match parseComponents kind fuel true rest with
        | .ok c => .ok (.node ⟨.inner, name, anchored, r ≠ []⟩ [c])
        | .err e => .err e
        | .ub => .ub

/-- `parse_line()`, camatch.c:44-125, without adding the result to the parent. -/
def parseLine (line : Bytes) : Res Match :=
  let kind := if line.head? = some 33 then Kind.negative else Kind.positive
  let p := if line.head? = some 33 then line.drop 1 else line
  let anchored : Bool := p.contains 47
  parseComponents kind (p.length + 1) anchored (p.dropWhile (· = 47))

/-- `ca_match_new_from_strings()`, camatch.c:179-202. -/
def newFromStrings : List Bytes → Res Rules
  | [] => .ok []
  | l :: ls =>
    match parseLine l with
    | .ok m => match newFromStrings ls with
      | .ok ms => .ok (m :: ms)
      | .err e => .err e
      | .ub => .ub
    | .err e => .err e
    | .ub => .ub

/-- `LARGE_LINE_MAX`, util.h:776. -/
abbrev largeLineMax : Nat := 65536

/-- A character other than the end of a line, util.c:1525. -/
def inLine (b : UInt8) : Bool := !(b = 10 || b = 0)

/-- `strstrip()`, util.c:1570-1576, with `WHITESPACE` from util.h:314. -/
def strstrip (l : Bytes) : Bytes :=
  ((l.reverse.dropWhile fun b => b = 32 || b = 9).reverse).dropWhile fun b => b = 32 || b = 9

/-- `ca_match_new_from_file()`, camatch.c:129-177, from the contents of the file, with `read_line()`, util.c:1480-1545, inlined: a line ends
with a newline, a zero byte or the file.  Every turn takes at least one byte.  Read errors are left out. -/
def newFromFile : Nat → Bytes → Res Rules
  | 0, _ => .ub
  | fuel + 1, c =>
    let line := c.takeWhile inLine
    if line.length ≥ largeLineMax then .err .ENOBUFS
    else if c = [] then .ok []
    else
      let rest := c.drop (line.length + 1)
      let l := strstrip line
      if l = [] ∨ l.head? = some 35 then newFromFile fuel rest
      else match parseLine l with
        | .ok m => match newFromFile fuel rest with
          | .ok ms => .ok (m :: ms)
          | .err e => .err e
          | .ub => .ub
        | .err e => .err e
        | .ub => .ub

/-- `ca_match_merge()` of two rule sets, camatch.c:295-335 (as the encoder uses it, caencoder.c:559 and 1865: the top nodes are always
alike). -/
def merge (a b : Rules) : Rules := a ++ b

/-! ### Order -/

/-- The order of the enumeration constants. -/
def Kind.rank : Kind → Nat
  | .positive => 0
  | .negative => 1
  | .inner => 2

/-- `strcmp()` -/
def cmpName : Bytes → Bytes → Ordering
  | [], [] => .eq
  | [], _ :: _ => .lt
  | _ :: _, [] => .gt
  | a :: as, b :: bs => (compare a.toNat b.toNat).then (cmpName as bs)

/-- The first part of `compare_match()`, camatch.c:337-362. -/
def cmpHead (x y : Head) : Ordering :=
  (compare x.kind.rank y.kind.rank).then ((cmpName x.name y.name).then
    ((compare x.anchored.toNat y.anchored.toNat).then (compare x.dirOnly.toNat y.dirOnly.toNat)))

mutual
/-- `compare_match()`, camatch.c:337-372. -/
def cmp : Match → Match → Ordering
  | .node h cs, .node h' cs' => (cmpHead h h').then (cmpL cs cs')
/-- The loop over the children, camatch.c:364-371: the longer list comes first. -/
def cmpL : List Match → List Match → Ordering
  | [], [] => .eq
  | [], _ :: _ => .gt
  | _ :: _, [] => .lt
  | x :: xs, y :: ys => (cmp x y).then (cmpL xs ys)
end

/-! ### Normalization -/

/-- The second loop of `ca_match_normalize()`, camatch.c:415-450: `prev` is the item at `j - 1`, `changed` is `normalize_previous`; `renorm`
is the recursive call.  Two items can be merged when everything but the children agrees (`ca_match_merge()`, camatch.c:295-335).
Running out of memory is left out. -/
def mergeRuns (renorm : Match → Match) : Match → Bool → List Match → List Match
  | prev, changed, [] => [if changed then renorm prev else prev]
  | prev, changed, x :: xs =>
    if prev.head = x.head then mergeRuns renorm (.node prev.head (prev.children ++ x.children)) true xs
    else (if changed then renorm prev else prev) :: mergeRuns renorm x false xs

/-- `ca_match_normalize()` on a list of children, camatch.c:400-453.  `qsort` is the C library's function with `compare_match()`. -/
def normList (qsort : List Match → List Match) (renorm : Match → Match) (cs : List Match) : List Match :=
  let cs := cs.map renorm
  if cs.length ≤ 1 then cs
  else match qsort cs with
    | [] => []
    | x :: xs => mergeRuns renorm x false xs

/-- `ca_match_normalize()`, camatch.c:374-454.  The recursion goes one level down each time, so the depth of the tree is enough fuel (that
no node is left over is part of `C20_normal_form`). -/
def norm (qsort : List Match → List Match) : Nat → Match → Match
  | 0, m => m
  | n + 1, .node h cs => .node h (normList qsort (norm qsort n) cs)

mutual
/-- The number of levels of a tree. -/
def depth : Match → Nat
  | .node _ cs => depthL cs + 1
/-- The number of levels of a list of trees. -/
def depthL : List Match → Nat
  | [] => 0
  | m :: ms => max (depth m) (depthL ms)
end

/-- `ca_match_normalize()` of a whole rule set. -/
def normalize (qsort : List Match → List Match) (rs : Rules) : Rules :=
  if rs = [] then [] else normList qsort (norm qsort (depthL rs)) rs

/-! ### Testing -/

/-- What one child contributes to the subtree object, camatch.c:482-497 and 519-538. -/
def subtreePart (fnm : Bytes → Bytes → Bool) (name : Bytes) (isDir : Bool) (c : Match) : List Match :=
  (if !c.head.anchored && isDir then [c] else []) ++
  (if (c.head.dirOnly && !isDir) || !fnm c.head.name name then []
   else if c.head.kind = .inner then c.children else [])

/-- Does a child of the given kind match, camatch.c:499-518? -/
def hits (fnm : Bytes → Bytes → Bool) (name : Bytes) (isDir : Bool) (k : Kind) (c : Match) : Bool :=
  !(c.head.dirOnly && !isDir) && fnm c.head.name name && decide (c.head.kind = k)

/-- `ca_match_test()` with the subtree asked for (as caencoder.c:1858 does), camatch.c:456-556.  `fnm` is `fnmatch(pattern, name, FNM_PERIOD)
== 0`; its failures other than "no match" are left out.  The result is the answer and the rule set for what is below `name`. -/
def test (qsort : List Match → List Match) (fnm : Bytes → Bytes → Bool) (rs : Rules) (name : Bytes) (isDir : Bool) : Res (Bool × Rules) :=
  if name = [] ∨ name = [46] ∨ name = [46, 46] then .err .EINVAL
  else
    let subtree := rs.flatMap (subtreePart fnm name isDir)
    let has2nd := rs.any fun c => hits fnm name isDir .inner c && !c.children.isEmpty
    let hasUnanchored := rs.any fun c => !c.head.anchored && isDir
    .ok (!rs.any (hits fnm name isDir .negative) && rs.any (hits fnm name isDir .positive),
      if has2nd && hasUnanchored then normalize qsort subtree else subtree)

/-- What the encoder does with a path below the directory it is at, caencoder.c:541-566 and 1850-1868: it goes down component by component.  `here`
is the path of the current directory, `inherited` the rules the parent directory left for it, `files` gives the rules read from the exclude
file of a directory.  An excluded directory is not entered.  `true`: the path is left out of the archive. -/
def walk (qsort : List Match → List Match) (fnm : Bytes → Bytes → Bool) (files : List Bytes → Rules) :
    List Bytes → Rules → List Bytes → Bool → Res Bool
  | _, _, [], _ => .ok false
  | here, inherited, n :: rest, isDir =>
    match test qsort fnm (merge inherited (files here)) n (if rest = [] then isDir else true) with
    | .ok (excluded, sub) => if excluded then .ok true else walk qsort fnm files (here ++ [n]) (merge [] sub) rest isDir
    | .err e => .err e
    | .ub => .ub

end Casync.Match
