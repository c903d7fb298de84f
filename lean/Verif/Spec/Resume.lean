import Verif.Model.Resume
import Verif.Spec.Archive
import Verif.Spec.Encoder
import Verif.Spec.Decoder
/-!
How an encoder is driven when seeks are used, and what the tree has to be like.
-/
namespace Casync.Resume
open Casync Archive

/-- After these events `ca_encoder_get_data()` is called. -/
def hasData : EEv → Bool
  | .nextFile => true
  | .payload => true
  | .data => true
  | _ => false

/-- The rest of a session: when data is due, `ca_encoder_get_data()` is called, with the next suggested size, otherwise `ca_encoder_step()`.
`RRun env sizes due s bytes outcome`: all the data is `bytes`. -/
inductive RRun (env : Env) : (Nat → Option Nat) → Bool → REnc → Bytes → EOutcome → Prop
  | finished {sz s s'} : step env s = (s', .ok .finished) → RRun env sz false s [] .finished
  | error {sz s s' x} : step env s = (s', .err x) → RRun env sz false s [] (.error x)
  | crash {sz s s'} : step env s = (s', .ub) → RRun env sz false s [] .crash
  | more {sz s s' ev b o} : step env s = (s', .ok ev) → ev ≠ .finished → RRun env sz (hasData ev) s' b o → RRun env sz false s b o
  | data {sz s s' x b o} : getData env s (sz 0) = (s', .ok x) → RRun env (fun n => sz (n + 1)) false s' b o → RRun env sz true s (x ++ b) o
  | dataError {sz s s' x} : getData env s (sz 0) = (s', .err x) → RRun env sz true s [] (.error x)
  | dataCrash {sz s s'} : getData env s (sz 0) = (s', .ub) → RRun env sz true s [] .crash

/-- A new encoder for an object. -/
def rStart (r : Obj) : REnc := { cur := opened r [] }

/-- No empty read is suggested. -/
def NotEmpty (k : Option Nat) : Prop := ∀ n, k = some n → 0 < n

/-- The object at the path is the current one of the encoder, or one of the directories above it. -/
def Open (s : REnc) (path : Bytes) : Prop := ∃ names more, upNames s.up = some (names ++ more) ∧ joinPath names = path

/-- Two locations are the same place; how much of the archive is meant, the root and the time stamps play no role. -/
structure SamePlace (l l' : Location.Location) : Prop where
  path : l'.path = l.path
  designator : l'.designator = l.designator
  offset : l'.offset = l.offset
  nameTable : l'.nameTable = l.nameTable
  archiveOffset : l'.archiveOffset = l.archiveOffset
  size : l'.size ≠ 0

/-- The data at this point: what `ca_encoder_get_data()` is about to deliver, or has just delivered or skipped (it stays in the buffer until the next step). -/
def Data (env : Env) (due : Bool) (s : REnc) (x : Bytes) : Prop :=
  (due = true ∧ ∃ k s', NotEmpty k ∧ getData env s k = (s', .ok x)) ∨ (due = false ∧ s.buf = x)

/-- Where the data at this point begins: `pos` is the number of bytes before the point. -/
def dataPos (due : Bool) (pos : Nat) (x : Bytes) : Nat := if due then pos else pos - x.length

/-- Anything a program may do with an encoder: step, get data, skip data, and seek to places that were reported, by this encoder or another one for the same
tree.  `Hist env r pos settled due s`: `pos` is the number of bytes that are in the archive before this point; `due` says that there is data to get
next.  Two things are excluded.  A seek must not go to the name of a directory that is open.  And after a seek to the beginning of a directory that
is open (`settled` is `false`) the next seek has to wait until `ca_encoder_step()` was called. -/
inductive Hist (env : Env) (r : Obj) : Nat → Bool → Bool → REnc → Prop
  | start : Hist env r 0 true false (rStart r)
  | more {pos m s s' ev} : Hist env r pos m false s → step env s = (s', .ok ev) → ev ≠ .finished → Hist env r pos true (hasData ev) s'
  | finish {pos m s s'} : Hist env r pos m false s → step env s = (s', .ok .finished) → Hist env r pos true false s'
  | data {pos m s s' k x} : Hist env r pos m true s → NotEmpty k → getData env s k = (s', .ok x) → Hist env r (pos + x.length) m false s'
  | skip {pos m s s' k x} : Hist env r pos m true s → NotEmpty k → skipData env s k = (s', .ok x) → Hist env r (pos + x.length) m false s'
  | seek {pos0 m0 due0 s0 x add l l' pos due s t ev m} :
      Hist env r pos0 m0 due0 s0 → Data env due0 s0 x → add < x.length → currentLocation env s0 add = .ok l → SamePlace l l' →
      Hist env r pos true due s → (l.designator = 110 → ¬ Open s l.path) → seekLocation s l' = .ok (t, ev) →
      (l.designator = 101 ∧ Open s l.path → m = false) → Hist env r (dataPos due0 pos0 x + add) m (hasData ev) t

/-! ### The tree -/

/-- A name occurs among the entries. -/
def Objs.Has (name : Bytes) : Objs → Prop
  | .nil => False
  | .cons _ n _ r => n = name ∨ r.Has name

mutual
/-- The names in every directory are proper and distinct. -/
def Obj.Named : Obj → Prop
  | .leaf _ => True
  | .dir _ _ _ _ k => k.Named
def Objs.Named : Objs → Prop
  | .nil => True
  | .cons _ n o r => SafeName n ∧ ¬ r.Has n ∧ o.Named ∧ r.Named
end

mutual
/-- No directory inherits exclusion rules: the rules in an exclude file say nothing about what is in a subdirectory that is stored. -/
def Obj.Local (env : Env) : Obj → Prop
  | .leaf _ => True
  | .dir _ _ _ own k => k.Local env own
def Objs.Local (env : Env) (own : Match.Rules) : Objs → Prop
  | .nil => True
  | .cons _ n o r =>
    (o.isDir = true → ∀ sub, Match.test env.qsortRules env.fnm own n true = .ok (false, sub) → sub = []) ∧ o.Local env ∧ r.Local env own
end

mutual
/-- The tree as the encoder of `Model/Encoder.lean` is given it: what the exclusion rules leave out is marked. -/
def view (env : Env) (inherited : Match.Rules) : Obj → Tree
  | .leaf l => l.tree
  | .dir e a api own k => .dir e a api (viewKids env (Match.merge inherited own) k)
def viewKids (env : Env) (rules : Match.Rules) : Objs → Kids
  | .nil => .nil
  | .cons keep n o r =>
    match verdict env rules keep n o.isDir with
    | .ok (some sub) => .cons true n (view env sub o) (viewKids env rules r)
    | _ => .cons false n (view env [] o) (viewKids env rules r)
end

/-- The archive: the content of a single file, or the archive of the tree. -/
def archiveOf (env : Env) (r : Obj) : Bytes :=
  match r with
  | .leaf (.file _ _ _ c) => c
  | _ => encTree env.qsort 0 (view env [] r)

/-- What is assumed of a tree: a directory or a single file, with proper names, whose archive has less than 2^64 - 1 bytes, and not deeper than the
encoder can go. -/
structure Fine (env : Env) (r : Obj) : Prop where
  root : r.isDir = true ∨ ∃ e a api c, r = .leaf (.file e a api c)
  names : r.Named
  rules : r.Local env
  depth : (view env [] r).height ≤ 64
  size : (archiveOf env r).length < u64max

end Casync.Resume
