import Verif.Model.Seek
import Verif.Spec.Archive
/-!
Paths in trees, and how a decoder with random access to its archive is driven.
-/
namespace Casync.Archive
open Casync Flags

/-- The components of a path: what is between the "/", without the empty ones. -/
def components (p : Bytes) : List Bytes := (splitSlash p).filter (· ≠ [])

/-- The entries of a directory that are stored, with their names. -/
def Kids.listed : Kids → List (Bytes × Tree)
  | .nil => []
  | .cons true n t r => (n, t) :: r.listed
  | .cons false _ _ r => r.listed

/-- The entries of an object that are stored: none if it is not a directory or a directory on an API file system. -/
def Tree.entries : Tree → List (Bytes × Tree)
  | .dir _ _ false kids => kids.listed
  | _ => []

/-- The object at a path. -/
def Tree.find (t : Tree) : List Bytes → Option Tree
  | [] => some t
  | c :: r =>
    match t.entries.find? (fun x => x.1 == c) with
    | some x => x.2.find r
    | none => none

mutual
/-- No two entries of a directory have the same name. -/
def Tree.Unique : Tree → Prop
  | .dir _ _ _ kids => (kids.listed.map Prod.fst).Nodup ∧ kids.Unique
  | _ => True
def Kids.Unique : Kids → Prop
  | .nil => True
  | .cons _ _ t r => t.Unique ∧ r.Unique
end

/-- What the user of a seekable decoder sees: that the goal of the seek was reached (with `ca_decoder_current_path()`), and what other decoders
show. -/
inductive SObs
  | found (path : List Bytes)
  | seen (o : Obs)
  deriving DecidableEq, Repr

/-- How a session with a seekable decoder ends. -/
inductive SOutcome
  | plain (o : Outcome)
  | notFound
  deriving DecidableEq, Repr

/-- `ca_decoder_get_request_offset()`, src/cadecoder.c:4460-4471. -/
def requestOffset (d : SDec) : Nat := d.core.archiveOff + d.core.buf.length

/-- Put the decoder inside. -/
def withCore (d : SDec) (c : Dec) : SDec := { d with core := c }

/-- A session with a decoder whose user has the archive `A` at hand: `ca_decoder_step()` is called again and again; when data is asked for some
bytes of the archive from the request offset on are put, as many as the user likes, or the end is signalled if there are none. -/
inductive SRun (A : Bytes) : SDec → List SObs → SOutcome → Prop
  | finished {d d'} : sStep d = (d', .ok (.plain .finished)) → SRun A d [] (.plain .finished)
  | notFound {d d'} : sStep d = (d', .ok .notFound) → SRun A d [] .notFound
  | error {d d' e} : sStep d = (d', .err e) → SRun A d [] (.plain (.error e))
  | crash {d d'} : sStep d = (d', .ub) → SRun A d [] (.plain .crash)
  | go {d d' ev t o} : sStep d = (d', .ok (.plain ev)) → ev ∈ [Ev.step, .nextFile, .doneFile, .payload] → SRun A d' t o →
      SRun A d ((observe d'.core ev).map .seen ++ t) o
  | found {d d' t o} : sStep d = (d', .ok .found) → SRun A d' t o → SRun A d (.found (currentPath d'.core) :: t) o
  | seek {d d' t o} : sStep d = (d', .ok .seek) → SRun A d' t o → SRun A d t o
  | skip {d d' t o} : sStep d = (d', .ok (.plain .skip)) → SRun A d' t o → SRun A d t o
  | put {d d' c p t o} : sStep d = (d', .ok (.plain .request)) → p ≠ [] → p <+: A.drop (requestOffset d') → putData d'.core p = .ok c →
      SRun A (withCore d' c) t o → SRun A d t o
  | putFails {d d' p e} : sStep d = (d', .ok (.plain .request)) → p ≠ [] → p <+: A.drop (requestOffset d') → putData d'.core p = .err e →
      SRun A d [] (.plain (.error e))
  | eof {d d' t o} : sStep d = (d', .ok (.plain .request)) → A.drop (requestOffset d') = [] → d'.core.eof = false →
      SRun A (withCore d' (putEof d'.core)) t o → SRun A d t o
  | starved {d d'} : sStep d = (d', .ok (.plain .request)) → A.drop (requestOffset d') = [] → d'.core.eof = true → SRun A d [] (.plain .starved)

/-- The observations of a session outside of seeks. -/
def seenOnly (t : List Obs) : List SObs := t.map .seen

/-- A new decoder for an archive of `size` bytes with a directory as its root (`ca_decoder_set_base_mode()`, `ca_decoder_set_archive_size()`). -/
def sStart (cfg : DCfg) (expected mask : Word) (mode : Word) (size : Nat) : SDec :=
  setArchiveSize { core := start cfg expected mask, exts := [{ mode := some mode }] } size

/-! ### What a seek has to give -/

/-- What the user of a seekable decoder sees, with the content of the files byte by byte. -/
inductive SAtom
  | found (path : List Bytes)
  | seen (a : Atom)
  deriving DecidableEq, Repr

def SObs.atoms : SObs → List SAtom
  | .found p => [.found p]
  | .seen o => o.atoms.map .seen

def satoms (t : List SObs) : List SAtom := t.flatMap SObs.atoms

/-- What comes after an object of a tree when the decoder goes on from there: the entries after it in its directory, the end of this directory,
then the same for the directory; the decoder stops at the objects of depth `b` (0 is the root).  The path is given the last component first. -/
def Tree.after (t : Tree) (b : Nat) : List Bytes → List Atom
  | [] => []
  | nm :: up =>
    if up.length + 1 ≤ b then []
    else match t.find up.reverse with
      | some s => (s.entries.dropWhile (fun x => x.1 != nm)).tail.flatMap (fun x => events (up.reverse ++ [x.1]) x.2) ++ .doneFile up.reverse :: t.after b up
      | none => []

/-- What is looked for: the object at a path; a place in the content of a file; the next entry of the same directory. -/
inductive Goal
  | object | content (offset : Nat) | next
  deriving DecidableEq, Repr

/-- The answer to a seek: this is seen; "not found"; the seek fails, because the object is not a regular file. -/
inductive Answer
  | see (l : List SAtom)
  | missing
  | notFile
  deriving DecidableEq, Repr

/-- What the answer to a seek has to be.  `b` is the depth at which the decoder stops. -/
def Tree.answer (t : Tree) (b : Nat) (path : List Bytes) : Goal → Answer
  | .object =>
    match t.find path with
    | some s => .see (.found path :: (events path s).map .seen)
    | none => .missing
  | .content k =>
    match t.find path with
    | some (.file _ _ api c) =>
      if (stored api c).length < k then .missing
      else .see ((((stored api c).drop k).map Atom.byte ++ Atom.doneFile path :: t.after b path.reverse).map .seen)
    | some _ => .notFile
    | none => .missing
  | .next =>
    if path.length ≤ b then .missing
    else match t.find path, t.find path.dropLast, path.getLast? with
      | some _, some s, some nm =>
        match (s.entries.dropWhile (fun x => x.1 != nm)).tail with
        | x :: _ =>
          .see (.found (path.dropLast ++ [x.1]) ::
            (events (path.dropLast ++ [x.1]) x.2 ++ t.after b (path.dropLast ++ [x.1]).reverse).map .seen)
        | [] => .see ((Atom.doneFile path.dropLast :: t.after b path.dropLast.reverse).map .seen)
      | _, _, _ => .missing

/-- The depth at which a decoder stops. -/
def stopDepth (d : SDec) : Nat := d.core.cfg.boundary

/-- Has a call succeeded? -/
def succeeded {α : Type} : Res α → Bool
  | .ok _ => true
  | _ => false

/-- The states a seekable decoder can get into, with any calls in any order, provided that what is put is what the archive `A` has at the request
offset and that after a failed call the next one that counts is a seek: `true` if the last call has not failed. -/
inductive SReach (A : Bytes) (d0 : SDec) : SDec → Bool → Prop
  | start : SReach A d0 d0 true
  | step {d d' ev} : SReach A d0 d true → sStep d = (d', .ok ev) → SReach A d0 d' true
  | put {d b p c} : SReach A d0 d b → p <+: A.drop (requestOffset d) → putData d.core p = .ok c → SReach A d0 (withCore d c) b
  | eof {d b} : SReach A d0 d b → A.drop (requestOffset d) = [] → SReach A d0 (withCore d (putEof d.core)) b
  | seekPath {d b p d' r} : SReach A d0 d b → seekPath d p = (d', r) → SReach A d0 d' (succeeded r)
  | seekPathOffset {d b p k d' r} : SReach A d0 d b → seekPathOffset d p k = (d', r) → SReach A d0 d' (succeeded r)
  | seekNextSibling {d b d' r} : SReach A d0 d b → seekNextSibling d = (d', r) → SReach A d0 d' (succeeded r)

/-- One interaction of a session: `d'` is the decoder after it. -/
inductive SNext (A : Bytes) : SDec → SDec → Prop
  | go {d d' ev} : sStep d = (d', .ok (.plain ev)) → ev ∈ [Ev.step, .nextFile, .doneFile, .payload, .skip] → SNext A d d'
  | found {d d'} : sStep d = (d', .ok .found) → SNext A d d'
  | seek {d d'} : sStep d = (d', .ok .seek) → SNext A d d'
  | put {d d' c p} : sStep d = (d', .ok (.plain .request)) → p ≠ [] → p <+: A.drop (requestOffset d') → putData d'.core p = .ok c →
      SNext A d (withCore d' c)
  | eof {d d'} : sStep d = (d', .ok (.plain .request)) → A.drop (requestOffset d') = [] → d'.core.eof = false → SNext A d (withCore d' (putEof d'.core))

/-- No session from `d` on goes on for ever, whatever the user puts. -/
def Terminates (A : Bytes) (d : SDec) : Prop := Acc (fun e e' => SNext A e' e) d

/-- Is this what the answer demands? -/
def Answered : Answer → List SObs → SOutcome → Prop
  | .see l, obs, o => satoms obs = l ∧ o = .plain .finished
  | .missing, obs, o => obs = [] ∧ o = .notFound
  | .notFile, obs, o => obs = [] ∧ o = .plain (.error .EUNATCH)

end Casync.Archive
