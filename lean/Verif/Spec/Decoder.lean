import Verif.Model.Decoder
/-!
How a decoder is driven, and what its user sees.
-/
namespace Casync.Archive
open Casync Flags

/-- What is told about the content of an object when its metadata is complete. -/
inductive Shown
  | nothing
  | symlink (target : Bytes)
  | device (major minor : Nat)
  | file (size : Nat)
  deriving DecidableEq, Repr

def Term.shown : Term → Shown
  | .symlink t => .symlink t
  | .device a b => .device a b
  | .payload n => .file n
  | .filename => .nothing
  | .goodbye => .nothing

/-- What the user of a decoder sees: the start of an object with its path and metadata, pieces of the content of a file, the end of an
object. -/
inductive Obs
  | nextFile (path : List Bytes) (entry : Entry) (attrs : Attrs) (content : Shown)
  | payload (b : Bytes)
  | doneFile (path : List Bytes)
  deriving DecidableEq, Repr

/-- The same, byte by byte. -/
inductive Atom
  | nextFile (path : List Bytes) (entry : Entry) (attrs : Attrs) (content : Shown)
  | byte (b : UInt8)
  | doneFile (path : List Bytes)
  deriving DecidableEq, Repr

def Obs.atoms : Obs → List Atom
  | .nextFile p e a c => [.nextFile p e a c]
  | .payload b => b.map .byte
  | .doneFile p => [.doneFile p]

/-- A sequence of observations with the cuts in the content of the files forgotten. -/
def atoms (t : List Obs) : List Atom := t.flatMap Obs.atoms

/-- What is seen when `ca_decoder_step()` has returned `ev`: the values of `ca_decoder_current_path()`, `ca_decoder_current_mode()` etc. and
`ca_decoder_get_payload()`. -/
def observe (d : Dec) : Ev → List Obs
  | .nextFile =>
    match d.nodes with
    | { parsed := some p, .. } :: _ => [.nextFile (currentPath d) p.entry p.attrs p.term.shown]
    | _ => []
  | .payload => [.payload (getPayload d)]
  | .doneFile => [.doneFile (currentPath d)]
  | _ => []

/-- How a session ends: the end of the tree was reached; a call failed; an assertion failed; the decoder asks for data for ever although it has
been told that there is none. -/
inductive Outcome
  | finished
  | error (e : Errno)
  | crash
  | starved
  deriving DecidableEq, Repr

/-- Leave out the first `n` bytes of a list of pieces. -/
def dropPieces : Nat → List Bytes → List Bytes
  | _, [] => []
  | n, p :: ps => if p.length ≤ n then dropPieces (n - p.length) ps else p.drop n :: ps

/-- A session: `ca_decoder_step()` is called again and again; when it asks for data the next piece of the archive is put, or, if there is none,
the end of the archive is signalled (as `ca_sync_step_decode()` does, src/casync.c:2619-2680, with `ca_sync_process_decoder_request()`,
2321-2440); when it asks to skip bytes these are left out.  `Run d pieces seen outcome`. -/
inductive Run : Dec → List Bytes → List Obs → Outcome → Prop
  | finished {d d' ps} : step d = (d', .ok .finished) → Run d ps [] .finished
  | error {d d' ps e} : step d = (d', .err e) → Run d ps [] (.error e)
  | crash {d d' ps} : step d = (d', .ub) → Run d ps [] .crash
  | go {d d' ps ev t o} : step d = (d', .ok ev) → ev ∈ [Ev.step, .nextFile, .doneFile, .payload] → Run d' ps t o →
      Run d ps (observe d' ev ++ t) o
  | put {d d' d'' p ps t o} : step d = (d', .ok .request) → putData d' p = .ok d'' → Run d'' ps t o → Run d (p :: ps) t o
  | putFails {d d' p ps e} : step d = (d', .ok .request) → putData d' p = .err e → Run d (p :: ps) [] (.error e)
  | eof {d d' t o} : step d = (d', .ok .request) → d'.eof = false → Run (putEof d') [] t o → Run d [] t o
  | starved {d d'} : step d = (d', .ok .request) → d'.eof = true → Run d [] [] .starved
  | skip {d d' ps t o} : step d = (d', .ok .skip) → Run d' (dropPieces d'.skip ps) t o → Run d ps t o

/-- What a listing is made of: the objects and their ends, without the content of the files. -/
def withoutContent (t : List Obs) : List Obs := t.filter fun ob => match ob with
  | .payload _ => false
  | _ => true

/-- A name that can only denote a direct child: not empty, not "." or "..", without "/" and NUL. -/
structure SafeName (n : Bytes) : Prop where
  nonempty : n ≠ []
  notDot : n ≠ [46]
  notDotDot : n ≠ [46, 46]
  noNul : (0 : UInt8) ∉ n
  noSlash : (47 : UInt8) ∉ n

/-- The path an observation is about. -/
def Obs.path : Obs → Option (List Bytes)
  | .nextFile p _ _ _ => some p
  | .doneFile p => some p
  | .payload _ => none

/-- Components joined with "/". -/
def joinPath : List Bytes → Bytes
  | [] => []
  | [a] => a
  | a :: b :: r => a ++ 47 :: joinPath (b :: r)

/-- The components of a path as the kernel sees them: cut at every "/". -/
def splitSlash : Bytes → List Bytes
  | [] => [[]]
  | c :: cs => if c = 47 then [] :: splitSlash cs else match splitSlash cs with | [] => [[c]] | x :: xs => (c :: x) :: xs

/-- Where a path leads from the directory `dir` (components from the root), without symbolic links: "" and "." stay, ".." goes up. -/
def resolve (dir : List Bytes) : List Bytes → List Bytes
  | [] => dir
  | c :: cs => if c = [] ∨ c = [46] then resolve dir cs else if c = [46, 46] then resolve dir.dropLast cs else resolve (dir ++ [c]) cs

/-- The settings of a decoder with which no seek has been made. -/
abbrev fresh (cfg : DCfg) : DCfg := { cfg with boundary := 0 }

/-- A fresh decoder for a directory tree (or, if `naked`, for a blob). -/
def start (cfg : DCfg) (expected mask : Word) : Dec := { cfg := fresh cfg, ff := { expected := expected, mask := mask } }

end Casync.Archive
