import Verif.Model.Digest
import Verif.Spec.Decoder
import Verif.Spec.Encoder
import Verif.Spec.Archive
/-!
Sessions in which digests are asked for, and what they should be.
-/
namespace Casync.Archive
open Casync Flags

/-- What the user of a decoder has been told of the object that was reported last, and its content so far. -/
structure Heard where
  path : List Bytes := []
  entry : Option (Entry × Attrs × Shown) := none
  content : Bytes := []
  deriving DecidableEq, Repr

def hear (h : Heard) : Obs → Heard
  | .nextFile p e a c => { path := p, entry := some (e, a, c), content := [] }
  | .payload b => { h with content := h.content ++ b }
  | .doneFile _ => h

def hearAll (h : Heard) (os : List Obs) : Heard := os.foldl hear h

/-- What is asked for when an object is done: its path and mode, what has been heard of it, and the two digests. -/
structure Asked where
  path : List Bytes
  mode : Option Word
  heard : Heard
  payload : Res Bytes
  hardlink : Res Bytes

/-- `ca_decoder_current_mode()`. -/
def dMode (d : Dec) : Option Word :=
  match d.nodes with
  | [] => none
  | n :: _ => nodeMode d n

/-- The questions after an event. -/
def ask (H : Bytes → Bytes) (x : DDec) (h : Heard) : Ev → List Asked
  | .doneFile => [{ path := currentPath x.dec, mode := dMode x.dec, heard := h, payload := dPayload H x, hardlink := dHardlink H x }]
  | _ => []

/-- A session with a decoder, as `Run`, in which the digests are asked for: `DRun H x heard pieces seen asked outcome archiveDigest`; the
last is asked for at the end. -/
inductive DRun (H : Bytes → Bytes) : DDec → Heard → List Bytes → List Obs → List Asked → Outcome → Res Bytes → Prop
  | finished {x x' h ps} : dStep x = (x', .ok .finished) → DRun H x h ps [] [] .finished (dArchive H x')
  | error {x x' h ps e} : dStep x = (x', .err e) → DRun H x h ps [] [] (.error e) (dArchive H x')
  | crash {x x' h ps} : dStep x = (x', .ub) → DRun H x h ps [] [] .crash (dArchive H x')
  | go {x x' h ps ev t as o a} : dStep x = (x', .ok ev) → ev ∈ [Ev.step, .nextFile, .doneFile, .payload] →
      DRun H x' (hearAll h (observe x'.dec ev)) ps t as o a →
      DRun H x h ps (observe x'.dec ev ++ t) (ask H x' (hearAll h (observe x'.dec ev)) ev ++ as) o a
  | put {x x' h d p ps t as o a} : dStep x = (x', .ok .request) → putData x'.dec p = .ok d → DRun H { x' with dec := d } h ps t as o a →
      DRun H x h (p :: ps) t as o a
  | putFails {x x' h p ps e} : dStep x = (x', .ok .request) → putData x'.dec p = .err e → DRun H x h (p :: ps) [] [] (.error e) (dArchive H x')
  | eof {x x' h t as o a} : dStep x = (x', .ok .request) → x'.dec.eof = false → DRun H { x' with dec := putEof x'.dec } h [] t as o a → DRun H x h [] t as o a
  | starved {x x' h} : dStep x = (x', .ok .request) → x'.dec.eof = true → DRun H x h [] [] [] .starved (dArchive H x')
  | skip {x x' h ps t as o a} : dStep x = (x', .ok .skip) → DRun H x' h (dropPieces x'.dec.skip ps) t as o a → DRun H x h ps t as o a

/-- What is asked of an encoder when an object is done: the object, and the two digests. -/
structure EAsked where
  object : Option Tree
  payload : Res Bytes
  hardlink : Res Bytes

/-- The object an encoder is at. -/
def eObject (e : Enc) : Option Tree := e.nodes.head?.map (·.tree)

/-- A session with an encoder, as `ERun`, in which the digests are asked for. -/
inductive EDRun (H : Bytes → Bytes) (qsort : List Goodbye.NameItem → List Goodbye.NameItem) :
    (Nat → Option Nat) → DEnc → Bytes → List EAsked → EOutcome → Res Bytes → Prop
  | finished {sz e e'} : eStepD e = (e', .ok .finished) → EDRun H qsort sz e [] [] .finished (eArchive H e')
  | error {sz e e' x} : eStepD e = (e', .err x) → EDRun H qsort sz e [] [] (.error x) (eArchive H e')
  | crash {sz e e'} : eStepD e = (e', .ub) → EDRun H qsort sz e [] [] .crash (eArchive H e')
  | done {sz e e' b as o a} : eStepD e = (e', .ok .doneFile) → EDRun H qsort sz e' b as o a →
      EDRun H qsort sz e b ({ object := eObject e'.enc, payload := ePayload H e', hardlink := eHardlink H e' } :: as) o a
  | data {sz e e' e'' ev x b as o a} : eStepD e = (e', .ok ev) → ev ∈ [EEv.nextFile, .payload, .data] → getDataD qsort e' (sz 0) = (e'', .ok x) →
      EDRun H qsort (fun n => sz (n + 1)) e'' b as o a → EDRun H qsort sz e (x ++ b) as o a
  | dataError {sz e e' e'' ev x} : eStepD e = (e', .ok ev) → ev ∈ [EEv.nextFile, .payload, .data] → getDataD qsort e' (sz 0) = (e'', .err x) →
      EDRun H qsort sz e [] [] (.error x) (eArchive H e'')
  | dataCrash {sz e e' e'' ev} : eStepD e = (e', .ok ev) → ev ∈ [EEv.nextFile, .payload, .data] → getDataD qsort e' (sz 0) = (e'', .ub) →
      EDRun H qsort sz e [] [] .crash (eArchive H e'')

/-- A decoder with which nothing has been done yet. -/
def dStart (cfg : DCfg) (expected mask : Word) (w : Want) : DDec := { dec := start cfg expected mask, want := w }

/-- An encoder with which nothing has been done yet. -/
def eStartD (t : Tree) (w : Want) : DEnc := { enc := eStart t, want := w }

/-- `head` is the beginning of an archive object up to its content, in the format of the archive: a decoder reads it as this metadata. -/
def Describes (head : Bytes) (e : Entry) (a : Attrs) (c : Shown) : Prop :=
  ∃ (f f' : FF) (root : Bool) (rest : Bytes) (p : Parsed), parseEntry f root (head ++ rest) = (f', .ok (p, head.length)) ∧
    p.entry = e ∧ p.attrs = a ∧ p.term.shown = c

/-- The content of a file as the archive has it: nothing is stored of files of virtual file systems. -/
def content : Tree → Bytes
  | .file _ _ api c => stored api c
  | _ => []

/-- The answer of an encoder that has left an object is right. -/
def EAsked.Right (H : Bytes → Bytes) (w : Want) (a : EAsked) : Prop :=
  ∃ t, a.object = some t ∧ (w.payload = true → a.payload = if hasPayload t then .ok (H (content t)) else .err .ENOTTY) ∧
    (w.hardlink = true → a.hardlink = if isDirectory t then .err .EISDIR else .ok (H (headBytes t ++ content t)))

/-- The answers of a decoder that has left an object are right: there are none for a directory; for everything else they are digests of what has
been reported of this object.  The digest for hard links covers the records of its metadata, from which its mode, owner, times and so on can be
read, and the content. -/
def Asked.Right (H : Bytes → Bytes) (w : Want) (a : Asked) : Prop :=
  ∃ m, a.mode = some m ∧
    ((isType m ifDir = true ∧ (w.payload = true → a.payload = .err .ENOTTY) ∧ (w.hardlink = true → a.hardlink = .err .EISDIR)) ∨
    (isType m ifDir = false ∧ a.heard.path = a.path ∧ ∃ e at' c head, e.mode = m ∧ a.heard.entry = some (e, at', c) ∧ Describes head e at' c ∧
      (w.payload = true → a.payload = if isType m ifReg || isType m ifBlk then .ok (H a.heard.content) else .err .ENOTTY) ∧
      (w.hardlink = true → a.hardlink = .ok (H (head ++ a.heard.content)))))

/-- The two digests of an object. -/
def digestsOf (H : Bytes → Bytes) (t : Tree) : Res Bytes × Res Bytes :=
  (if hasPayload t then .ok (H (content t)) else .err .ENOTTY, if isDirectory t then .err .EISDIR else .ok (H (headBytes t ++ content t)))

mutual
/-- The objects of a tree with their paths, a directory after its entries: the order in which they are left. -/
def postorder (path : List Bytes) : Tree → List (List Bytes × Tree)
  | .dir e a false k => kidsPost path k ++ [(path, .dir e a false k)]
  | .dir e a true k => [(path, .dir e a true k)]
  | .file e a api c => [(path, .file e a api c)]
  | .symlink e a t => [(path, .symlink e a t)]
  | .device e a x y => [(path, .device e a x y)]
  | .special e a => [(path, .special e a)]
def kidsPost (path : List Bytes) : Kids → List (List Bytes × Tree)
  | .nil => []
  | .cons false _ _ r => kidsPost path r
  | .cons true name t r => postorder (path ++ [name]) t ++ kidsPost path r
end

end Casync.Archive
