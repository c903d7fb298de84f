import Verif.Model.Decoder
import Verif.Model.Encoder
/-!
The digests that an encoder and a decoder compute on the way: of the whole archive, of the content of a file, and of a file with its metadata
(used to find files to hard-link to).  A digest context is the list of bytes written to it (`ca_digest_write()`, src/cadigest.c:76-97, hands
the bytes to the hash function piece by piece); the hash function itself is a parameter `H`.  `ca_digest_read()` finishes the context: it is
modelled for the first call after a reset only.  Without seeks the `…_digest_invalid` flags stay false and are left out.
-/
namespace Casync.Archive
open Casync Flags

/-- `want_archive_digest`, `want_payload_digest`, `want_hardlink_digest`, src/cadecoder.c:232-234, src/caencoder.c:201-203. -/
structure Want where
  archive : Bool := false
  payload : Bool := false
  hardlink : Bool := false
  deriving DecidableEq, Repr

/-- `archive_digest`, `payload_digest`, `hardlink_digest`, src/cadecoder.c:228-230, src/caencoder.c:194-196. -/
structure Digests where
  archive : Bytes := []
  payload : Bytes := []
  hardlink : Bytes := []
  deriving DecidableEq, Repr

/-- `if (want) ca_..._write_digest(...)`. No repo lines of its own. -/
def feed (want : Bool) (acc b : Bytes) : Bytes := if want then acc ++ b else acc

/-- `if (want) ca_digest_reset(...)`. No repo lines of its own. -/
def reset (want : Bool) (acc : Bytes) : Bytes := if want then [] else acc

/-- A decoder with its digests. No repo lines. -/
structure DDec where
  dec : Dec
  want : Want
  sum : Digests := {}

/-- What a step of the decoder `d` (after it) that returned `ev` has written: at the end of `ca_decoder_parse_entry()`,
src/cadecoder.c:2425-2438; of a FILENAME, 2617-2622, and of a GOODBYE, 2668-2671, in `ca_decoder_parse_filename()`; and with a piece of
payload, 4146-4151. -/
def dWrite (w : Want) (d : Dec) (s : Digests) : Res Ev → Digests
  | .ok .nextFile =>
    { archive := s.archive ++ getPayload d
      payload := reset w.payload s.payload
      hardlink := feed w.hardlink (reset w.hardlink s.hardlink) (getPayload d) }
  | .ok .step =>
    if d.state = .entered then { s with archive := feed w.archive s.archive (getPayload d) }
    else if d.state = .goodbye then { s with archive := s.archive ++ getPayload d }
    else s
  | .ok .payload =>
    { archive := feed w.archive s.archive (getPayload d)
      payload := feed w.payload s.payload (getPayload d)
      hardlink := feed w.hardlink s.hardlink (getPayload d) }
  | _ => s

/-- `ca_decoder_step` with the digests. src/cadecoder.c:4439-4458. -/
def dStep (x : DDec) : DDec × Res Ev :=
  let r := step x.dec
  ({ x with dec := r.1, sum := dWrite x.want r.1 x.sum r.2 }, r.2)

/-- `ca_decoder_get_archive_digest`, src/cadecoder.c:5379-5404. -/
def dArchive (H : Bytes → Bytes) (x : DDec) : Res Bytes :=
  if !x.want.archive then .err .ENOMEDIUM
  else if x.dec.state ≠ .eof then .err .EBUSY
  else .ok (H x.sum.archive)

/-- `ca_decoder_get_payload_digest`, src/cadecoder.c:5406-5444. -/
def dPayload (H : Bytes → Bytes) (x : DDec) : Res Bytes :=
  if !x.want.payload then .err .ENOMEDIUM
  else if x.dec.state ≠ .finalize then .err .EBUSY
  else match x.dec.nodes with
    | [] => .err .EUNATCH
    | n :: _ =>
      match nodeMode x.dec n with
      | none => .err .ENODATA
      | some m => if !isType m ifReg && !isType m ifBlk then .err .ENOTTY else .ok (H x.sum.payload)

/-- `ca_decoder_get_hardlink_digest`, src/cadecoder.c:5446-5484. -/
def dHardlink (H : Bytes → Bytes) (x : DDec) : Res Bytes :=
  if !x.want.hardlink then .err .ENOMEDIUM
  else if x.dec.state ≠ .finalize then .err .EBUSY
  else match x.dec.nodes with
    | [] => .err .EUNATCH
    | n :: _ =>
      match nodeMode x.dec n with
      | none => .err .ENODATA
      | some m => if isType m ifDir then .err .EISDIR else .ok (H x.sum.hardlink)

/-- An encoder with its digests. No repo lines. -/
structure DEnc where
  enc : Enc
  want : Want
  sum : Digests := {}

/-- `ca_encoder_step`, src/caencoder.c:2273-2288, with the digests: a node that is entered resets two of them (2069-2082). -/
def eStepD (x : DEnc) : DEnc × Res EEv :=
  let r := eStep x.enc
  match r.2 with
  | .ok .nextFile =>
    ({ x with enc := r.1, sum := { x.sum with payload := reset x.want.payload x.sum.payload, hardlink := reset x.want.hardlink x.sum.hardlink } }, r.2)
  | _ => ({ x with enc := r.1 }, r.2)

/-- `ca_encoder_get_data`, src/caencoder.c:2907-3034, with the digests (2934-2942, 3011-3016) and a place for the data. -/
def getDataD (qsort : List Goodbye.NameItem → List Goodbye.NameItem) (x : DEnc) (suggested : Option Nat) : DEnc × Res Bytes :=
  if x.enc.buf ≠ [] then (x, .ok x.enc.buf)
  else match getData qsort x.enc suggested with
    | (e, .ok b) =>
      ({ x with
        enc := e
        sum :=
          { archive := feed x.want.archive x.sum.archive b
            payload := feed (x.want.payload && decide (x.enc.state = .inPayload)) x.sum.payload b
            hardlink := feed (x.want.hardlink && decide (x.enc.state = .entry ∨ x.enc.state = .inPayload)) x.sum.hardlink b } }, .ok b)
    | (e, r) => ({ x with enc := e }, r)

/-- `ca_encoder_get_archive_digest`, src/caencoder.c:3950-3976. -/
def eArchive (H : Bytes → Bytes) (x : DEnc) : Res Bytes :=
  if !x.want.archive then .err .ENOMEDIUM
  else if x.enc.state ≠ .eof then .err .EBUSY
  else .ok (H x.sum.archive)

/-- `S_ISREG(n->stat.st_mode) || S_ISBLK(n->stat.st_mode)`, src/caencoder.c:3998. -/
def hasPayload : Tree → Bool
  | .file _ _ _ _ => true
  | .device e _ _ _ => isType e.mode ifBlk
  | _ => false

/-- `S_ISDIR(n->stat.st_mode)`, src/caencoder.c:4036. -/
def isDirectory : Tree → Bool
  | .dir _ _ _ _ => true
  | _ => false

/-- `ca_encoder_get_payload_digest`, src/caencoder.c:3978-4013. -/
def ePayload (H : Bytes → Bytes) (x : DEnc) : Res Bytes :=
  if !x.want.payload then .err .ENOMEDIUM
  else if x.enc.state ≠ .finalize then .err .EBUSY
  else match x.enc.nodes with
    | [] => .err .EUNATCH
    | n :: _ => if !hasPayload n.tree then .err .ENOTTY else .ok (H x.sum.payload)

/-- `ca_encoder_get_hardlink_digest`, src/caencoder.c:4015-4051. -/
def eHardlink (H : Bytes → Bytes) (x : DEnc) : Res Bytes :=
  if !x.want.hardlink then .err .ENOMEDIUM
  else if x.enc.state ≠ .finalize then .err .EBUSY
  else match x.enc.nodes with
    | [] => .err .EUNATCH
    | n :: _ => if isDirectory n.tree then .err .EISDIR else .ok (H x.sum.hardlink)

end Casync.Archive
