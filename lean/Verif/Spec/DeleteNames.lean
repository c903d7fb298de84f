import Verif.Spec.Decoder
/-!
Which names the archive listed in a directory, in terms of what the decoder reported.
-/
namespace Casync.Delete
open Casync Archive

/-- Everything that can be done with a decoder, with the paths of the `CA_DECODER_NEXT_FILE` reports so far. -/
inductive Hist (cfg : DCfg) : Dec → List (List Bytes) → Prop
  | new {expected mask} : Hist cfg (start cfg expected mask) []
  | data {d d' H p} : Hist cfg d H → putData d p = .ok d' → Hist cfg d' H
  | eof {d H} : Hist cfg d H → Hist cfg (putEof d) H
  | next {d d' H} : Hist cfg d H → step d = (d', .ok .nextFile) → Hist cfg d' (H ++ [currentPath d'])
  | other {d d' ev H} : Hist cfg d H → step d = (d', .ok ev) → ev ≠ .nextFile → Hist cfg d' H

/-- The names below `P` reported since `P` itself was reported last. -/
def children (P : List Bytes) (H : List (List Bytes)) : List Bytes :=
  H.foldl (fun acc Q => if Q = P then [] else match Q.getLast? with
    | none => acc
    | some n => if Q.dropLast = P then acc ++ [n] else acc) []

/-- The paths of the `CA_DECODER_NEXT_FILE` reports of a session. -/
def started (t : List Obs) : List (List Bytes) :=
  t.filterMap fun | .nextFile p _ _ _ => some p | _ => none

end Casync.Delete
