import Verif.Model.ArchiveFile
/-!
Sessions with an archive that is a file.
-/
namespace Casync.ArchiveFile
open Casync Archive

/-- A session: turn after turn until the loop is over; the kernel delivers `len 0` bytes, then `len 1` and so on. The outcome is `none` if
the position in the file goes backwards, from where on the session is not followed. -/
inductive Plays : (Nat → Nat) → Dec → Fd → List Obs → Option Outcome → Prop
  | over {len d f o} : turn d f (len 0) = .over o → Plays len d f [] (some o)
  | on {len d f d' f' s t o} : turn d f (len 0) = .on d' f' s → f.pos ≤ f'.pos → Plays (fun i => len (i + 1)) d' f' t o → Plays len d f (s ++ t) o
  | back {len d f d' f' s} : turn d f (len 0) = .on d' f' s → f'.pos < f.pos → Plays len d f [] none

/-- The states a session can come to. -/
inductive Reached : Dec → Fd → Dec → Fd → Prop
  | start {d f} : Reached d f d f
  | on {d f d' f' d'' f'' k s} : Reached d f d' f' → turn d' f' k = .on d'' f'' s → Reached d f d'' f''

end Casync.ArchiveFile
