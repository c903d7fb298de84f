import Verif.Model.SyncRead
import Verif.Spec.Index
/-!
Vocabulary for the properties of reading a blob through its index (C38, C39).
-/
namespace Casync.Sync
open Casync

/-- The chunk list of a blob that consists of the pieces `xs`, with the digest `H`. -/
def chunksOf (H : Bytes → Bytes) (xs : List Bytes) : List (Bytes × Nat) := xs.map fun x => (H x, x.length)

/-- Whatever is answered for the id of a piece of the blob is this piece, and no callback fails an assertion. -/
def Op.Genuine (H : Bytes → Bytes) (xs : List Bytes) : Op → Prop
  | .request _ answer => (∀ x ∈ xs, ∀ y, answer (H x) = .ok y → y = x) ∧ ∀ id, answer id ≠ .ub
  | .prefetch _ has ask => (∀ id, has id ≠ .ub) ∧ ∀ id, ask id ≠ .ub
  | _ => True

/-- What arrives of the index is, one after the other, `rest`; the end is announced when all of it is there. -/
def Arrives : Bytes → List Op → Prop
  | _, [] => True
  | rest, .arrive d :: ops => ∃ rest', rest = d ++ rest' ∧ Arrives rest' ops
  | rest, .arriveEof :: ops => rest = [] ∧ Arrives rest ops
  | rest, _ :: ops => Arrives rest ops

/-- The position in the blob at which the decoder expects data after an operation: a seek sets it, a skip and a delivery advance it. -/
def after (pos : Nat) : Op → Out → Nat
  | .seek offset, _ => offset
  | .skip n, _ => pos + n
  | _, .data b => pos + b.length
  | _, _ => pos

/-- Every block that was delivered is the part of the blob that begins where the decoder expects it, none is empty, the end is
announced only at (or behind) the end of the blob, and no assertion failed. -/
def Right (blob : Bytes) : Nat → List (Op × Res Out) → Prop
  | _, [] => True
  | _, (_, .err _) :: _ => True
  | _, (_, .ub) :: _ => False
  | pos, (op, .ok o) :: l =>
    (∀ b, o = .data b → b ≠ [] ∧ (blob.drop pos).take b.length = b) ∧ (o = .eof → blob.length ≤ pos) ∧
      Right blob (after pos op o) l

/-- The position after a history. -/
def position : Nat → List (Op × Res Out) → Nat
  | pos, [] => pos
  | pos, (op, .ok o) :: l => position (after pos op o) l
  | pos, _ :: l => position pos l

end Casync.Sync
