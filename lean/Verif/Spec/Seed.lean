import Verif.Model.Seed
import Verif.Spec.Chunker
/-!
What an encoder over an unchanged tree does, for the seed.
-/
namespace Casync.Seed
open Casync

/-- The data of a step; "no data" counts as none. -/
def Gives {σ : Type} (E : Encoder σ) (s : σ) (b : Bytes) : Prop := E.getData s = .ok b ∨ (E.getData s = .err .ENODATA ∧ b = [])

/-- From the state `s`, at position `pos` of the archive, the encoder delivers the blocks, one per step, and finishes; at every byte it reports
the location `loc` of the position. -/
inductive Emits {σ : Type} (E : Encoder σ) (loc : Nat → Location.Location) : σ → Nat → List Bytes → Prop
  | done {s s' pos} : E.step s = (.ok .finished, s') → Emits E loc s pos []
  | step {s s' pos b bs} : E.step s = (.ok .data, s') → Gives E s' b → (∀ off, off < b.length → E.location s' off = .ok (loc (pos + off))) →
      Emits E loc s' (pos + b.length) bs → Emits E loc s pos (b :: bs)

/-- The location of every position of the archive can be written and read again, and leads back to the position, from any state: the encoder
then delivers the rest of the archive. -/
def Resumes {σ : Type} (E : Encoder σ) (loc : Nat → Location.Location) (archive : Bytes) : Prop :=
  ∀ (pos n : Nat), 0 < n → pos + n ≤ archive.length →
    ∃ l, Location.parse (Location.format (Location.patchSize (loc pos) n) Location.withAll) = .ok l ∧ l.size = n ∧
      ∀ s : σ, ∃ s' b bs, E.seek s l = (.ok .data, s') ∧ Gives E s' b ∧ Emits E loc s' (pos + b.length) bs ∧ (b :: bs).flatten = archive.drop pos

/-- The text of the location of `n` bytes at `pos` is short enough to be read back. -/
def ShortEnough (loc : Nat → Location.Location) (archive : Bytes) : Prop :=
  ∀ pos n, 0 < n → pos + n ≤ archive.length → (Location.format (Location.patchSize (loc pos) n) Location.withAll).length ≤ fileMax

/-- `ca_seed_step()` until the seed is ready. -/
inductive Indexed {σ : Type} (E : Encoder σ) (fail : Fail) (H : Bytes → Bytes) : Seed σ → Seed σ → Prop
  | ready {s s'} : seedStep E fail H s = .ok (true, s') → Indexed E fail H s s'
  | more {s s' s''} : seedStep E fail H s = .ok (false, s') → Indexed E fail H s' s'' → Indexed E fail H s s''

end Casync.Seed
