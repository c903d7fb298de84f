import Verif.Model.Chunker
/-!
Specification of content defined chunking, independent of the state machine in
`Model/Chunker.lean`: no ring buffer, no rolling, no buffering. It shares with the model only
the buzhash table.
-/
namespace Casync.Chunker.Spec
open Casync Casync.Chunker

/-- The buzhash of a window, computed from scratch: byte number `i` of `n` contributes its table
value rotated left by `n - 1 - i`. -/
def windowHash : List UInt8 → BitVec 32
  | [] => 0
  | b :: w => (tab b).rotateLeft w.length ^^^ windowHash w

/-- The last `n` bytes. -/
def lastN (n : Nat) (l : List UInt8) : List UInt8 := l.drop (l.length - n)

/-- Chunk size configuration. -/
structure Sizes where
  min : Nat
  avg : Nat
  max : Nat
  discr : Nat

def Sizes.fixed (s : Sizes) : Prop := s.min = s.avg ∧ s.max = s.avg
instance (s : Sizes) : Decidable s.fixed := by unfold Sizes.fixed; infer_instance

/-- A valid configuration, see property C06. -/
def Sizes.Valid (s : Sizes) : Prop :=
  1 ≤ s.min ∧ s.min ≤ s.avg ∧ s.avg ≤ s.max ∧ s.max ≤ 128 * 1024 * 1024 ∧
    s.min ≤ s.discr ∧ s.discr ≤ s.max
instance (s : Sizes) : Decidable s.Valid := by unfold Sizes.Valid; infer_instance

/-- Does a chunk that contains `d` end right after `d`? Depends on the length of `d` and on its last
48 bytes only. -/
def isCut (s : Sizes) (d : List UInt8) : Prop :=
  if s.fixed then d.length ≥ s.avg
  else d.length ≥ s.min ∧ d.length ≥ 48 ∧
    (d.length ≥ s.max ∨ (windowHash (lastN 48 d)).toNat % s.discr = s.discr - 1)
instance (s : Sizes) (d : List UInt8) : Decidable (isCut s d) := by
  unfold isCut; split <;> infer_instance

/-- The reference chunker: go through the stream byte by byte and end the current chunk as soon as
`isCut` says so. Returns the completed chunks and the bytes after the last cut;
`cur` are the bytes already in the current chunk. -/
def split (s : Sizes) (cur : List UInt8) : List UInt8 → List (List UInt8) × List UInt8
  | [] => ([], cur)
  | b :: rest =>
    if isCut s (cur ++ [b]) then
      let r := split s [] rest
      ((cur ++ [b]) :: r.1, r.2)
    else split s (cur ++ [b]) rest

/-- All chunks of a stream: the completed ones and, if there is one, the unfinished last one. -/
def chunks (s : Sizes) (stream : List UInt8) : List (List UInt8) :=
  let r := split s [] stream
  if r.2 = [] then r.1 else r.1 ++ [r.2]

/-- The configuration stored in a chunker. -/
def sizesOf (c : Chunker) : Sizes := { min := c.min, avg := c.avg, max := c.max, discr := c.discr }

/-- A chunker that is configured validly and holds no data. -/
def Fresh (c : Chunker) : Prop :=
  (sizesOf c).Valid ∧ c.h = 0 ∧ c.wsize = 0 ∧ c.csize = 0 ∧ c.window.length = 48
instance (c : Chunker) : Decidable (Fresh c) := by unfold Fresh; infer_instance

/-- A writer before the first byte. -/
def writer (c : Chunker) : Writer := { chunker := c, buffer := [], out := [] }

end Casync.Chunker.Spec
