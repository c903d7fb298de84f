import Verif.Model.Index
/-!
Specification of the index file format: a header, one 40 byte item per chunk (end offset, id), and a
40 byte tail. Independent of the reader and writer state machines in Model/Index.lean.
-/
namespace Casync.Index.Spec
open Casync Casync.Index

structure Header where
  flags : Flags.Word
  cmin : Nat
  cavg : Nat
  cmax : Nat
  deriving DecidableEq

def Header.Valid (h : Header) : Prop :=
  Flags.areNormalized h.flags = .ok true ∧ 1 ≤ h.cmin ∧ h.cmin ≤ h.cavg ∧ h.cavg ≤ h.cmax ∧
    h.cmax ≤ 128 * 1024 * 1024
instance (h : Header) : Decidable h.Valid := by unfold Header.Valid; infer_instance

def encHead (h : Header) : Bytes :=
  le64 48 ++ (le64 0x96824d9c7b129ff9 ++ (le64 h.flags.toNat ++ (le64 h.cmin ++ (le64 h.cavg ++
    (le64 h.cmax ++ (le64 0xffffffffffffffff ++ le64 0xe75b9e112f17417d))))))

/-- The items for chunks `(id, size)`, the first of which starts at `start`. -/
def encItems (start : Nat) : List (Bytes × Nat) → Bytes
  | [] => []
  | (id, size) :: cs => le64 (start + size) ++ id ++ encItems (start + size) cs

def encTail (n : Nat) : Bytes :=
  le64 0 ++ (le64 0 ++ (le64 48 ++ (le64 (16 + 40 * n + 40) ++ le64 0x4b4f050e5549ecd1)))

/-- The canonical file for a header and a chunk list. -/
def encode (h : Header) (cs : List (Bytes × Nat)) : Bytes :=
  encHead h ++ (encItems 0 cs ++ encTail cs.length)

/-- What a reader has to deliver for a chunk list. -/
def deliver (start : Nat) : List (Bytes × Nat) → List Chunk
  | [] => []
  | (id, size) :: cs => { id := id, endOffset := start + size, size := size } :: deliver (start + size) cs

/-- Size of the blob the chunks make up. -/
def total (cs : List (Bytes × Nat)) : Nat := (cs.map (·.2)).sum

/-- Chunks an index can hold: 32 byte ids, no empty chunk, none above the maximum, 64 bit total. -/
def ChunksValid (h : Header) (cs : List (Bytes × Nat)) : Prop :=
  (∀ c ∈ cs, c.1.length = 32 ∧ 1 ≤ c.2 ∧ c.2 ≤ h.cmax) ∧ total cs < 2 ^ 64
instance (h : Header) (cs : List (Bytes × Nat)) : Decidable (ChunksValid h cs) := by
  unfold ChunksValid; infer_instance

end Casync.Index.Spec
