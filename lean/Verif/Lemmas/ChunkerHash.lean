import Verif.Spec.Chunker
/-! Rotate/xor lemmas: the rolling hash is the hash of the window. -/
namespace Casync.Chunker
open Casync Casync.Chunker.Spec

set_option maxRecDepth 4000 in
theorem table_size : buzhashTable.size = 256 := by decide +kernel

theorem rol32_eq (x : BitVec 32) (i : Nat) : rol32 x i = x.rotateLeft i := by
  unfold rol32
  simp only [BitVec.rotateLeft_def]
  split
  · rename_i h
    rw [h]; simp [BitVec.ushiftRight_eq_zero]
  · rfl

theorem rot_xor (x y : BitVec 32) (i : Nat) :
    (x ^^^ y).rotateLeft i = x.rotateLeft i ^^^ y.rotateLeft i := by
  ext j hj
  simp only [BitVec.getElem_rotateLeft, BitVec.getElem_xor]
  split <;> rfl

theorem rot_rot (x : BitVec 32) (i : Nat) :
    (x.rotateLeft i).rotateLeft 1 = x.rotateLeft (i + 1) := by
  ext j hj
  simp only [BitVec.getElem_rotateLeft]
  have : (i + 1) % 32 = (i % 32 + 1) % 32 := by omega
  by_cases h : i % 32 = 31
  · have h2 : (i + 1) % 32 = 0 := by omega
    simp only [h2]
    by_cases h1 : j < 1 % 32
    · rw [dif_pos h1]
      split
      · omega
      · rw [dif_neg (by omega)]; congr 1; omega
    · rw [dif_neg h1]
      split
      · rw [dif_neg (by omega)]; congr 1; omega
      · omega
  · have h2 : (i + 1) % 32 = i % 32 + 1 := by omega
    simp only [h2]
    by_cases h1 : j < 1 % 32
    · rw [dif_pos h1]
      split
      · omega
      · rw [dif_pos (by omega)]; congr 1; omega
    · rw [dif_neg h1]
      split
      · rw [dif_pos (by omega)]; congr 1; omega
      · rw [dif_neg (by omega)]; congr 1; omega

theorem rot_zero (i : Nat) : (0 : BitVec 32).rotateLeft i = 0 := by
  ext j hj
  simp [BitVec.getElem_rotateLeft]

theorem rot_none (x : BitVec 32) : x.rotateLeft 0 = x := by
  simp [BitVec.rotateLeft_def, BitVec.ushiftRight_eq_zero]

theorem startLoop_eq (h : BitVec 32) (w : List UInt8) : startLoop h w = h ^^^ windowHash w := by
  induction w generalizing h with
  | nil => simp [startLoop, windowHash]
  | cons b w ih =>
    cases w with
    | nil => simp [startLoop, windowHash, rot_none]
    | cons b' w =>
      rw [startLoop, ih, windowHash, rol32_eq]
      rw [BitVec.xor_assoc]; rfl

theorem windowHash_snoc (w : List UInt8) (b : UInt8) :
    windowHash (w ++ [b]) = (windowHash w).rotateLeft 1 ^^^ tab b := by
  induction w with
  | nil => simp [windowHash, rot_none]
  | cons a w ih =>
    simp only [List.cons_append, windowHash, ih, rot_xor, rot_rot]
    rw [List.length_append, BitVec.xor_assoc]; rfl

theorem windowHash_roll (a : UInt8) (w : List UInt8) (b : UInt8) :
    rol32 (windowHash (a :: w)) 1 ^^^ rol32 (tab a) (w.length + 1) ^^^ tab b = windowHash (w ++ [b]) := by
  rw [windowHash_snoc, rol32_eq, rol32_eq, windowHash, rot_xor, rot_rot]
  have : ∀ x y z : BitVec 32, x ^^^ y ^^^ x ^^^ z = y ^^^ z := by
    intro x y z
    rw [BitVec.xor_assoc x y x, BitVec.xor_comm y x, ← BitVec.xor_assoc x x y]
    simp
  exact this _ _ _

end Casync.Chunker
