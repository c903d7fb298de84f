import Verif.Model.Flags
namespace Casync.Flags
open Casync

/-- Bit `k`. -/
theorem has_bit (f : Word) (k : Nat) (hk : k < 64) : has f (BitVec.twoPow 64 k) = f.getLsbD k := by
  unfold has
  rw [BitVec.and_twoPow]
  cases h : f.getLsbD k
  · simp
  · simp only [if_true]
    simp only [bne_iff_ne, ne_eq]
    intro h2
    have := congrArg (fun x => x.getLsbD k) h2
    simp [hk] at this

theorem has_or (f a b : Word) : has f (a ||| b) = (has f a || has f b) := by
  unfold has
  have : (f &&& (a ||| b) = 0#64) ↔ (f &&& a = 0#64 ∧ f &&& b = 0#64) := by
    constructor
    · intro h
      constructor <;> (ext i hi; have := congrArg (fun x => x.getLsbD i) h; simp [hi] at this ⊢; grind)
    · rintro ⟨h1, h2⟩
      ext i hi
      have g1 := congrArg (fun x => x.getLsbD i) h1
      have g2 := congrArg (fun x => x.getLsbD i) h2
      simp [hi] at g1 g2 ⊢
      grind
  rw [Bool.eq_iff_iff]
  simp only [bne_iff_ne, ne_eq, Bool.or_eq_true, this]
  by_cases h1 : f &&& a = 0#64 <;> by_cases h2 : f &&& b = 0#64 <;> simp [h1, h2]

theorem has_with16BitUids (f : Word) : has f with16BitUids = f.getLsbD 0 :=
  (congrArg (has f) (show with16BitUids = BitVec.twoPow 64 0 by decide)).trans (has_bit f 0 (by decide))
theorem has_with32BitUids (f : Word) : has f with32BitUids = f.getLsbD 1 :=
  (congrArg (has f) (show with32BitUids = BitVec.twoPow 64 1 by decide)).trans (has_bit f 1 (by decide))
theorem has_withUserNames (f : Word) : has f withUserNames = f.getLsbD 2 :=
  (congrArg (has f) (show withUserNames = BitVec.twoPow 64 2 by decide)).trans (has_bit f 2 (by decide))
theorem has_withSecTime (f : Word) : has f withSecTime = f.getLsbD 3 :=
  (congrArg (has f) (show withSecTime = BitVec.twoPow 64 3 by decide)).trans (has_bit f 3 (by decide))
theorem has_withUsecTime (f : Word) : has f withUsecTime = f.getLsbD 4 :=
  (congrArg (has f) (show withUsecTime = BitVec.twoPow 64 4 by decide)).trans (has_bit f 4 (by decide))
theorem has_withNsecTime (f : Word) : has f withNsecTime = f.getLsbD 5 :=
  (congrArg (has f) (show withNsecTime = BitVec.twoPow 64 5 by decide)).trans (has_bit f 5 (by decide))
theorem has_with2SecTime (f : Word) : has f with2SecTime = f.getLsbD 6 :=
  (congrArg (has f) (show with2SecTime = BitVec.twoPow 64 6 by decide)).trans (has_bit f 6 (by decide))
theorem has_withReadOnly (f : Word) : has f withReadOnly = f.getLsbD 7 :=
  (congrArg (has f) (show withReadOnly = BitVec.twoPow 64 7 by decide)).trans (has_bit f 7 (by decide))
theorem has_withPermissions (f : Word) : has f withPermissions = f.getLsbD 8 :=
  (congrArg (has f) (show withPermissions = BitVec.twoPow 64 8 by decide)).trans (has_bit f 8 (by decide))
theorem has_withFlagNodump (f : Word) : has f withFlagNodump = f.getLsbD 20 :=
  (congrArg (has f) (show withFlagNodump = BitVec.twoPow 64 20 by decide)).trans (has_bit f 20 (by decide))
theorem has_withSubvolume (f : Word) : has f withSubvolume = f.getLsbD 26 :=
  (congrArg (has f) (show withSubvolume = BitVec.twoPow 64 26 by decide)).trans (has_bit f 26 (by decide))
theorem has_withSubvolumeRo (f : Word) : has f withSubvolumeRo = f.getLsbD 27 :=
  (congrArg (has f) (show withSubvolumeRo = BitVec.twoPow 64 27 by decide)).trans (has_bit f 27 (by decide))
theorem has_withAcl (f : Word) : has f withAcl = f.getLsbD 29 :=
  (congrArg (has f) (show withAcl = BitVec.twoPow 64 29 by decide)).trans (has_bit f 29 (by decide))
theorem has_excludeNodump (f : Word) : has f excludeNodump = f.getLsbD 63 :=
  (congrArg (has f) (show excludeNodump = BitVec.twoPow 64 63 by decide)).trans (has_bit f 63 (by decide))

theorem getLsbD_clearIf (c : Bool) (m f : Word) (i : Nat) :
    (clearIf c m f).getLsbD i = (f.getLsbD i && !(c && m.getLsbD i)) := by
  unfold clearIf
  cases c
  · simp
  · simp only [if_true, BitVec.getLsbD_and, BitVec.getLsbD_not, Bool.true_and]
    by_cases h : i < 64
    · simp [h]
    · simp [h, BitVec.getLsbD_of_ge f i (by omega)]

theorem getLsbD_setIf (c : Bool) (m f : Word) (i : Nat) :
    (setIf c m f).getLsbD i = (f.getLsbD i || (c && m.getLsbD i)) := by
  unfold setIf
  cases c <;> simp

theorem known_iff (f : Word) : f &&& ~~~flagsMax = 0#64 ↔ ∀ i, f.getLsbD i = true → flagsMax.getLsbD i = true := by
  constructor
  · intro h i hi
    have hlt : i < 64 := by
      by_cases h' : i < 64
      · exact h'
      · rw [BitVec.getLsbD_of_ge f i (by omega)] at hi; cases hi
    have := congrArg (fun x => x.getLsbD i) h
    rw [BitVec.getLsbD_and, BitVec.getLsbD_not, hi] at this
    simpa [hlt] using this
  · intro h
    ext i hi
    have := h i
    simp only [BitVec.getElem_and, BitVec.getElem_not, BitVec.getElem_zero]
    rw [← BitVec.getLsbD_eq_getElem, ← BitVec.getLsbD_eq_getElem]
    cases h1 : f.getLsbD i
    · simp
    · simp [this h1]

/-- The nine consistency conditions on the bits that `areNormalized` checks. -/
def Consistent (f : Word) : Prop :=
  (f.getLsbD 5 = true → f.getLsbD 4 = false ∧ f.getLsbD 3 = false ∧ f.getLsbD 6 = false) ∧
  (f.getLsbD 4 = true → f.getLsbD 3 = false ∧ f.getLsbD 6 = false) ∧
  (f.getLsbD 3 = true → f.getLsbD 6 = false) ∧
  ¬ (f.getLsbD 0 = true ∧ f.getLsbD 1 = true) ∧
  (f.getLsbD 8 = true → f.getLsbD 7 = false) ∧
  (f.getLsbD 29 = true → f.getLsbD 8 = false ∧ f.getLsbD 7 = false) ∧
  (f.getLsbD 29 = true → f.getLsbD 0 = true ∨ f.getLsbD 1 = true ∨ f.getLsbD 2 = true) ∧
  (f.getLsbD 63 = true → f.getLsbD 20 = false) ∧
  (f.getLsbD 27 = true → f.getLsbD 26 = true)

theorem both_uids (f : Word) : ((f &&& (with16BitUids ||| with32BitUids)) == (with16BitUids ||| with32BitUids)) =
    (f.getLsbD 0 && f.getLsbD 1) := by
  rw [Bool.eq_iff_iff, beq_iff_eq, Bool.and_eq_true]
  constructor
  · intro h
    have h0 := congrArg (fun x => x.getLsbD 0) h
    have h1 := congrArg (fun x => x.getLsbD 1) h
    have e0 : (with16BitUids ||| with32BitUids : Word).getLsbD 0 = true := by decide
    have e1 : (with16BitUids ||| with32BitUids : Word).getLsbD 1 = true := by decide
    simp only [BitVec.getLsbD_and, e0, e1, Bool.and_true] at h0 h1
    exact ⟨h0, h1⟩
  · rintro ⟨h0, h1⟩
    apply BitVec.eq_of_getLsbD_eq
    intro i hi
    rw [BitVec.getLsbD_and]
    by_cases e0 : i = 0
    · subst e0; rw [h0]; rfl
    · by_cases e1 : i = 1
      · subst e1; rw [h1]; rfl
      · have : (with16BitUids ||| with32BitUids : Word).getLsbD i = false := by
          rw [show (with16BitUids ||| with32BitUids : Word) = BitVec.twoPow 64 0 ||| BitVec.twoPow 64 1 by decide]
          simp only [BitVec.getLsbD_or, BitVec.getLsbD_twoPow]
          simp [e0, e1, eq_comm]
        rw [this]; simp

theorem areNormalized_eq (f : Word) (hn : f ≠ none64) (hk : f &&& ~~~flagsMax = 0#64) :
    ∃ b, areNormalized f = .ok b ∧ (b = true ↔ Consistent f) := by
  unfold areNormalized
  rw [if_neg hn, if_neg (by simpa using hk)]
  simp only [has_or, has_withNsecTime, has_withUsecTime, has_withSecTime, has_with2SecTime,
    has_with16BitUids, has_with32BitUids, has_withUserNames, has_withPermissions, has_withReadOnly,
    has_withAcl, has_excludeNodump, has_withFlagNodump, has_withSubvolumeRo, has_withSubvolume,
    both_uids]
  unfold Consistent
  generalize f.getLsbD 0 = b0
  generalize f.getLsbD 1 = b1
  generalize f.getLsbD 2 = b2
  generalize f.getLsbD 3 = b3
  generalize f.getLsbD 4 = b4
  generalize f.getLsbD 5 = b5
  generalize f.getLsbD 6 = b6
  generalize f.getLsbD 7 = b7
  generalize f.getLsbD 8 = b8
  generalize f.getLsbD 20 = b20
  generalize f.getLsbD 26 = b26
  generalize f.getLsbD 27 = b27
  generalize f.getLsbD 29 = b29
  generalize f.getLsbD 63 = b63
  repeat' (first | (refine ⟨_, rfl, ?_⟩; grind) | split)
  refine ⟨true, rfl, iff_of_true rfl ⟨?_, ?_, ?_, ?_, ?_, ?_, ?_, ?_, ?_⟩⟩ <;> grind

/-- Only bits that the format knows are set: 0..32 (`WITH_*`) and 60..63. -/
def Known (f : Word) : Prop := ∀ i, f.getLsbD i = true → i < 33 ∨ (60 ≤ i ∧ i < 64)

theorem flagsMax_bit (i : Nat) : flagsMax.getLsbD i = true ↔ i < 33 ∨ (60 ≤ i ∧ i < 64) := by
  by_cases h : i < 64
  · have : ∀ j : Fin 64, flagsMax.getLsbD j.val = true ↔ j.val < 33 ∨ (60 ≤ j.val ∧ j.val < 64) := by
      decide
    exact this ⟨i, h⟩
  · rw [BitVec.getLsbD_of_ge _ _ (by omega)]; simp; omega

theorem known_iff' (f : Word) : f &&& ~~~flagsMax = 0#64 ↔ Known f := by
  rw [known_iff]
  unfold Known
  simp only [flagsMax_bit]

theorem known_ne_max {f : Word} (h : Known f) : f ≠ none64 := by
  intro e
  have := h 40 (by rw [e]; decide)
  omega

theorem normalize_known {f : Word} (h : Known f) : normalize f = .ok (normalizeBody f) := by
  unfold normalize
  rw [if_neg (known_ne_max h), if_neg (by simpa [known_iff'] using h)]

theorem twoPow_bit (k : Nat) (hk : k < 64) (i : Nat) : (BitVec.twoPow 64 k).getLsbD i = (i == k) := by
  rw [BitVec.getLsbD_twoPow]
  by_cases h : i = k
  · subst h; simp [hk]
  · have : ¬ k = i := fun h' => h h'.symm
    simp [h, this]
theorem bit_with16BitUids (i : Nat) : with16BitUids.getLsbD i = (i == 0) := twoPow_bit 0 (by decide) i
theorem bit_with32BitUids (i : Nat) : with32BitUids.getLsbD i = (i == 1) := twoPow_bit 1 (by decide) i
theorem bit_withUserNames (i : Nat) : withUserNames.getLsbD i = (i == 2) := twoPow_bit 2 (by decide) i
theorem bit_withSecTime (i : Nat) : withSecTime.getLsbD i = (i == 3) := twoPow_bit 3 (by decide) i
theorem bit_withUsecTime (i : Nat) : withUsecTime.getLsbD i = (i == 4) := twoPow_bit 4 (by decide) i
theorem bit_with2SecTime (i : Nat) : with2SecTime.getLsbD i = (i == 6) := twoPow_bit 6 (by decide) i
theorem bit_withReadOnly (i : Nat) : withReadOnly.getLsbD i = (i == 7) := twoPow_bit 7 (by decide) i
theorem bit_withPermissions (i : Nat) : withPermissions.getLsbD i = (i == 8) := twoPow_bit 8 (by decide) i
theorem bit_withFlagNodump (i : Nat) : withFlagNodump.getLsbD i = (i == 20) := twoPow_bit 20 (by decide) i
theorem bit_withSubvolume (i : Nat) : withSubvolume.getLsbD i = (i == 26) := twoPow_bit 26 (by decide) i

theorem normalizeBody_bits (f : Word) (i : Nat) :
    (normalizeBody f).getLsbD i =
      (((f.getLsbD i || (f.getLsbD 29 && !(f.getLsbD 0 || f.getLsbD 1 || f.getLsbD 2)) && (i == 1 || i == 2)) &&
        !((f.getLsbD 1 || (f.getLsbD 29 && !(f.getLsbD 0 || f.getLsbD 2))) && i == 0) &&
        !(f.getLsbD 5 && (i == 4 || i == 3 || i == 6)) &&
        !(f.getLsbD 4 && !f.getLsbD 5 && (i == 3 || i == 6)) &&
        !(f.getLsbD 3 && !f.getLsbD 4 && !f.getLsbD 5 && i == 6) &&
        !(f.getLsbD 29 && (i == 8 || i == 7)) &&
        !(f.getLsbD 8 && !f.getLsbD 29 && i == 7) &&
        !(f.getLsbD 63 && i == 20)) || (f.getLsbD 27 && i == 26)) := by
  unfold normalizeBody
  simp only [getLsbD_clearIf, getLsbD_setIf, has_or, has_withNsecTime, has_withUsecTime, has_withSecTime,
    has_with16BitUids, has_with32BitUids, has_withUserNames, has_withPermissions,
    has_withAcl, has_excludeNodump, has_withSubvolumeRo, BitVec.getLsbD_or, bit_with16BitUids, bit_with32BitUids, bit_withUserNames, bit_withSecTime, bit_withUsecTime, bit_with2SecTime, bit_withReadOnly, bit_withPermissions, bit_withFlagNodump, bit_withSubvolume]
  simp only [Nat.reduceBEq, Bool.and_true, Bool.and_false, Bool.or_false, Bool.or_true,
    Bool.not_false]
  generalize f.getLsbD 0 = b0
  generalize f.getLsbD 1 = b1
  generalize f.getLsbD 2 = b2
  generalize f.getLsbD 3 = b3
  generalize f.getLsbD 4 = b4
  generalize f.getLsbD 5 = b5
  generalize f.getLsbD 8 = b8
  generalize f.getLsbD 27 = b27
  generalize f.getLsbD 29 = b29
  generalize f.getLsbD 63 = b63
  grind
end Casync.Flags
