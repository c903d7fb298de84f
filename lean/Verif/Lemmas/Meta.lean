import Verif.Lemmas.MetaOrder
import Verif.Lemmas.Flags
/-!
The parts of the metadata one by one.
-/
namespace Casync.Meta
open Casync Flags Archive

/-! ### Ids -/

theorem uidValid_iff {u : Nat} : uidValid u = true ↔ u ≠ 0xFFFFFFFF ∧ u ≠ 0xFFFF := by
  unfold uidValid; simp

theorem shiftUid_lt {c : Cfg} {u : Nat} (h : u < 2 ^ 32) : shiftUid c u < 2 ^ 32 := by
  unfold shiftUid
  split
  · decide
  split
  · decide
  split
  · exact Nat.lt_of_le_of_lt (Nat.mod_le _ _) (by omega)
  · omega

theorem idOK_of {c : Cfg} {u : Nat} (h : shiftUid c u < 2 ^ 32) (hv : uidValid (shiftUid c u) = true)
    (hs : has c.ff with16BitUids = true → shiftUid c u ≤ 65535) : IdOK c.ff (if has c.ff withIds then shiftUid c u else 0) := by
  obtain ⟨h1, h2⟩ := uidValid_iff.mp hv
  unfold IdOK
  have ho : has c.ff withIds = (has c.ff with16BitUids || has c.ff with32BitUids) := has_or _ _ _
  rw [ho]
  cases h16 : has c.ff with16BitUids with
  | true => simp only [Bool.true_or, if_true]; have := hs h16; omega
  | false =>
    cases h32 : has c.ff with32BitUids with
    | true => simp only [Bool.false_or, if_true, Bool.false_eq_true, if_false]; omega
    | false => simp

/-! ### The time -/

theorem timespec_nonneg {m : Meta} (h0 : 0 ≤ mtimeNs m) (h1 : mtimeNs m < 18446744073709551615) :
    (timespecToNsec m.sec m.nsec : Int) = mtimeNs m := by
  unfold timespecToNsec mtimeNs at *
  rw [if_neg (by omega)]
  rw [Int.toNat_of_nonneg (Int.emod_nonneg _ (by decide))]
  exact Int.emod_eq_of_lt h0 (by omega)

/-! ### The mode -/

theorem bv_ext {a b : Word} (h : ∀ i, i < 64 → a.getLsbD i = b.getLsbD i) : a = b := BitVec.eq_of_getLsbD_eq (fun i hi => h i hi)

theorem and_or_mask (a f x : Word) (hx : x &&& f = 0#64) : (a &&& f ||| x) &&& f = a &&& f := by
  apply bv_ext
  intro i hi
  have hb := congrArg (fun w => w.getLsbD i) hx
  simp only [BitVec.getLsbD_and, BitVec.getLsbD_or, BitVec.getLsbD_zero] at hb ⊢
  cases h1 : a.getLsbD i <;> cases h2 : f.getLsbD i <;> cases h3 : x.getLsbD i <;> simp_all

theorem and_or_mask2 (a f g x : Word) (hfg : f &&& g = 0#64) (hx : x &&& g = x) : (a &&& f ||| x) &&& g = x := by
  apply bv_ext
  intro i hi
  have hb := congrArg (fun w => w.getLsbD i) hx
  have hc := congrArg (fun w => w.getLsbD i) hfg
  simp only [BitVec.getLsbD_and, BitVec.getLsbD_or, BitVec.getLsbD_zero] at hb hc ⊢
  cases h1 : a.getLsbD i <;> cases h2 : f.getLsbD i <;> cases h3 : x.getLsbD i <;> cases h4 : g.getLsbD i <;> simp_all

theorem and_and_sub (a f g : Word) (hfg : g &&& f = f) : (a &&& g) &&& f = a &&& f := by rw [BitVec.and_assoc, hfg]

/-- The type is kept. -/
theorem fixupMode_type (c : Cfg) (m : Meta) : fixupMode c m &&& ifmt = m.mode &&& ifmt := by
  unfold fixupMode
  split
  · rename_i h
    unfold isType at h
    rw [beq_iff_eq] at h
    rw [h]; decide
  split
  · exact and_and_sub _ _ _ (by decide)
  split
  · exact and_or_mask _ _ _ (by split <;> split <;> decide)
  · exact and_or_mask _ _ _ (by split <;> decide)

theorem fixupMode_isType (c : Cfg) (m : Meta) (t : Word) : isType (fixupMode c m) t = isType m.mode t := by
  unfold isType; rw [fixupMode_type]

theorem fixupMode_bits (c : Cfg) (m : Meta) : fixupMode c m &&& ~~~(0xffff#64) = 0#64 := by
  have key : ∀ a x : Word, x &&& ~~~(0xffff#64) = 0#64 → (a &&& ifmt ||| x) &&& ~~~(0xffff#64) = 0#64 := by
    intro a x hx
    apply bv_ext
    intro i hi
    have hb := congrArg (fun w => w.getLsbD i) hx
    have hc := congrArg (fun w => w.getLsbD i) (show ifmt &&& ~~~(0xffff#64) = 0#64 by decide)
    simp only [BitVec.getLsbD_and, BitVec.getLsbD_or, BitVec.getLsbD_zero] at hb hc ⊢
    cases h1 : a.getLsbD i <;> cases h2 : ifmt.getLsbD i <;> cases h3 : x.getLsbD i <;> simp_all
  unfold fixupMode
  split
  · decide
  split
  · rw [BitVec.and_assoc, show (ifmt ||| 0xfff#64) &&& ~~~(0xffff#64) = 0#64 by decide]; simp
  split
  · exact key _ _ (by split <;> split <;> decide)
  · exact key _ _ (by split <;> decide)

theorem fixupMode_perm (c : Cfg) (m : Meta) : PermOK c.ff (fixupMode c m) := by
  unfold PermOK
  rw [fixupMode_isType, fixupMode_isType]
  unfold fixupMode
  by_cases hl : isType m.mode ifLnk = true
  · rw [if_pos hl, if_pos hl]; decide
  rw [if_neg hl, if_neg hl]
  by_cases hp : has c.ff (withPermissions ||| withAcl) = true
  · exact .inl hp
  refine .inr ?_
  rw [if_neg hp]
  by_cases hr : has c.ff withReadOnly = true
  · rw [if_pos hr]
    split
    · exact .inl (and_or_mask2 _ _ _ _ (by decide) (by split <;> decide))
    · exact .inr ⟨hr, and_or_mask2 _ _ _ _ (by decide) (by split <;> decide)⟩
  · rw [if_neg hr]
    exact .inl (and_or_mask2 _ _ _ _ (by decide) (by split <;> decide))

/-! ### The flags -/

theorem foldl_or_bits (p : Word × Word → Bool) (g : Word × Word → Word) (l : List (Word × Word)) (f : Word) (i : Nat) :
    (l.foldl (fun f x => if p x then f ||| g x else f) f).getLsbD i = (f.getLsbD i || l.any (fun x => p x && (g x).getLsbD i)) := by
  induction l generalizing f with
  | nil => simp
  | cons x l ih =>
    rw [List.foldl_cons, ih, List.any_cons]
    cases p x <;> simp [Bool.or_assoc]

theorem fromMap_bits (map : List (Word × Word)) (w : Word) (i : Nat) :
    (fromMap map w).getLsbD i = map.any (fun x => has w x.2 && x.1.getLsbD i) := by
  unfold fromMap
  rw [foldl_or_bits (fun x => has w x.2) (fun x => x.1)]
  simp

theorem toMap_bits (map : List (Word × Word)) (w : Word) (i : Nat) :
    (toMap map w).getLsbD i = map.any (fun x => has w x.1 && x.2.getLsbD i) := by
  unfold toMap
  rw [foldl_or_bits (fun x => has w x.1) (fun x => x.2)]
  simp

/-- A map yields only flags of the map. -/
theorem fromMap_sub (map : List (Word × Word)) (all : Word) (h : ∀ x ∈ map, x.1 &&& all = x.1) (w : Word) (i : Nat) (hi : (fromMap map w).getLsbD i = true) :
    all.getLsbD i = true := by
  rw [fromMap_bits, List.any_eq_true] at hi
  obtain ⟨x, hx, hb⟩ := hi
  rw [Bool.and_eq_true] at hb
  have := congrArg (fun w => w.getLsbD i) (h x hx)
  simp only [BitVec.getLsbD_and, hb.2, Bool.true_and] at this
  exact this

theorem chattr_sub (w : Word) (i : Nat) (hi : (fromMap chattrMap w).getLsbD i = true) : withChattr.getLsbD i = true :=
  fromMap_sub chattrMap withChattr (by decide) w i hi

theorem fat_sub (w : Word) (i : Nat) (hi : (fromMap fatMap w).getLsbD i = true) : withFatAttrs.getLsbD i = true :=
  fromMap_sub fatMap withFatAttrs (by decide) w i hi

theorem entryFlags_bits (c : Cfg) (m : Meta) (i : Nat) (hi : (entryFlags c m).getLsbD i = true) :
    c.ff.getLsbD i = true ∧
    (((isType m.mode ifDir = true ∨ isType m.mode ifReg = true) ∧ (withChattr.getLsbD i = true ∨ withFatAttrs.getLsbD i = true)) ∨
      (isType m.mode ifDir = true ∧ (withSubvolume.getLsbD i = true ∨ withSubvolumeRo.getLsbD i = true))) := by
  unfold entryFlags at hi
  simp only at hi
  have h1 : ∀ f : Word, (if (isType m.mode ifDir || isType m.mode ifReg) && has c.ff withChattr then fromMap chattrMap m.chattr &&& c.ff else 0#64).getLsbD i = true →
      c.ff.getLsbD i = true ∧ (isType m.mode ifDir = true ∨ isType m.mode ifReg = true) ∧ withChattr.getLsbD i = true := by
    intro _ h
    split at h
    · rename_i hc
      rw [Bool.and_eq_true, Bool.or_eq_true] at hc
      rw [BitVec.getLsbD_and, Bool.and_eq_true] at h
      exact ⟨h.2, hc.1, chattr_sub _ _ h.1⟩
    · simp at h
  generalize hA : (if (isType m.mode ifDir || isType m.mode ifReg) && has c.ff withChattr then fromMap chattrMap m.chattr &&& c.ff else 0#64) = A at *
  have h1 := h1 0#64
  have h2 : (if (isType m.mode ifDir || isType m.mode ifReg) && has c.ff withFatAttrs then A ||| fromMap fatMap m.fat &&& c.ff else A).getLsbD i = true →
      c.ff.getLsbD i = true ∧ (isType m.mode ifDir = true ∨ isType m.mode ifReg = true) ∧ (withChattr.getLsbD i = true ∨ withFatAttrs.getLsbD i = true) := by
    intro h
    split at h
    · rename_i hc
      rw [Bool.and_eq_true, Bool.or_eq_true] at hc
      rw [BitVec.getLsbD_or, Bool.or_eq_true] at h
      rcases h with h | h
      · obtain ⟨a, b, d⟩ := h1 h; exact ⟨a, b, .inl d⟩
      · rw [BitVec.getLsbD_and, Bool.and_eq_true] at h
        exact ⟨h.2, hc.1, .inr (fat_sub _ _ h.1)⟩
    · obtain ⟨a, b, d⟩ := h1 h; exact ⟨a, b, .inl d⟩
  generalize (if (isType m.mode ifDir || isType m.mode ifReg) && has c.ff withFatAttrs then A ||| fromMap fatMap m.fat &&& c.ff else A) = B at *
  split at hi
  · rename_i hc
    rw [Bool.and_eq_true] at hc
    rw [BitVec.getLsbD_or, Bool.or_eq_true] at hi
    rcases hi with h | h
    · obtain ⟨a, b⟩ := h2 h; exact ⟨a, .inl b⟩
    · rw [BitVec.getLsbD_and, Bool.and_eq_true, BitVec.getLsbD_or, Bool.or_eq_true] at h
      refine ⟨h.2, .inr ⟨hc.1, h.1.imp ?_ ?_⟩⟩ <;> intro g <;> split at g <;> simp_all
  · obtain ⟨a, b⟩ := h2 hi; exact ⟨a, .inl b⟩

theorem sub_zero {a b : Word} (h : ∀ i, a.getLsbD i = true → b.getLsbD i = true) : a &&& ~~~b = 0#64 := by
  apply bv_ext
  intro i hi
  have := h i
  rw [BitVec.getLsbD_and, BitVec.getLsbD_not, BitVec.getLsbD_zero]
  cases ha : a.getLsbD i
  · rfl
  · simp [this ha, hi]

theorem bit_sub {a b : Word} (h : a &&& b = a) (i : Nat) (hi : a.getLsbD i = true) : b.getLsbD i = true := by
  have := congrArg (fun w => w.getLsbD i) h
  simp only [BitVec.getLsbD_and, hi, Bool.true_and] at this
  exact this

theorem entryFlags_ok (c : Cfg) (m : Meta) : entryFlags c m &&& ~~~(c.ff &&& entryFlagBits) = 0#64 := by
  apply sub_zero
  intro i hi
  obtain ⟨h1, h2⟩ := entryFlags_bits c m i hi
  rw [BitVec.getLsbD_and, h1, Bool.true_and]
  rcases h2 with ⟨_, h | h⟩ | ⟨_, h | h⟩
  · exact bit_sub (a := withChattr) (by decide) i h
  · exact bit_sub (a := withFatAttrs) (by decide) i h
  · exact bit_sub (a := withSubvolume) (by decide) i h
  · exact bit_sub (a := withSubvolumeRo) (by decide) i h

theorem entryFlags_subvol (c : Cfg) (m : Meta) (h : isType m.mode ifDir = false) : has (entryFlags c m) withSubvolume = false := by
  rw [has_withSubvolume, Bool.eq_false_iff]
  intro hi
  obtain ⟨_, h2⟩ := entryFlags_bits c m 26 hi
  rcases h2 with ⟨_, g | g⟩ | ⟨g, _⟩
  · revert g; decide
  · revert g; decide
  · rw [h] at g; cases g

theorem entryFlags_other (c : Cfg) (m : Meta) (h1 : isType m.mode ifReg = false) (h2 : isType m.mode ifDir = false) : entryFlags c m = 0#64 := by
  apply bv_ext
  intro i _
  rw [BitVec.getLsbD_zero, Bool.eq_false_iff]
  intro hi
  obtain ⟨_, h⟩ := entryFlags_bits c m i hi
  rw [h1, h2] at h
  simp at h

end Casync.Meta
