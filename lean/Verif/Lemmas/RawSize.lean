import Verif.Lemmas.RawImage
/-!
The four branches of `read_file_system_size` against the superblocks.
-/
namespace Casync.Raw
open Casync

theorem roundUp_exists (a v : Nat) (ha : 0 < a) : ∃ s, RoundUp a v s := by
  have h1 := Nat.div_add_mod (v + (a - 1)) a
  have h2 := Nat.mod_lt (v + (a - 1)) ha
  exact ⟨a * ((v + (a - 1)) / a), by omega, by omega, Nat.dvd_mul_right _ _⟩

theorem says_of_field {b : Bytes} {off n v : Nat} (hl : off + n ≤ b.length) (h : field b off n = v) : Says b off n v := by
  rw [← h]; exact says_field hl

theorem sig_iff {b : Bytes} (hl : b.length = 1082) : (b.drop 510).take 2 = [0x55, 0xaa] ↔ field b 510 2 = 0xaa55 := by
  have e : ([0x55, 0xaa] : Bytes) = leN 2 0xaa55 := by decide
  rw [e]
  constructor
  · intro h; exact field_says ⟨by decide, h⟩
  · intro h; exact (says_of_field (by omega) h).2

theorem android_iff {b : Bytes} (hl : b.length = 1082) :
    b.take 8 = [0x41, 0x4e, 0x44, 0x52, 0x4f, 0x49, 0x44, 0x21] ↔ field b 0 4 = 0x52444e41 ∧ field b 4 4 = 0x2144494f := by
  have e : ([0x41, 0x4e, 0x44, 0x52, 0x4f, 0x49, 0x44, 0x21] : Bytes) = leN 4 0x52444e41 ++ leN 4 0x2144494f := by decide
  have e8 : b.take 8 = (b.drop 0).take 4 ++ (b.drop 4).take 4 := by
    rw [List.drop_zero, show (8 : Nat) = 4 + 4 from rfl, List.take_add]
  rw [e, e8]
  constructor
  · intro h
    have hh := List.append_inj h (by
      have : (leN 4 0x52444e41).length = 4 := by decide
      rw [this, List.drop_zero, List.length_take]; omega)
    exact ⟨field_says ⟨by decide, hh.1⟩, field_says ⟨by decide, hh.2⟩⟩
  · rintro ⟨h1, h2⟩
    rw [(says_of_field (by omega) h1).2, (says_of_field (by omega) h2).2]

theorem squashfs_absent {b : Bytes} (hl : b.length = 1082) (h : Absent .squashfs b) : field b 0 4 ≠ 0x73717368 := by
  intro hm
  obtain ⟨s, hs⟩ := roundUp_exists 4096 (field b 40 8) (by decide)
  exact h s (.squashfs b _ s (says_of_field (by omega) hm) (says_field (by omega)) hs)

theorem android_absent {b : Bytes} (hl : b.length = 1082) (h : Absent .android b)
    (hm : field b 0 4 = 0x52444e41 ∧ field b 4 4 = 0x2144494f) : isPow2 (field b 36 4) = false := by
  cases hp : isPow2 (field b 36 4) with
  | false => rfl
  | true =>
    obtain ⟨j, hj, hpj⟩ := (isPow2_iff (field_lt (b := b) (off := 36) (n := 4))).1 hp
    have hp0 : 0 < 2 ^ j := Nat.pos_of_ne_zero (by simp)
    obtain ⟨h0, r0⟩ := roundUp_exists (2 ^ j) 608 hp0
    obtain ⟨h1, r1⟩ := roundUp_exists (2 ^ j) (field b 8 4) hp0
    obtain ⟨h2, r2⟩ := roundUp_exists (2 ^ j) (field b 16 4) hp0
    obtain ⟨h3, r3⟩ := roundUp_exists (2 ^ j) (field b 24 4) hp0
    obtain ⟨h4, r4⟩ := roundUp_exists (2 ^ j) (field b 40 4) hp0
    exact absurd (Extent.android b j _ _ _ _ h0 h1 h2 h3 h4 ((android_iff hl).2 hm) (says_of_field (by omega) hpj)
      (says_field (by omega)) (says_field (by omega)) (says_field (by omega)) (says_field (by omega)) r0 r1 r2 r3 r4) (h _)

/-- The FAT branch finds something exactly when there is a FAT superblock. -/
theorem fat_present {b : Bytes} (hl : b.length = 1082) (hs : field b 510 2 = 0xaa55) (hp : isPow2 (field b 11 2) = true)
    (hf : 0 < fatSize b) : Extent .fat b (fatSize b) := by
  obtain ⟨j, hj, hpj⟩ := (isPow2_iff (Nat.lt_of_lt_of_le (field_lt (b := b) (off := 11) (n := 2)) (by decide))).1 hp
  have hp0 : 0 < 2 ^ j := Nat.pos_of_ne_zero (by simp)
  unfold fatSize at hf ⊢
  by_cases hz : field b 19 2 * field b 11 2 = 0
  · rw [if_pos hz] at hf ⊢
    have h19 : field b 19 2 = 0 := by
      rcases Nat.mul_eq_zero.1 hz with h | h
      · exact h
      · omega
    have h32 : 0 < field b 32 4 := Nat.pos_of_mul_pos_right hf
    rw [hpj]
    exact .fat32 b j _ ((sig_iff hl).2 hs) (says_of_field (by omega) hpj) (says_of_field (by omega) h19) (says_field (by omega)) h32
  · rw [if_neg hz] at hf ⊢
    have h19 : 0 < field b 19 2 := Nat.pos_of_mul_pos_right hf
    rw [hpj]
    exact .fat16 b j _ ((sig_iff hl).2 hs) (says_of_field (by omega) hpj) (says_field (by omega)) h19

theorem readFat_absent {b : Bytes} (hl : b.length = 1082) (h : Absent .fat b) : readFat b = readExt b := by
  unfold readFat
  by_cases hs : field b 510 2 = 0xaa55
  · rw [if_pos hs]
    by_cases hp : isPow2 (field b 11 2) = true
    · rw [if_pos hp]
      by_cases hf : 0 < fatSize b
      · exact absurd (fat_present hl hs hp hf) (h _)
      · rw [if_neg hf]
    · rw [if_neg hp]
  · rw [if_neg hs]

theorem readAndroid_absent {b : Bytes} (hl : b.length = 1082) (h : Absent .android b) : readAndroid b = readFat b := by
  unfold readAndroid
  by_cases hm : field b 0 4 = 0x52444e41 ∧ field b 4 4 = 0x2144494f
  · rw [if_pos hm, android_absent hl h hm]; rfl
  · rw [if_neg hm]

theorem readSize_absent {b : Bytes} (hl : b.length = 1082) (h : Absent .squashfs b) : readSize (.data b) = .ok (readAndroid b) := by
  have : readSize (.data b) = if b.length ≠ superSize then .ok none
    else if field b 0 4 = 0x73717368 then .ok (some (alignTo (field b 40 8) 4096)) else .ok (readAndroid b) := rfl
  rw [this, if_neg (by rw [hl]; exact fun h => h rfl), if_neg (squashfs_absent hl h)]

theorem pow2_lt32 {j : Nat} (h : 2 ^ j < 2 ^ 32) : j < 32 := (Nat.pow_lt_pow_iff_right (by decide)).1 h

theorem readAndroid_of {b : Bytes} (hl : b.length = 1082) {s : Nat} (h : Extent .android b s) : readAndroid b = some s := by
  cases h with
  | android _ j kernel initrd second dtb h₀ h₁ h₂ h₃ h₄ ht hp hk hi hs hd r₀ r₁ r₂ r₃ r₄ =>
    unfold readAndroid
    rw [if_pos ((android_iff hl).1 ht), field_says hp]
    have hj : j < 32 := pow2_lt32 hp.1
    rw [if_pos ((isPow2_iff hp.1).2 ⟨j, hj, rfl⟩)]
    unfold androidSize
    rw [field_says hk, field_says hi, field_says hs, field_says hd]
    have b32 : (2 ^ j : Nat) < 256 ^ 4 := hp.1
    have k32 := hk.1
    have i32 := hi.1
    have s32 := hs.1
    have d32 := hd.1
    rw [show (256 ^ 4 : Nat) = 4294967296 by decide] at b32 k32 i32 s32 d32
    rw [← (r₀.uniq (alignTo_round _ j (by omega) (by omega))), ← (r₁.uniq (alignTo_round _ j (by omega) (by omega))),
      ← (r₂.uniq (alignTo_round _ j (by omega) (by omega))), ← (r₃.uniq (alignTo_round _ j (by omega) (by omega))),
      ← (r₄.uniq (alignTo_round _ j (by omega) (by omega)))]
    obtain ⟨_, q0, _⟩ := r₀
    obtain ⟨_, q1, _⟩ := r₁
    obtain ⟨_, q2, _⟩ := r₂
    obtain ⟨_, q3, _⟩ := r₃
    obtain ⟨_, q4, _⟩ := r₄
    rw [Nat.mod_eq_of_lt (by omega)]

theorem readFat_of {b : Bytes} (hl : b.length = 1082) {s : Nat} (h : Extent .fat b s) : readFat b = some s := by
  have main : ∀ j v, (b.drop 510).take 2 = [0x55, 0xaa] → Says b 11 2 (2 ^ j) → fatSize b = v → 0 < v → readFat b = some v := by
    intro j v hs hp hv h0
    unfold readFat
    have hj : j < 32 := pow2_lt32 (Nat.lt_of_lt_of_le hp.1 (by decide))
    rw [if_pos ((sig_iff hl).1 hs), field_says hp,
      if_pos ((isPow2_iff (Nat.lt_of_lt_of_le hp.1 (by decide))).2 ⟨j, hj, rfl⟩), hv, if_pos h0]
  cases h with
  | fat16 _ j sectors hs hp h19 h0 =>
    have hp0 : 0 < 2 ^ j := Nat.pos_of_ne_zero (by simp)
    have hm : 0 < sectors * 2 ^ j := Nat.mul_pos h0 hp0
    refine main j _ hs hp ?_ hm
    unfold fatSize
    rw [field_says hp, field_says h19, if_neg (by omega)]
  | fat32 _ j sectors hs hp h19 h32 h0 =>
    have hp0 : 0 < 2 ^ j := Nat.pos_of_ne_zero (by simp)
    have hm : 0 < sectors * 2 ^ j := Nat.mul_pos h0 hp0
    refine main j _ hs hp ?_ hm
    unfold fatSize
    rw [field_says hp, field_says h19, if_pos (Nat.zero_mul _), field_says h32]

theorem readExt_of {b : Bytes} {s : Nat} (h : Extent .ext b s) (hf : s < 2 ^ 64) : readExt b = some s := by
  cases h with
  | ext _ blocks log hm hb h0 hg =>
    have hlog : log + 10 < 64 := by
      have : 2 ^ (log + 10) < 2 ^ 64 := by
        refine Nat.lt_of_le_of_lt ?_ hf
        rw [Nat.pow_add, Nat.mul_comm (2 ^ log), show (2 ^ 10 : Nat) = 1024 by decide]
        exact Nat.le_mul_of_pos_left _ h0
      exact (Nat.pow_lt_pow_iff_right (by decide)).1 this
    unfold readExt
    rw [if_pos (field_says hm), field_says hg, field_says hb]
    have e : (10 + log) % 2 ^ 32 = 10 + log := Nat.mod_eq_of_lt (by omega)
    rw [e, if_pos (by omega)]
    have e2 : (2 ^ (10 + log) : Nat) = 1024 * 2 ^ log := by rw [Nat.pow_add]
    rw [e2, Nat.mod_eq_of_lt hf]

end Casync.Raw
