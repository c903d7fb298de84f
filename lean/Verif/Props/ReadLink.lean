import Verif.Model.ReadLink
/-!
C66: the targets of symlinks.
-/
namespace Casync.ReadLink
open Casync

theorem loop_whole (answers : Nat → Res Bytes) : ∀ (n l k : Nat) (t : Bytes), loop answers n l k = some (.ok t) → ∃ j, answers (k + j) = .ok t := by
  intro n
  induction n with
  | zero => intro l k t h; cases h
  | succ n ih =>
    intro l k t h
    rw [loop] at h
    cases ha : answers k with
    | err e => rw [ha] at h; cases h
    | ub => rw [ha] at h; cases h
    | ok a =>
      rw [ha] at h
      simp only [readlinkat] at h
      by_cases c : (a.take (l - 1)).length < l - 1
      · rw [if_pos c] at h
        injection h with h
        injection h with h
        rw [List.length_take] at c
        exact ⟨0, by rw [Nat.add_zero, ha, ← h, List.take_of_length_le (by omega)]⟩
      · rw [if_neg c] at h
        obtain ⟨j, hj⟩ := ih _ _ _ h
        exact ⟨j + 1, by rw [← hj]; congr 1; omega⟩

theorem loop_error (answers : Nat → Res Bytes) : ∀ (n l k : Nat) (e : Errno), loop answers n l k = some (.err e) → ∃ j, answers (k + j) = .err e := by
  intro n
  induction n with
  | zero => intro l k t h; cases h
  | succ n ih =>
    intro l k t h
    rw [loop] at h
    cases ha : answers k with
    | err e =>
      rw [ha] at h
      simp only [readlinkat] at h
      injection h with h
      injection h with h
      exact ⟨0, by rw [Nat.add_zero, ha, h]⟩
    | ub => rw [ha] at h; cases h
    | ok a =>
      rw [ha] at h
      simp only [readlinkat] at h
      by_cases c : (a.take (l - 1)).length < l - 1
      · rw [if_pos c] at h; injection h with h; cases h
      · rw [if_neg c] at h
        obtain ⟨j, hj⟩ := ih _ _ _ h
        exact ⟨j + 1, by rw [← hj]; congr 1; omega⟩

theorem loop_ends (answers : Nat → Res Bytes) (b : Nat) (hb : ∀ k t, answers k = .ok t → t.length ≤ b) :
    ∀ (n l k : Nat), 1 < l → b + 1 < l * 2 ^ n → ∃ r, loop answers (n + 1) l k = some r := by
  intro n
  induction n with
  | zero =>
    intro l k h1 h2
    rw [loop]
    cases ha : answers k with
    | err e => exact ⟨_, rfl⟩
    | ub => exact ⟨_, rfl⟩
    | ok a =>
      simp only [readlinkat]
      have := hb k a ha
      rw [if_pos (by rw [List.length_take]; omega)]
      exact ⟨_, rfl⟩
  | succ n ih =>
    intro l k h1 h2
    rw [loop]
    cases ha : answers k with
    | err e => exact ⟨_, rfl⟩
    | ub => exact ⟨_, rfl⟩
    | ok a =>
      simp only [readlinkat]
      by_cases c : (a.take (l - 1)).length < l - 1
      · rw [if_pos c]; exact ⟨_, rfl⟩
      · rw [if_neg c]
        exact ih (l * 2) (k + 1) (by omega) (by rw [Nat.mul_assoc, ← Nat.pow_succ']; exact h2)

/-- **C66.** The target that is read is one that the symlink has had during the call, all of it, however long it is and however often it is
replaced meanwhile. -/
theorem C66_whole (answers : Nat → Res Bytes) (n : Nat) (t : Bytes) (h : readlinkatMalloc answers n = some (.ok t)) : ∃ k, answers k = .ok t := by
  obtain ⟨j, hj⟩ := loop_whole answers n 256 0 t h
  exact ⟨_, hj⟩

/-- **C66.** An error is one that the kernel has reported. -/
theorem C66_error (answers : Nat → Res Bytes) (n : Nat) (e : Errno) (h : readlinkatMalloc answers n = some (.err e)) : ∃ k, answers k = .err e := by
  obtain ⟨j, hj⟩ := loop_error answers n 256 0 e h
  exact ⟨_, hj⟩

/-- **C66.** A target that stays is read, whatever its length. -/
theorem C66_read (t : Bytes) : ∃ n, readlinkatMalloc (fun _ => .ok t) n = some (.ok t) := by
  obtain ⟨r, hr⟩ := loop_ends (fun _ => .ok t) t.length (by intro k u h; injection h with h; rw [h]; exact Nat.le_refl _) t.length 256 0 (by decide)
    (by have := Nat.lt_two_pow_self (n := t.length); omega)
  refine ⟨_, hr.trans ?_⟩
  cases r with
  | ok u =>
    obtain ⟨k, hk⟩ := C66_whole _ _ _ hr
    rw [hk]
  | err e => obtain ⟨k, hk⟩ := C66_error _ _ _ hr; cases hk
  | ub =>
    exfalso
    have : ∀ n l k, loop (fun _ => .ok t) n l k ≠ some .ub := by
      intro n
      induction n with
      | zero => intro l k h; cases h
      | succ n ih =>
        intro l k h
        rw [loop] at h
        simp only [readlinkat] at h
        split at h
        · injection h with h; cases h
        · exact ih _ _ h
    exact this _ _ _ hr

/-- **C66.** It takes six calls of `readlinkat()` at most, whatever happens to the symlink, as long as its targets are paths (less than
`PATH_MAX` = 4096 bytes). -/
theorem C66_ends (answers : Nat → Res Bytes) (h : ∀ k t, answers k = .ok t → t.length < 4096) : ∃ r, readlinkatMalloc answers 6 = some r :=
  loop_ends answers 4095 (fun k t hk => by have := h k t hk; omega) 5 256 0 (by decide) (by decide)

/-- A target of 255 bytes fills the first buffer, so that it is read again; one of 254 does not. -/
example : readlinkatMalloc (fun _ => .ok (List.replicate 255 97)) 1 = none ∧
    readlinkatMalloc (fun _ => .ok (List.replicate 255 97)) 2 = some (.ok (List.replicate 255 97)) ∧
    readlinkatMalloc (fun _ => .ok (List.replicate 254 97)) 1 = some (.ok (List.replicate 254 97)) := by decide +kernel

/-- The symlink is replaced by one with a short target after the first call. -/
example : readlinkatMalloc (fun k => .ok (if k = 0 then List.replicate 300 97 else [98])) 6 = some (.ok [98]) := by decide +kernel

end Casync.ReadLink
