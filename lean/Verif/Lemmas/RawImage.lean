import Verif.Spec.RawImage
/-!
Lemmas about file system sizes: fields, rounding, powers of two.
-/
namespace Casync.Raw
open Casync

theorem field_says {b : Bytes} {off n v : Nat} (h : Says b off n v) : field b off n = v := by
  unfold field
  rw [h.2, rdLE_leN, Nat.mod_eq_of_lt h.1]

theorem says_field {b : Bytes} {off n : Nat} (h : off + n ≤ b.length) : Says b off n (field b off n) := by
  have hl : ((b.drop off).take n).length = n := by rw [List.length_take, List.length_drop]; omega
  constructor
  · have := rdLE_lt ((b.drop off).take n)
    rw [hl] at this
    exact this
  · have := leN_rdLE ((b.drop off).take n)
    rw [hl] at this
    exact this.symm

theorem field_lt {b : Bytes} {off n : Nat} : field b off n < 256 ^ n := by
  have h := rdLE_lt ((b.drop off).take n)
  have hl : ((b.drop off).take n).length ≤ n := by rw [List.length_take]; omega
  exact Nat.lt_of_lt_of_le h (Nat.pow_le_pow_right (by decide) hl)

theorem mask_eq (x k : Nat) (hx : x < 2 ^ 64) : x &&& (2 ^ 64 - 1 - (2 ^ k - 1)) = x / 2 ^ k * 2 ^ k := by
  by_cases hk : k < 64
  · have hpk : 2 ^ k < 2 ^ 64 := Nat.pow_lt_pow_right (by decide) hk
    have e : (2 ^ 64 - 1 - (2 ^ k - 1) : Nat) = 2 ^ 64 - ((2 ^ k - 1) + 1) := by omega
    rw [e]
    apply Nat.eq_of_testBit_eq
    intro i
    rw [Nat.testBit_and, Nat.testBit_two_pow_sub_succ (by omega), Nat.testBit_two_pow_sub_one, Nat.testBit_mul_two_pow,
      Nat.testBit_div_two_pow]
    by_cases hi : k ≤ i
    · have e1 : decide (i < k) = false := by simp; omega
      have e2 : i - k + k = i := by omega
      rw [e1, e2]
      by_cases h64 : i < 64
      · simp [h64, hi]
      · have : x.testBit i = false := Nat.testBit_lt_two_pow (Nat.lt_of_lt_of_le hx (Nat.pow_le_pow_right (by decide) (by omega)))
        simp [this]
    · have e1 : decide (i < k) = true := by simp; omega
      have e2 : decide (k ≤ i) = false := by simp; omega
      simp [e1, hi]
  · have hpk : 2 ^ 64 ≤ 2 ^ k := Nat.pow_le_pow_right (by decide) (by omega)
    have e : (2 ^ 64 - 1 - (2 ^ k - 1) : Nat) = 0 := by omega
    rw [e, Nat.and_zero, Nat.div_eq_of_lt (by omega), Nat.zero_mul]

theorem alignTo_pow (l k : Nat) (hk : k < 64) (h : l + 2 ^ k ≤ 2 ^ 64) :
    alignTo l (2 ^ k) = (l + (2 ^ k - 1)) / 2 ^ k * 2 ^ k := by
  have hp : 0 < 2 ^ k := Nat.pos_of_ne_zero (by simp)
  have hpk : 2 ^ k < 2 ^ 64 := Nat.pow_lt_pow_right (by decide) hk
  unfold alignTo
  have e1 : (l + 2 ^ k + (2 ^ 64 - 1)) % 2 ^ 64 = l + (2 ^ k - 1) := by omega
  have e2 : (2 ^ k + (2 ^ 64 - 1)) % 2 ^ 64 = 2 ^ k - 1 := by omega
  rw [e1, e2]
  exact mask_eq _ k (by omega)

theorem alignTo_round (l k : Nat) (hk : k < 64) (h : l + 2 ^ k ≤ 2 ^ 64) : RoundUp (2 ^ k) l (alignTo l (2 ^ k)) := by
  have hp : 0 < 2 ^ k := Nat.pos_of_ne_zero (by simp)
  rw [alignTo_pow l k hk h]
  have h1 := Nat.div_add_mod (l + (2 ^ k - 1)) (2 ^ k)
  have h2 := Nat.mod_lt (l + (2 ^ k - 1)) hp
  rw [Nat.mul_comm] at h1
  refine ⟨by omega, by omega, Nat.dvd_mul_left _ _⟩

theorem RoundUp.uniq {a v s t : Nat} (hs : RoundUp a v s) (ht : RoundUp a v t) : s = t := by
  obtain ⟨h1, h2, x, rfl⟩ := hs
  obtain ⟨h3, h4, y, rfl⟩ := ht
  have ha : 0 < a := by omega
  have hxy : x < y + 1 := by
    apply Nat.lt_of_mul_lt_mul_left (a := a)
    rw [Nat.mul_succ]; omega
  have hyx : y < x + 1 := by
    apply Nat.lt_of_mul_lt_mul_left (a := a)
    rw [Nat.mul_succ]; omega
  have : x = y := by omega
  rw [this]

theorem popcount_pow : ∀ k : Fin 64, (k.1 < 32) → popcount (2 ^ k.1) = 1 := by decide +kernel

theorem filter_one {p : Nat → Bool} {l : List Nat} (h : (l.filter p).length = 1) : ∃ k, k ∈ l ∧ ∀ i, i ∈ l → (p i = true ↔ i = k) := by
  match hf : l.filter p with
  | [] => rw [hf] at h; cases h
  | [k] =>
    have hk : k ∈ l.filter p := by rw [hf]; exact List.mem_singleton.2 rfl
    refine ⟨k, (List.mem_filter.1 hk).1, fun i hi => ⟨fun hp => ?_, fun e => ?_⟩⟩
    · have : i ∈ l.filter p := List.mem_filter.2 ⟨hi, hp⟩
      rw [hf] at this
      exact List.mem_singleton.1 this
    · rw [e]; exact (List.mem_filter.1 hk).2
  | _ :: _ :: _ => rw [hf] at h; cases h

theorem isPow2_iff {x : Nat} (hx : x < 2 ^ 32) : isPow2 x = true ↔ ∃ k, k < 32 ∧ x = 2 ^ k := by
  unfold isPow2
  rw [beq_iff_eq]
  constructor
  · intro h
    obtain ⟨k, hk, hi⟩ := filter_one h
    refine ⟨k, List.mem_range.1 hk, ?_⟩
    apply Nat.eq_of_testBit_eq
    intro i
    rw [Nat.testBit_two_pow]
    by_cases h32 : i < 32
    · have := hi i (List.mem_range.2 h32)
      by_cases e : i = k
      · simp [e, (hi k hk).2 rfl]
      · have hn : x.testBit i = false := by
          cases hb : x.testBit i with
          | false => rfl
          | true => exact absurd (this.1 hb) e
        rw [hn]
        simp
        omega
    · have : x.testBit i = false := Nat.testBit_lt_two_pow (Nat.lt_of_lt_of_le hx (Nat.pow_le_pow_right (by decide) (by omega)))
      have hk' := List.mem_range.1 hk
      rw [this]
      simp
      omega
  · rintro ⟨k, hk, rfl⟩
    exact popcount_pow ⟨k, by omega⟩ hk

end Casync.Raw
