import Verif.Model.Hashmap
/-! Arithmetic of bucket indexes, and counting buckets. -/
namespace Casync.Hashmap
open Casync

theorem next_eq {n i : Nat} (h : i < n) : next n i = if i + 1 = n then 0 else i + 1 := by
  unfold next
  by_cases e : i + 1 = n
  · rw [if_pos e, e, Nat.mod_self]
  · rw [if_neg e, Nat.mod_eq_of_lt (by omega)]

theorem prev_eq {n i : Nat} (h : i < n) : prev n i = if i = 0 then n - 1 else i - 1 := by
  unfold prev
  by_cases e : i = 0
  · subst e; rw [if_pos rfl, Nat.mod_eq_of_lt (by omega)]; rfl
  · rw [if_neg e, show n + i - 1 = (i - 1) + n by omega, Nat.add_mod_right, Nat.mod_eq_of_lt (by omega)]

theorem next_lt {n i : Nat} (h : i < n) : next n i < n := Nat.mod_lt _ (by omega)
theorem prev_lt {n i : Nat} (h : i < n) : prev n i < n := Nat.mod_lt _ (by omega)

theorem prev_next {n i : Nat} (h : i < n) : prev n (next n i) = i := by
  rw [prev_eq (next_lt h), next_eq h]; split <;> split <;> omega

theorem next_prev {n i : Nat} (h : i < n) : next n (prev n i) = i := by
  rw [next_eq (prev_lt h), prev_eq h]; split <;> split <;> omega

theorem dist_lt {n i s : Nat} (hi : i < n) (hs : s < n) : dist n i s < n := by
  unfold dist; split <;> omega

theorem dist_self (n i : Nat) : dist n i i = 0 := by unfold dist; rw [if_pos (Nat.le_refl i)]; omega

theorem dist_zero {n i s : Nat} (hi : i < n) (hs : s < n) (h : dist n i s = 0) : i = s := by
  unfold dist at h; split at h <;> omega

theorem dist_inj {n i j s : Nat} (hi : i < n) (hj : j < n) (hs : s < n) (h : dist n i s = dist n j s) : i = j := by
  unfold dist at h; split at h <;> split at h <;> omega

theorem dist_next {n i s : Nat} (hi : i < n) (hs : s < n) (h : dist n i s + 1 < n) : dist n (next n i) s = dist n i s + 1 := by
  rw [next_eq hi]; unfold dist at *
  by_cases e : i + 1 = n
  · rw [if_pos e] at *; split at h <;> split <;> omega
  · rw [if_neg e] at *; split at h <;> split <;> omega

theorem dist_prev {n i s : Nat} (hi : i < n) (hs : s < n) (h : 0 < dist n i s) : dist n (prev n i) s + 1 = dist n i s := by
  rw [prev_eq hi]; unfold dist at *
  by_cases e : i = 0
  · rw [if_pos e] at *; split at h <;> split <;> omega
  · rw [if_neg e] at *; split at h <;> split <;> omega

/-- The distance to a fixed bucket shrinks with every step towards it. -/
theorem dist_step {n i u : Nat} (hi : i < n) (hu : u < n) (h : u ≠ i) : dist n u (next n i) + 1 = dist n u i := by
  rw [next_eq hi]; unfold dist
  by_cases e : i + 1 = n
  · rw [if_pos e]; split <;> split <;> omega
  · rw [if_neg e]; split <;> split <;> omega

/-- The bucket at a distance. -/
theorem dist_surj {n s d : Nat} (hs : s < n) (hd : d < n) : ∃ i, i < n ∧ dist n i s = d := by
  by_cases h : s + d < n
  · exact ⟨s + d, h, by unfold dist; rw [if_pos (by omega)]; omega⟩
  · exact ⟨s + d - n, by omega, by unfold dist; rw [if_neg (by omega)]; omega⟩

@[simp] theorem upd_same {α : Type} (f : Nat → α) (i : Nat) (a : α) : upd f i a i = a := if_pos rfl
theorem upd_ne {α : Type} (f : Nat → α) {i j : Nat} (a : α) (h : j ≠ i) : upd f i a j = f j := if_neg h

/-! ## Counting -/

/-- How many of the numbers below `n` satisfy `p`. -/
def cnt (p : Nat → Bool) : Nat → Nat
  | 0 => 0
  | n + 1 => cnt p n + (if p n then 1 else 0)

theorem cnt_congr {p q : Nat → Bool} : ∀ {n : Nat}, (∀ i, i < n → p i = q i) → cnt p n = cnt q n
  | 0, _ => rfl
  | n + 1, h => by
    unfold cnt; rw [h n (by omega), cnt_congr (fun i hi => h i (by omega))]

theorem cnt_set {p q : Nat → Bool} {u : Nat} : ∀ {n : Nat}, u < n → p u = false → q u = true → (∀ i, i < n → i ≠ u → p i = q i) →
    cnt q n = cnt p n + 1
  | 0, h, _, _, _ => by omega
  | n + 1, hu, hp, hq, h => by
    unfold cnt
    by_cases e : u = n
    · subst e
      rw [hp, hq, cnt_congr (p := q) (q := p) (fun i hi => (h i (by omega) (by omega)).symm)]; simp
    · rw [cnt_set (n := n) (by omega) hp hq (fun i hi => h i (by omega)), h n (by omega) (fun x => e x.symm)]; omega

theorem cnt_le (p : Nat → Bool) : ∀ n : Nat, cnt p n ≤ n
  | 0 => Nat.le_refl _
  | n + 1 => by unfold cnt; have := cnt_le p n; split <;> omega

theorem cnt_all {p : Nat → Bool} : ∀ {n : Nat}, (∀ i, i < n → p i = true) → cnt p n = n
  | 0, _ => rfl
  | n + 1, h => by unfold cnt; rw [h n (by omega), cnt_all (fun i hi => h i (by omega))]; rfl

theorem cnt_none {p : Nat → Bool} : ∀ {n : Nat}, (∀ i, i < n → p i = false) → cnt p n = 0
  | 0, _ => rfl
  | n + 1, h => by unfold cnt; rw [h n (by omega), cnt_none (fun i hi => h i (by omega))]; rfl

theorem cnt_lt {p : Nat → Bool} {n : Nat} (h : cnt p n < n) : ∃ i, i < n ∧ p i = false := by
  apply Classical.byContradiction
  intro hn
  have : ∀ i, i < n → p i = true := by
    intro i hi
    cases hp : p i
    · exact absurd ⟨i, hi, hp⟩ hn
    · rfl
  rw [cnt_all this] at h; omega

theorem cnt_pos {p : Nat → Bool} {n : Nat} (h : 0 < cnt p n) : ∃ i, i < n ∧ p i = true := by
  apply Classical.byContradiction
  intro hn
  have : ∀ i, i < n → p i = false := by
    intro i hi
    cases hp : p i
    · rfl
    · exact absurd ⟨i, hi, hp⟩ hn
  rw [cnt_none this] at h; omega

theorem cnt_mono {p q : Nat → Bool} : ∀ {n : Nat}, (∀ i, i < n → p i = true → q i = true) → cnt p n ≤ cnt q n
  | 0, _ => Nat.le_refl _
  | n + 1, h => by
    unfold cnt
    have := cnt_mono (n := n) (fun i hi => h i (by omega))
    have h2 := h n (by omega)
    cases hp : p n
    · simp; omega
    · rw [h2 hp]; simp; omega

theorem cnt_ext {p : Nat → Bool} {m : Nat} : ∀ {n : Nat}, m ≤ n → (∀ i, m ≤ i → i < n → p i = false) → cnt p n = cnt p m
  | 0, h, _ => by rw [show m = 0 by omega]
  | n + 1, h, hp => by
    by_cases e : m = n + 1
    · rw [e]
    · have h1 : cnt p (n + 1) = cnt p n + (if p n then 1 else 0) := rfl
      rw [h1, hp n (by omega) (by omega), cnt_ext (by omega) (fun i h1 h2 => hp i h1 (by omega))]; rfl

end Casync.Hashmap
