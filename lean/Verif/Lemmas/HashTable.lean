import Verif.Lemmas.HashIndex
/-! The invariant of hash tables, and the search for a key. -/
namespace Casync.Hashmap
open Casync
variable {K V : Type} [DecidableEq K] [DecidableEq V]

/-- A bucket whose entry is where it belongs: neither free nor still to be rehashed. -/
def Settled (t : Table K V) (i : Nat) : Prop := t.dibs i < REHASH

/-- A bucket with an entry. -/
def Occ (t : Table K V) (i : Nat) : Prop := t.dibs i ≠ FREE

/-- The distance of the entry in a bucket from its first bucket. -/
def D (t : Table K V) (i : Nat) : Nat :=
  match t.ents i with
  | some e => dist t.n i (home t e.1)
  | none => 0

/-- An entry of the table. -/
def Has (t : Table K V) (e : K × V) : Prop := ∃ i, i < t.n ∧ Occ t i ∧ t.ents i = some e

structure Base (t : Table K V) : Prop where
  pos : 0 < t.n
  le : t.n < UINT_MAX
  slot : ∀ i, i < t.n → t.dibs i = FREE ∨ ∃ e, t.ents i = some e ∧ (t.dibs i = REHASH ∨ t.dibs i = min (dist t.n i (home t e.1)) OVERFLOW)
  loc : ∀ i, i < t.n → Settled t i → 0 < D t i → Settled t (prev t.n i) ∧ D t i ≤ D t (prev t.n i) + 1
  inj : ∀ i j, i < t.n → j < t.n → Occ t i → Occ t j → ∀ e e', t.ents i = some e → t.ents j = some e' → e.1 = e'.1 → i = j
  low : t.indirect = true → ∀ i, i < t.n → Occ t i → t.lowest ≤ i

theorem Settled.occ {t : Table K V} {i : Nat} (h : Settled t i) : Occ t i := by
  unfold Settled REHASH at h; unfold Occ FREE; omega

theorem home_lt {t : Table K V} (hp : 0 < t.n) (k : K) : home t k < t.n := Nat.mod_lt _ hp

theorem Base.settled {t : Table K V} (b : Base t) {i : Nat} (hi : i < t.n) (h : Settled t i) :
    ∃ e, t.ents i = some e ∧ D t i = dist t.n i (home t e.1) ∧ t.dibs i = min (D t i) OVERFLOW := by
  rcases b.slot i hi with h1 | ⟨e, he, h1 | h1⟩
  · exact absurd h1 h.occ
  · unfold Settled at h; omega
  · refine ⟨e, he, ?_, ?_⟩
    · unfold D; rw [he]
    · unfold D; rw [he]; exact h1

theorem Base.ent {t : Table K V} (b : Base t) {i : Nat} (hi : i < t.n) (h : Occ t i) : ∃ e, t.ents i = some e := by
  rcases b.slot i hi with h1 | ⟨e, he, h1 | h1⟩
  · exact absurd h1 h
  · exact ⟨e, he⟩
  · exact ⟨e, he⟩

theorem D_lt {t : Table K V} (hp : 0 < t.n) {i : Nat} (hi : i < t.n) : D t i < t.n := by
  unfold D
  cases t.ents i with
  | none => exact hp
  | some e => exact dist_lt hi (home_lt hp _)

theorem Base.calc {t : Table K V} (b : Base t) {i : Nat} (hi : i < t.n) (h : Settled t i) :
    calcDib t i (t.dibs i) = .ok (D t i) := by
  obtain ⟨e, he, hd, hr⟩ := b.settled hi h
  unfold calcDib
  rw [if_neg h.occ]
  by_cases hlt : t.dibs i < OVERFLOW
  · rw [if_pos hlt]; congr 1; rw [hr] at hlt ⊢; omega
  · rw [if_neg hlt, he, hd]

theorem Base.unsettled {t : Table K V} (b : Base t) {i : Nat} (hi : i < t.n) (h : ¬ Settled t i) :
    t.dibs i = FREE ∨ (t.dibs i = REHASH ∧ ∃ e, t.ents i = some e) := by
  rcases b.slot i hi with h1 | ⟨e, he, h1 | h1⟩
  · exact .inl h1
  · exact .inr ⟨h1, e, he⟩
  · unfold Settled at h; unfold REHASH at h; unfold OVERFLOW at h1; omega

/-- Below a settled entry there are settled entries all the way. -/
theorem Base.chain {t : Table K V} (b : Base t) {p h : Nat} (hp : p < t.n) (hh : h < t.n) (sp : Settled t p)
    (dp : dist t.n p h ≤ D t p) : ∀ m i, i < t.n → dist t.n i h + m = dist t.n p h → Settled t i ∧ dist t.n i h ≤ D t i
  | 0, i, hi, he => by
    have := dist_inj hi hp hh (by omega); subst this; exact ⟨sp, dp⟩
  | m + 1, i, hi, he => by
    have hl := dist_lt hp hh
    have hn := dist_next hi hh (by omega)
    obtain ⟨s1, d1⟩ := b.chain hp hh sp dp m (next t.n i) (next_lt hi) (by omega)
    obtain ⟨s2, d2⟩ := b.loc _ (next_lt hi) s1 (by omega)
    rw [prev_next hi] at s2 d2
    exact ⟨s2, by omega⟩

/-- The predecessor rule for an entry that would be put at `idx`: every bucket from its first one on is settled. -/
theorem Base.chainPut {t : Table K V} (b : Base t) {idx h : Nat} (hi : idx < t.n) (hh : h < t.n)
    (pr : 0 < dist t.n idx h → Settled t (prev t.n idx) ∧ dist t.n idx h ≤ D t (prev t.n idx) + 1) {i : Nat} (hlt : i < t.n)
    (hd : dist t.n i h < dist t.n idx h) : Settled t i := by
  obtain ⟨s, d⟩ := pr (by omega)
  have hp := dist_prev hi hh (by omega)
  exact (b.chain (prev_lt hi) hh s (by omega) (dist t.n (prev t.n idx) h - dist t.n i h) i hlt (by omega)).1

/-! ## Search -/

theorem Base.free {t : Table K V} (b : Base t) (nr : ∀ i, i < t.n → t.dibs i ≠ REHASH) {i : Nat} (hi : i < t.n) (h : ¬ t.dibs i = FREE) :
    Settled t i := by
  apply Classical.byContradiction
  intro hs
  rcases b.unsettled hi hs with h1 | ⟨h1, _⟩
  · exact h h1
  · exact nr i hi h1

theorem Base.scanLoop {t : Table K V} (b : Base t) (nr : ∀ i, i < t.n → t.dibs i ≠ REHASH) (k : K) :
    ∀ fuel idx d, idx < t.n → dist t.n idx (home t k) = d → t.n - d < fuel →
      (∀ p e, p < t.n → Occ t p → t.ents p = some e → e.1 = k → d ≤ dist t.n p (home t k)) →
      (∃ p e, p < t.n ∧ Occ t p ∧ t.ents p = some e ∧ e.1 = k ∧ scanLoop t k fuel idx d = .ok (some p)) ∨
      ((∀ p e, p < t.n → Occ t p → t.ents p = some e → e.1 ≠ k) ∧ scanLoop t k fuel idx d = .ok none)
  | 0, idx, d, hi, he, hf, _ => by omega
  | fuel + 1, idx, d, hi, he, hf, hbefore => by
    have hh := home_lt b.pos k
    unfold Hashmap.scanLoop
    rw [if_neg (by omega)]
    -- a key further on implies that this bucket is settled, with at least this distance
    have key : ∀ p e, p < t.n → Occ t p → t.ents p = some e → e.1 = k → Settled t idx ∧ d ≤ D t idx := by
      intro p e hp ho hpe hk
      have hb := hbefore p e hp ho hpe hk
      have sp := b.free nr hp ho
      have dp : D t p = dist t.n p (home t k) := by unfold D; rw [hpe]; simp only [hk]
      have := b.chain hp hh sp (by omega) (dist t.n p (home t k) - d) idx hi (by omega)
      rw [he] at this; exact this
    by_cases hfree : t.dibs idx = FREE
    · rw [if_pos hfree]
      right
      refine ⟨?_, rfl⟩
      intro p e hp ho hpe hk
      exact (key p e hp ho hpe hk).1.occ hfree
    · rw [if_neg hfree]
      have hs := b.free nr hi hfree
      rw [b.calc hi hs]
      simp only [Res.bind_ok]
      have hDn := D_lt b.pos hi (t := t)
      have hdn : d < t.n := by rw [← he]; exact dist_lt hi hh
      by_cases h1 : D t idx < d
      · rw [if_pos h1]
        right
        refine ⟨?_, rfl⟩
        intro p e hp ho hpe hk
        have := (key p e hp ho hpe hk).2
        omega
      · rw [if_neg h1]
        -- going on
        have rec' : (∀ e, t.ents idx = some e → e.1 ≠ k) → d + 1 < t.n →
            (∃ p e, p < t.n ∧ Occ t p ∧ t.ents p = some e ∧ e.1 = k ∧ Hashmap.scanLoop t k fuel (next t.n idx) (d + 1) = .ok (some p)) ∨
            ((∀ p e, p < t.n → Occ t p → t.ents p = some e → e.1 ≠ k) ∧ Hashmap.scanLoop t k fuel (next t.n idx) (d + 1) = .ok none) := by
          intro hne hlt
          refine b.scanLoop nr k fuel (next t.n idx) (d + 1) (next_lt hi) ?_ (by omega) ?_
          · rw [dist_next hi hh (by omega), he]
          · intro p e hp ho hpe hk
            have := hbefore p e hp ho hpe hk
            by_cases heq : dist t.n p (home t k) = d
            · have := dist_inj hp hi hh (by omega)
              subst this
              exact absurd hk (hne e hpe)
            · omega
        obtain ⟨e, hee, hde, _⟩ := b.settled hi hs
        -- the last bucket of the round
        have last : d + 1 = t.n → (∀ e, t.ents idx = some e → e.1 ≠ k) →
            (∀ p e, p < t.n → Occ t p → t.ents p = some e → e.1 ≠ k) ∧ Hashmap.scanLoop t k fuel (next t.n idx) (d + 1) = .ok none := by
          intro hl hne
          have no : ∀ p e, p < t.n → Occ t p → t.ents p = some e → e.1 ≠ k := by
            intro p e hp ho hpe hk
            have h2 := hbefore p e hp ho hpe hk
            have h3 := dist_lt hp hh
            have := dist_inj hp hi hh (by omega)
            subst this
            exact hne e hpe hk
          refine ⟨no, ?_⟩
          match fuel, hf with
          | fuel + 1, _ =>
            unfold Hashmap.scanLoop
            have hnl := next_lt hi
            rw [if_neg (by omega)]
            by_cases hf2 : t.dibs (next t.n idx) = FREE
            · rw [if_pos hf2]
            · rw [if_neg hf2]
              have hs2 := b.free nr hnl hf2
              rw [b.calc hnl hs2]
              simp only [Res.bind_ok]
              have := D_lt b.pos hnl (t := t)
              rw [if_pos (by omega)]
          | 0, hf => omega
        by_cases h2 : D t idx = d
        · rw [if_pos h2, hee]
          simp only
          by_cases hk : e.1 = k
          · rw [if_pos hk]
            exact .inl ⟨idx, e, hi, hs.occ, hee, hk, rfl⟩
          · rw [if_neg hk]
            have hne : ∀ e', t.ents idx = some e' → e'.1 ≠ k := by
              intro e' he'; rw [hee] at he'; cases he'; exact hk
            by_cases hl : d + 1 = t.n
            · exact .inr (last hl hne)
            · exact rec' hne (by omega)
        · rw [if_neg h2]
          have hne : ∀ e', t.ents idx = some e' → e'.1 ≠ k := by
            intro e' he' hk; rw [hee] at he'; cases he'
            rw [hk, he] at hde; exact h2 hde
          exact rec' hne (by omega)

/-- The search finds a key if and only if it is there. -/
theorem Base.scan {t : Table K V} (b : Base t) (nr : ∀ i, i < t.n → t.dibs i ≠ REHASH) (k : K) :
    (∃ p e, p < t.n ∧ Occ t p ∧ t.ents p = some e ∧ e.1 = k ∧ scan t k = .ok (some p)) ∨
    ((∀ v, ¬ Has t (k, v)) ∧ Hashmap.scan t k = .ok none) := by
  have h := b.scanLoop nr k (t.n + 1) (home t k) 0 (home_lt b.pos k) (dist_self _ _) (by omega) (fun _ _ _ _ _ _ => Nat.zero_le _)
  rcases h with h | ⟨h1, h2⟩
  · exact .inl h
  · refine .inr ⟨?_, h2⟩
    rintro v ⟨i, hi, ho, he⟩
    exact h1 i (k, v) hi ho he rfl

end Casync.Hashmap
