import Verif.Lemmas.Flags
/-!
Property C17: feature flags have one normal form.
A bit `i` of a word `f` is `f.getLsbD i`; `Known f` says that only the known bits 0..32 (`WITH_*`)
and 60..63 are set.
-/
namespace Casync.Flags
open Casync

/-- C17. Normalising succeeds exactly for words of known flags. -/
theorem C17_succeeds_iff (f : Word) : (∃ g, normalize f = .ok g) ↔ Known f := by
  constructor
  · rintro ⟨g, h⟩
    unfold normalize at h
    split at h
    · cases h
    · split at h
      · cases h
      · rename_i h1; rw [← known_iff']; simpa using h1
  · intro h; exact ⟨_, normalize_known h⟩

theorem normalizeBody_known {f : Word} (h : Known f) : Known (normalizeBody f) := by
  intro i hi
  rw [normalizeBody_bits] at hi
  by_cases h0 : f.getLsbD i = true
  · exact h i h0
  · simp only [Bool.not_eq_true] at h0
    left
    rw [h0] at hi
    grind

theorem normalizeBody_consistent (f : Word) : Consistent (normalizeBody f) := by
  unfold Consistent
  simp only [normalizeBody_bits]
  simp only [Nat.reduceBEq, Bool.and_true, Bool.and_false, Bool.or_false, Bool.or_true, Bool.not_false]
  refine ⟨?_, ?_, ?_, ?_, ?_, ?_, ?_, ?_, ?_⟩ <;> grind

theorem normalizeBody_fixed {f : Word} (h : Consistent f) : normalizeBody f = f := by
  apply BitVec.eq_of_getLsbD_eq
  intro i _
  rw [normalizeBody_bits]
  obtain ⟨h1, h2, h3, h4, h5, h6, h7, h8, h9⟩ := h
  by_cases e : i = 0 ∨ i = 1 ∨ i = 2 ∨ i = 3 ∨ i = 4 ∨ i = 6 ∨ i = 7 ∨ i = 8 ∨ i = 20 ∨ i = 26
  · rcases e with e | e | e | e | e | e | e | e | e | e <;> subst e <;>
      simp only [Nat.reduceBEq, Bool.and_true, Bool.and_false, Bool.or_false, Bool.or_true, Bool.not_false] <;> grind
  · have : ∀ k, (i = k → False) → (i == k) = false := fun k hk => by simpa using hk
    simp [this 0 (by omega), this 1 (by omega), this 2 (by omega), this 3 (by omega), this 4 (by omega),
      this 6 (by omega), this 7 (by omega), this 8 (by omega), this 20 (by omega), this 26 (by omega)]

/-- C17. The check accepts exactly the words of known flags without redundant or contradictory bits:
at most one time granularity, at most one uid width, no permission flag that another one implies, ACLs
only together with some user identification, read-only subvolumes only with subvolumes, ... -/
theorem C17_areNormalized_iff (f : Word) :
    areNormalized f = .ok true ↔ Known f ∧ Consistent f := by
  constructor
  · intro h
    have hk : f ≠ none64 ∧ f &&& ~~~flagsMax = 0#64 := by
      unfold areNormalized at h
      split at h
      · cases h
      · split at h
        · cases h
        · rename_i h1 h2; exact ⟨h1, by simpa using h2⟩
    obtain ⟨b, h1, h2⟩ := areNormalized_eq f hk.1 hk.2
    rw [h] at h1
    cases h1
    exact ⟨(known_iff' f).1 hk.2, h2.1 rfl⟩
  · rintro ⟨hk, hc⟩
    obtain ⟨b, h1, h2⟩ := areNormalized_eq f (known_ne_max hk) ((known_iff' f).2 hk)
    rw [h1, h2.2 hc]

/-- C17. The result is recognised as normalised. -/
theorem C17_result_is_normalized (f g : Word) (h : normalize f = .ok g) : areNormalized g = .ok true := by
  have hk := (C17_succeeds_iff f).1 ⟨g, h⟩
  rw [normalize_known hk] at h
  cases h
  exact (C17_areNormalized_iff _).2 ⟨normalizeBody_known hk, normalizeBody_consistent f⟩

/-- C17. Normalised words are exactly the fixed points. -/
theorem C17_fixed_points (f : Word) : areNormalized f = .ok true ↔ normalize f = .ok f := by
  constructor
  · intro h
    obtain ⟨hk, hc⟩ := (C17_areNormalized_iff f).1 h
    rw [normalize_known hk, normalizeBody_fixed hc]
  · exact C17_result_is_normalized f f

/-- C17. Normalising is idempotent. -/
theorem C17_idempotent (f g : Word) (h : normalize f = .ok g) : normalize g = .ok g :=
  (C17_fixed_points g).1 (C17_result_is_normalized f g h)

/-- C17. In a normalised word at most one time flag and at most one uid flag remains. -/
theorem C17_unambiguous (g : Word) (h : areNormalized g = .ok true) :
    ([has g withNsecTime, has g withUsecTime, has g withSecTime, has g with2SecTime].filter id).length ≤ 1 ∧
    ¬ (has g with16BitUids = true ∧ has g with32BitUids = true) := by
  obtain ⟨_, h1, h2, h3, h4, _⟩ := (C17_areNormalized_iff g).1 h
  simp only [has_withNsecTime, has_withUsecTime, has_withSecTime, has_with2SecTime,
    has_with16BitUids, has_with32BitUids]
  refine ⟨?_, h4⟩
  revert h1 h2 h3
  generalize g.getLsbD 3 = b3
  generalize g.getLsbD 4 = b4
  generalize g.getLsbD 5 = b5
  generalize g.getLsbD 6 = b6
  revert b3 b4 b5 b6
  decide

/-- C17. Normalising keeps the time granularity that is in effect: the finest one asked for. -/
theorem C17_keeps_granularity (f g : Word) (h : normalize f = .ok g) : granularity g = granularity f := by
  have hk := (C17_succeeds_iff f).1 ⟨g, h⟩
  rw [normalize_known hk] at h
  cases h
  unfold granularity
  have e1 := (known_iff' _).2 (normalizeBody_known hk)
  have e2 := (known_iff' _).2 hk
  rw [if_neg (not_not_intro e1), if_neg (not_not_intro e2)]
  simp only [has_withNsecTime, has_withUsecTime, has_withSecTime, has_with2SecTime, normalizeBody_bits]
  simp only [Nat.reduceBEq, Bool.and_true, Bool.and_false, Bool.or_false, Bool.or_true, Bool.not_false]
  generalize f.getLsbD 3 = b3
  generalize f.getLsbD 4 = b4
  generalize f.getLsbD 5 = b5
  generalize f.getLsbD 6 = b6
  cases b5 <;> cases b4 <;> cases b3 <;> cases b6 <;> rfl

/-- C17. Bits that have no redundancy rule attached are kept as they are. -/
theorem C17_keeps_other_bits (f g : Word) (h : normalize f = .ok g) (i : Nat)
    (hi : i ∉ [0, 1, 2, 3, 4, 6, 7, 8, 20, 26]) : g.getLsbD i = f.getLsbD i := by
  have hk := (C17_succeeds_iff f).1 ⟨g, h⟩
  rw [normalize_known hk] at h
  cases h
  rw [normalizeBody_bits]
  simp only [List.mem_cons, List.not_mem_nil, or_false, not_or] at hi
  have : ∀ k, (i = k → False) → (i == k) = false := fun k hk => by simpa using hk
  simp [this 0 (by omega), this 1 (by omega), this 2 (by omega), this 3 (by omega), this 4 (by omega),
    this 6 (by omega), this 7 (by omega), this 8 (by omega), this 20 (by omega), this 26 (by omega)]

/-- C17. The time granularity of a word of known flags is that of its finest time flag: 1 ns, 1 µs, 1 s or 2 s. -/
theorem C17_granularity_iff (f : Word) (g : Nat) :
    granularity f = .ok g ↔ Known f ∧
      ((has f withNsecTime = true ∧ g = 1) ∨
       (has f withNsecTime = false ∧ has f withUsecTime = true ∧ g = 1000) ∨
       (has f withNsecTime = false ∧ has f withUsecTime = false ∧ has f withSecTime = true ∧ g = 1000000000) ∨
       (has f withNsecTime = false ∧ has f withUsecTime = false ∧ has f withSecTime = false ∧
         has f with2SecTime = true ∧ g = 2000000000)) := by
  unfold granularity
  rw [← known_iff']
  by_cases hk : f &&& ~~~flagsMax = 0#64
  · rw [if_neg (not_not_intro hk)]
    cases has f withNsecTime <;> cases has f withUsecTime <;> cases has f withSecTime <;>
      cases has f with2SecTime <;> simp [hk, eq_comm]
  · rw [if_pos hk]
    simp only [hk, false_and, iff_false]
    intro h; cases h

/-- What closing a mask means: a mask that covers one uid width covers both, one that covers some time granularity covers
all of them, permissions cover the read-only flag, ACLs cover both, and read-only subvolumes cover subvolumes. -/
def Closed (m : Word) : Prop :=
  (has m with16BitUids = true ↔ has m with32BitUids = true) ∧
  (has m withSecTime = true ↔ has m withUsecTime = true) ∧
  (has m withUsecTime = true ↔ has m withNsecTime = true) ∧
  (has m withNsecTime = true ↔ has m with2SecTime = true) ∧
  (has m withPermissions = true → has m withReadOnly = true) ∧
  (has m withAcl = true → has m withPermissions = true ∧ has m withReadOnly = true) ∧
  (has m withSubvolumeRo = true → has m withSubvolume = true)

theorem bit_withNsecTime (i : Nat) : withNsecTime.getLsbD i = (i == 5) := twoPow_bit 5 (by decide) i

theorem normalizeMask_bits (m : Word) (h : m ≠ none64) (i : Nat) :
    (normalizeMask m).getLsbD i =
      ((m.getLsbD i && flagsMax.getLsbD i) || ((m.getLsbD 0 || m.getLsbD 1) && (i == 0 || i == 1)) ||
        ((m.getLsbD 3 || m.getLsbD 4 || m.getLsbD 5 || m.getLsbD 6) && (i == 3 || i == 4 || i == 5 || i == 6)) ||
        (m.getLsbD 8 && i == 7) || (m.getLsbD 29 && (i == 8 || i == 7)) || (m.getLsbD 27 && i == 26)) := by
  have e : ∀ k, k < 33 → flagsMax.getLsbD k = true := fun k hk => (flagsMax_bit k).2 (Or.inl hk)
  unfold normalizeMask
  rw [if_neg h]
  revert e
  generalize flagsMax = fm
  intro e
  simp only [getLsbD_setIf, has_or, has_withNsecTime, has_withUsecTime, has_withSecTime, has_with2SecTime,
    has_with16BitUids, has_with32BitUids, has_withPermissions, has_withAcl, has_withSubvolumeRo, BitVec.getLsbD_or,
    BitVec.getLsbD_and, bit_with16BitUids, bit_with32BitUids, bit_withSecTime, bit_withUsecTime, bit_withNsecTime,
    bit_with2SecTime, bit_withReadOnly, bit_withPermissions, bit_withSubvolume,
    e 0 (by decide), e 1 (by decide), e 3 (by decide), e 4 (by decide), e 5 (by decide), e 6 (by decide), e 8 (by decide),
    e 27 (by decide), e 29 (by decide)]
  simp only [Nat.reduceBEq, Bool.and_true, Bool.and_false, Bool.or_false]

theorem closed_bits (m : Word) : Closed m ↔
    ((m.getLsbD 0 = true ↔ m.getLsbD 1 = true) ∧ (m.getLsbD 3 = true ↔ m.getLsbD 4 = true) ∧
    (m.getLsbD 4 = true ↔ m.getLsbD 5 = true) ∧ (m.getLsbD 5 = true ↔ m.getLsbD 6 = true) ∧
    (m.getLsbD 8 = true → m.getLsbD 7 = true) ∧ (m.getLsbD 29 = true → m.getLsbD 8 = true ∧ m.getLsbD 7 = true) ∧
    (m.getLsbD 27 = true → m.getLsbD 26 = true)) := by
  unfold Closed
  simp only [has_withNsecTime, has_withUsecTime, has_withSecTime, has_with2SecTime, has_with16BitUids,
    has_with32BitUids, has_withPermissions, has_withAcl, has_withSubvolumeRo, has_withReadOnly, has_withSubvolume]

/-- C17. Normalising a mask other than "everything" gives the least closed mask of known flags that covers all known flags of
the mask: it is closed, covers them, and every closed mask that covers them covers the result. -/
theorem C17_mask_least (m : Word) (h : m ≠ none64) :
    Known (normalizeMask m) ∧ Closed (normalizeMask m) ∧
    (∀ i, m.getLsbD i = true → flagsMax.getLsbD i = true → (normalizeMask m).getLsbD i = true) ∧
    (∀ c, Closed c → (∀ i, m.getLsbD i = true → flagsMax.getLsbD i = true → c.getLsbD i = true) →
      ∀ i, (normalizeMask m).getLsbD i = true → c.getLsbD i = true) := by
  have e : ∀ k, k < 33 → flagsMax.getLsbD k = true := fun k hk => (flagsMax_bit k).2 (Or.inl hk)
  have e' := fun i => (flagsMax_bit i).1
  have hbits := normalizeMask_bits m h
  revert e e' hbits
  generalize flagsMax = fm
  intro e e' hbits
  refine ⟨?_, ?_, ?_, ?_⟩
  · intro i hi
    rw [hbits] at hi
    by_cases hx : fm.getLsbD i = true
    · exact e' i hx
    · left
      simp only [Bool.not_eq_true] at hx
      rw [hx] at hi
      grind
  · rw [closed_bits]
    simp only [hbits]
    simp only [Nat.reduceBEq, e 0 (by decide), e 1 (by decide), e 3 (by decide), e 4 (by decide), e 5 (by decide),
      e 6 (by decide), e 7 (by decide), e 8 (by decide), e 26 (by decide), e 27 (by decide), e 29 (by decide)]
    grind
  · intro i h1 h2
    rw [hbits, h1, h2]
    simp
  · intro c hc hs i hi
    rw [closed_bits] at hc
    rw [hbits] at hi
    have q : ∀ k, k < 33 → m.getLsbD k = true → c.getLsbD k = true := fun k hk hm => hs k hm (e k hk)
    have q0 := q 0 (by decide); have q1 := q 1 (by decide); have q3 := q 3 (by decide); have q4 := q 4 (by decide)
    have q5 := q 5 (by decide); have q6 := q 6 (by decide); have q8 := q 8 (by decide); have q27 := q 27 (by decide)
    have q29 := q 29 (by decide); have qi := hs i
    simp only [Bool.or_eq_true, Bool.and_eq_true, beq_iff_eq] at hi
    rcases hi with ((((hi | ⟨hi, h'⟩) | ⟨hi, h'⟩) | ⟨hi, h'⟩) | ⟨hi, h'⟩) | ⟨hi, h'⟩
    · exact qi hi.1 hi.2
    · rcases h' with h' | h' <;> subst h' <;> grind
    · rcases h' with ((h' | h') | h') | h' <;> subst h' <;> grind
    · subst h'; grind
    · rcases h' with h' | h' <;> subst h' <;> grind
    · subst h'; grind

/-- C17. The mask "everything" stays what it is. -/
theorem C17_mask_everything : normalizeMask none64 = none64 := by
  unfold normalizeMask; rw [if_pos rfl]

/-- C17. Normalising a mask twice changes nothing more. -/
theorem C17_mask_idempotent (m : Word) : normalizeMask (normalizeMask m) = normalizeMask m := by
  by_cases h : m = none64
  · rw [h, C17_mask_everything, C17_mask_everything]
  · obtain ⟨hk, hc, _, _⟩ := C17_mask_least m h
    obtain ⟨_, _, h1, h2⟩ := C17_mask_least (normalizeMask m) (known_ne_max hk)
    apply BitVec.eq_of_getLsbD_eq
    intro i _
    rw [Bool.eq_iff_iff]
    exact ⟨h2 _ hc (fun i hi _ => hi) i, fun hi => h1 i hi ((flagsMax_bit i).2 (hk i hi))⟩

/-! Non-vacuity: the default flags, and a word with redundancies. -/
example : granularity default = .ok 1 ∧ granularity 0x18#64 = .ok 1000 ∧ granularity 0x48#64 = .ok 1000000000 ∧
    granularity 0x40#64 = .ok 2000000000 ∧ granularity 0x1#64 = .err .ENODATA := by decide
example : normalizeMask 0x20000001#64 = 0x20000183#64 := by decide
example : normalize default = .ok default := by decide
example : normalize 0x1ff#64 = .ok 0x126#64 := by decide
example : areNormalized default = .ok true := by decide
example : (∃ g, normalize 0x2000007b#64 = .ok g) ∧ normalize (1#64 <<< 40) = .err .EOPNOTSUPP := ⟨⟨_, rfl⟩, by decide⟩

end Casync.Flags
