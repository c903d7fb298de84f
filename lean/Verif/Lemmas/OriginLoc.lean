import Verif.Spec.CacheMake
import Verif.Props.Origin
import Verif.Props.Cache
/-!
Origins as functions from bytes to places.
-/
namespace Casync.CacheMake
open Location (Location)
open Origin (Known Inv)

/-- What `Same` compares. -/
def key (l : Location) : Bytes × UInt8 × Nat × Nat × Option (Nat × Option Nat) × Nat :=
  (l.path, l.designator, l.offset, l.mtime, (if l.mtime = u64max then none else some (l.inode, l.generation)), l.featureFlags)

theorem same_key (a b : Location) : CacheSpec.Same a b ↔ key a = key b := by
  unfold CacheSpec.Same key
  simp only [Prod.mk.injEq]
  by_cases h : a.mtime = u64max
  · constructor
    · rintro ⟨h1, h2, h3, h4, h5, h6⟩
      exact ⟨h1, h2, h3, h4, by rw [← h4, if_pos h, if_pos h], h6⟩
    · rintro ⟨h1, h2, h3, h4, h5, h6⟩
      exact ⟨h1, h2, h3, h4, fun hh => absurd h hh, h6⟩
  · constructor
    · rintro ⟨h1, h2, h3, h4, h5, h6⟩
      obtain ⟨h7, h8⟩ := h5 h
      exact ⟨h1, h2, h3, h4, by rw [← h4, if_neg h, if_neg h, h7, h8], h6⟩
    · rintro ⟨h1, h2, h3, h4, h5, h6⟩
      rw [← h4, if_neg h, if_neg h] at h5
      injection h5 with h5
      injection h5 with h7 h8
      exact ⟨h1, h2, h3, h4, fun _ => ⟨h7, h8⟩, h6⟩

theorem key_byteLoc {a b : Location} (h : key a = key b) (j : Nat) : key (byteLoc a j) = key (byteLoc b j) := by
  unfold key byteLoc at *
  simp only [Prod.mk.injEq] at h ⊢
  obtain ⟨h1, h2, h3, h4, h5, h6⟩ := h
  exact ⟨h1, h2, by rw [h3], h4, h5, h6⟩

theorem byteLoc_byteLoc (l : Location) (i j : Nat) : byteLoc (byteLoc l i) j = byteLoc l (i + j) := by
  unfold byteLoc; simp only [Nat.add_assoc]

abbrev tot (ls : List Location) : Nat := CacheSpec.total ls

theorem tot_cons (l : Location) (ls : List Location) : tot (l :: ls) = l.size + tot ls := rfl

theorem tot_append (a b : List Location) : tot (a ++ b) = tot a + tot b := by simp [tot, CacheSpec.total]

theorem tot_bytes (ls : List Location) : (OriginSpec.allBytes ls).length = tot ls := Origin.length_allBytes ls

theorem locOf_append (a b : List Location) (j : Nat) : locOf (a ++ b) j = if j < tot a then locOf a j else locOf b (j - tot a) := by
  induction a generalizing j with
  | nil => rw [if_neg (by simp [tot, CacheSpec.total])]; rfl
  | cons l ls ih =>
    have e1 : ∀ c, locOf (l :: c) j = if j < l.size then some (byteLoc l j) else locOf c (j - l.size) := fun _ => rfl
    rw [List.cons_append, e1, e1, ih, tot_cons]
    by_cases h : j < l.size
    · rw [if_pos h, if_pos (by omega), if_pos h]
    · rw [if_neg h, if_neg h]
      by_cases h2 : j - l.size < tot ls
      · rw [if_pos h2, if_pos (by omega)]
      · rw [if_neg h2, if_neg (by omega), Nat.sub_sub]

theorem locOf_some {ls : List Location} {j : Nat} (h : j < tot ls) : ∃ q, locOf ls j = some q := by
  induction ls generalizing j with
  | nil => simp [tot, CacheSpec.total] at h
  | cons l ls ih =>
    rw [tot_cons] at h
    unfold locOf
    by_cases h1 : j < l.size
    · rw [if_pos h1]; exact ⟨_, rfl⟩
    · rw [if_neg h1]; exact ih (by omega)

/-- What advancing does to the list. -/
theorem advance_list (o : Origin.Origin) (n : Nat) (ho : Inv o) (hn : n < o.nBytes) :
    ∃ pre l r l', o.items = pre ++ l :: r ∧ tot pre + (n - tot pre) = n ∧ n - tot pre < l.size ∧ Location.advance l (n - tot pre) = .ok l' ∧
      Origin.advanceBytes o n = .ok ⟨l' :: r, o.nBytes - n⟩ ∧ Inv ⟨l' :: r, o.nBytes - n⟩ := by
  by_cases h0 : n = 0
  · have hne : o.items ≠ [] := by
      intro hh
      have := ho.count
      rw [hh] at this
      simp [OriginSpec.allBytes] at this
      omega
    obtain ⟨l, r, hlr⟩ := List.exists_cons_of_ne_nil hne
    have hl := ho.known l (by rw [hlr]; simp)
    refine ⟨[], l, r, l, by rw [hlr]; rfl, ?_, ?_, ?_, ?_, ?_⟩
    · subst h0; rfl
    · subst h0; have := hl.1; show 0 - 0 < _; omega
    · subst h0; rfl
    · subst h0; unfold Origin.advanceBytes; rw [if_pos rfl, ← hlr]; rfl
    · subst h0; rw [← hlr]; exact ho
  · obtain ⟨o', g1, g2, _, g4⟩ := (Origin.C19_advance_bytes o n ho).1 (by omega)
    obtain ⟨k, m, h1, h2, h3, l, r, h4, h5⟩ := Origin.findItem_spec o.items 0 n ho.known (by rw [← ho.count]; omega)
    have h3' : n = tot (o.items.take k) + m := by rw [← tot_bytes]; exact h3
    have hm : n - tot (o.items.take k) = m := by omega
    obtain ⟨o1, h6, h7, h8, h9⟩ := (Origin.C19_advance_items o k ho).1 (by omega)
    have hl := h7.known l (by rw [h8, h4]; simp)
    obtain ⟨l', h10, _, _⟩ := Origin.advance_spec l m hl h5
    have hcnt := h7.count
    rw [h8, h4, Origin.allBytes_cons, List.length_append, Origin.length_bytesOf] at hcnt
    have heq : Origin.advanceBytes o n = .ok ⟨l' :: r, o.nBytes - n⟩ := by
      unfold Origin.advanceBytes
      rw [if_neg h0, if_neg (by omega), if_neg (by omega), h1]
      simp only [Nat.zero_add]
      rw [h6]
      simp only
      rw [if_neg (by omega), h8, h4]
      simp only
      rw [if_neg (by omega), h10]
      simp only
      congr 2
      omega
    rw [heq] at g1
    injection g1 with g1
    subst g1
    refine ⟨o.items.take k, l, r, l', by rw [← h4, List.take_append_drop], by omega, by omega, by rw [hm]; exact h10, heq, g2⟩

theorem advance_key {l l' : Location} {m : Nat} (hl : Known l) (hv : l.designator ≠ Location.void) (hm : m < l.size) (h : Location.advance l m = .ok l') :
    l'.size = l.size - m ∧ key (byteLoc l' 0) = key (byteLoc l m) ∧ l'.nameTable = l.nameTable := by
  have hu : u64max = 2 ^ 64 - 1 := by decide
  unfold Location.advance at h
  by_cases h0 : m = 0
  · rw [if_pos h0] at h
    injection h with h
    subst h h0
    exact ⟨by omega, rfl, rfl⟩
  · rw [if_neg h0, if_neg (fun hh => absurd hh.2 (by omega))] at h
    injection h with h
    have h1 := hl.2.1
    have h2 := hl.2.2 hv
    subst h
    refine ⟨?_, ?_, rfl⟩
    · show (if l.size ≠ u64max then l.size - m else l.size) = _
      rw [if_pos (by omega)]
    · unfold key byteLoc
      simp only [Prod.mk.injEq, true_and, and_true]
      show (if l.designator ≠ Location.void then (l.offset + m) % 2 ^ 64 else l.offset) + 0 = l.offset + m
      rw [if_pos hv, Nat.mod_eq_of_lt (by omega), Nat.add_zero]

theorem advance_exact {l l' : Location} {m : Nat} (hl : Known l) (hv : l.designator ≠ Location.void) (hm : m < l.size) (ha : l.archiveOffset + l.size < u64max)
    (h : Location.advance l m = .ok l') : byteLoc l' 0 = byteLoc l m := by
  have hu : u64max = 2 ^ 64 - 1 := by decide
  unfold Location.advance at h
  by_cases h0 : m = 0
  · rw [if_pos h0] at h
    injection h with h
    subst h h0
    rfl
  · rw [if_neg h0, if_neg (fun hh => absurd hh.2 (by omega))] at h
    injection h with h
    have h1 := hl.2.1
    have h2 := hl.2.2 hv
    subst h
    unfold byteLoc
    simp only [Nat.add_zero]
    rw [if_pos hv, Nat.mod_eq_of_lt (by omega), if_pos (by omega), Nat.mod_eq_of_lt (by omega)]

/-- Advancing, with a view `g` of places. -/
theorem advance_view {K : Type} (g : Location → K) (o : Origin.Origin) (n : Nat) (ho : Inv o) (hn : n ≤ o.nBytes)
    (hg : ∀ l ∈ o.items, ∀ m l', m < l.size → Location.advance l m = .ok l' → ∀ j, g (byteLoc l' j) = g (byteLoc l (m + j)))
    (hv : ∀ l ∈ o.items, l.designator ≠ Location.void) :
    ∃ o', Origin.advanceBytes o n = .ok o' ∧ Inv o' ∧ o'.nBytes = o.nBytes - n ∧ (∀ j, (locOf o'.items j).map g = (locOf o.items (n + j)).map g) ∧
      (∀ l ∈ o'.items.getLast?, ∃ l0 ∈ o.items.getLast?, l.nameTable = l0.nameTable) ∧
      (∀ P : Location → Prop, (∀ l l', P l → l' = { l with offset := l'.offset, archiveOffset := l'.archiveOffset, size := l'.size } → P l') → (∀ l ∈ o.items, P l) → ∀ l ∈ o'.items, P l) := by
  by_cases he : n = o.nBytes
  · by_cases h0 : n = 0
    · subst h0
      refine ⟨o, by unfold Origin.advanceBytes; rw [if_pos rfl], ho, by omega, by intro j; rw [Nat.zero_add], fun l hl => ⟨l, hl, rfl⟩, fun P _ h => h⟩
    · refine ⟨Origin.empty, by unfold Origin.advanceBytes; rw [if_neg h0, if_neg (by omega), if_pos he], Origin.inv_empty, ?_, ?_, ?_, ?_⟩
      · show 0 = _; omega
      · intro j
        have : locOf o.items (n + j) = none := by
          have := locOf_append o.items [] (n + j)
          rw [List.append_nil, if_neg (by rw [← tot_bytes, ← ho.count]; omega)] at this
          rw [this]; rfl
        rw [this]; rfl
      · intro l hl; cases hl
      · intro P _ _ l hl; cases hl
  · obtain ⟨pre, l, r, l', h1, h2, h3, h4, h5, h6⟩ := advance_list o n ho (by omega)
    have hmem : l ∈ o.items := by rw [h1]; simp
    obtain ⟨k1, k2, k3⟩ := advance_key (ho.known l hmem) (hv l hmem) h3 h4
    refine ⟨_, h5, h6, rfl, ?_, ?_, ?_⟩
    · intro j
      rw [h1, locOf_append, if_neg (by omega)]
      have e : n + j - tot pre = (n - tot pre) + j := by omega
      rw [e]
      unfold locOf
      rw [k1]
      by_cases hj : j < l.size - (n - tot pre)
      · rw [if_pos hj, if_pos (by omega), Option.map_some, Option.map_some, hg l hmem _ _ h3 h4 j]
      · rw [if_neg hj, if_neg (by omega)]
        congr 2
        omega
    · intro q hq
      cases hr : r with
      | nil =>
        simp only [hr] at hq
        simp at hq
        subst hq
        exact ⟨l, by rw [h1, hr]; simp, k3⟩
      | cons b bs =>
        refine ⟨q, ?_, rfl⟩
        simp only [hr] at hq
        rw [h1, hr]
        simpa using hq
    · intro P hP ha q hq
      rcases List.mem_cons.1 hq with rfl | hq
      · refine hP l q (ha l hmem) ?_
        unfold Location.advance at h4
        split at h4
        · injection h4 with h4; subst h4; rfl
        · split at h4
          · cases h4
          · injection h4 with h4; rw [← h4]
      · exact ha q (by rw [h1]; simp [hq])

theorem advance_all {l l' : Location} {m : Nat} (h : key (byteLoc l' 0) = key (byteLoc l m)) (j : Nat) : key (byteLoc l' j) = key (byteLoc l (m + j)) := by
  have := key_byteLoc h j
  rwa [byteLoc_byteLoc, byteLoc_byteLoc, Nat.zero_add] at this

/-- Putting a location, with a view `g` of places that merging respects. -/
theorem put_view {K : Type} (g : Location → K) (o : Origin.Origin) (l : Location) (h : Inv o) (hl : Known l) (hroom : o.nBytes + l.size < u64max)
    (hg : ∀ last ∈ o.items.getLast?, ∀ c, Location.merge last l = .ok (some c) → ∀ j, g (byteLoc last (last.size + j)) = g (byteLoc l j)) :
    ∃ o', Origin.put o l = .ok o' ∧ Inv o' ∧ o'.nBytes = o.nBytes + l.size ∧
      (∀ j, (locOf o'.items j).map g = if j < o.nBytes then (locOf o.items j).map g else (locOf [l] (j - o.nBytes)).map g) ∧
      ((∃ p c last, o.items = p ++ [last] ∧ Location.merge last l = .ok (some c) ∧ o'.items = p ++ [c] ∧ c = { last with size := last.size + l.size }) ∨ o'.items = o.items ++ [l]) := by
  have hu : u64max = 2 ^ 64 - 1 := by decide
  obtain ⟨o', h1, h2, _, h4⟩ := Origin.C19_put o l h hl hroom
  have hcnt : o.nBytes = tot o.items := by rw [h.count, tot_bytes]
  refine ⟨o', h1, h2, h4, ?_⟩
  unfold Origin.put at h1
  rw [if_neg (Nat.ne_of_lt hl.2.1)] at h1
  cases hlast : o.items.getLast? with
  | none =>
    have hnil : o.items = [] := List.getLast?_eq_none_iff.1 hlast
    rw [hlast] at h1
    simp only at h1
    split at h1
    · cases h1
    · injection h1 with h1
      subst h1
      have h0 : o.nBytes = 0 := by rw [hcnt, hnil]; rfl
      refine ⟨?_, .inr (by rw [hnil]; rfl)⟩
      intro j
      rw [h0, if_neg (by omega), Nat.sub_zero]
  | some last =>
    rw [hlast] at h1
    simp only at h1
    obtain ⟨p, hp⟩ := List.getLast?_eq_some_iff.1 hlast
    have hkl : Known last := h.known last (by rw [hp]; simp)
    have hsz : last.size + l.size < 2 ^ 64 := by
      have := Origin.size_le_nBytes h (l := last) (by rw [hp]; simp)
      omega
    cases hm : Location.merge last l with
    | err e => rw [hm] at h1; cases h1
    | ub => rw [hm] at h1; cases h1
    | ok v =>
      rw [hm] at h1
      cases v with
      | none =>
        simp only at h1
        injection h1 with h1
        subst h1
        refine ⟨?_, .inr rfl⟩
        intro j
        simp only
        rw [locOf_append, ← hcnt]
        split <;> rfl
      | some c =>
        simp only at h1
        injection h1 with h1
        subst h1
        have hc : c = { last with size := last.size + l.size } := by
          unfold Location.merge at hm
          repeat' split at hm
          all_goals first | cases hm; done | skip
          injection hm with hm
          injection hm with hm
          rw [← hm, Nat.mod_eq_of_lt hsz]
        have hgl := hg last hlast c hm
        refine ⟨?_, .inl ⟨p, c, last, hp, hm, by simp only; rw [hp, List.dropLast_concat], hc⟩⟩
        intro j
        simp only
        have ht : tot o.items = tot p + last.size := by
          rw [hp, tot_append]; simp [tot, CacheSpec.total]
        rw [hp, List.dropLast_concat, locOf_append, locOf_append, hcnt, ht]
        by_cases hj : j < tot p
        · rw [if_pos hj, if_pos (by omega), if_pos hj]
        · rw [if_neg hj, if_neg hj]
          unfold locOf
          rw [hc]
          simp only
          by_cases hj2 : j < tot p + last.size
          · rw [if_pos hj2, if_pos (by omega), if_pos (by omega)]
            rfl
          · rw [if_neg hj2]
            by_cases hj3 : j - tot p < last.size + l.size
            · rw [if_pos hj3, if_pos (by omega), Option.map_some, Option.map_some]
              have := hgl (j - (tot p + last.size))
              rw [← this]
              congr 2
              show byteLoc last (j - tot p) = _
              congr 1
              omega
            · rw [if_neg hj3, if_neg (by omega)]
              rfl

/-- Merging respects the key. -/
theorem merge_key {a b c : Location} (ha : Known a) (hv : a.designator ≠ Location.void) (hf : a.featureFlags = b.featureFlags) (h : Location.merge a b = .ok (some c)) (j : Nat) :
    key (byteLoc a (a.size + j)) = key (byteLoc b j) := by
  unfold Location.merge at h
  split at h; · cases h
  split at h; · cases h
  split at h; · cases h
  split at h; · cases h
  rename_i h1
  split at h; · cases h
  rename_i h2
  split at h; · cases h
  rename_i h3
  split at h; · cases h
  rename_i h4
  split at h; · cases h
  rename_i h5
  simp only [ne_eq, Classical.not_not] at h1 h2 h4
  have h3' : (a.offset + a.size) % 2 ^ 64 = b.offset := Classical.not_not.1 (fun hn => h3 ⟨hv, hn⟩)
  rw [Nat.mod_eq_of_lt (ha.2.2 hv)] at h3'
  unfold key byteLoc
  simp only [Prod.mk.injEq]
  refine ⟨h1, h2, by omega, h4, ?_, hf⟩
  rw [← h4]
  by_cases hm : a.mtime = u64max
  · rw [if_pos hm, if_pos hm]
  · rw [if_neg hm, if_neg hm]
    have e1 : a.inode = b.inode := Classical.not_not.1 (fun hn => h5 ⟨hm, .inl hn⟩)
    have e2 : a.generation.isSome = b.generation.isSome := Classical.not_not.1 (fun hn => h5 ⟨hm, .inr (.inl hn)⟩)
    have e3 : a.generation = b.generation := by
      cases hg : a.generation with
      | none =>
        rw [hg] at e2
        cases hgb : b.generation with
        | none => rfl
        | some g => rw [hgb] at e2; cases e2
      | some g =>
        rw [← hg]
        exact Classical.not_not.1 (fun hn => h5 ⟨hm, .inr (.inr ⟨by rw [hg]; rfl, hn⟩)⟩)
    rw [e1, e3]

/-- A place that is not void, with these feature flags. -/
def Plain (f : Nat) (l : Location) : Prop := l.designator ≠ Location.void ∧ l.featureFlags = f

theorem put_key (f : Nat) (o : Origin.Origin) (l : Location) (h : Inv o) (hl : Known l) (hroom : o.nBytes + l.size < u64max) (hp : ∀ x ∈ o.items, Plain f x) (hpl : Plain f l) :
    ∃ o', Origin.put o l = .ok o' ∧ Inv o' ∧ o'.nBytes = o.nBytes + l.size ∧ (∀ x ∈ o'.items, Plain f x) ∧
      ∀ j, (locOf o'.items j).map key = if j < o.nBytes then (locOf o.items j).map key else (locOf [l] (j - o.nBytes)).map key := by
  obtain ⟨o', h1, h2, h3, h4, h5⟩ := put_view key o l h hl hroom (by
    intro last hm c hc j
    have hmem := List.mem_of_getLast? hm
    exact merge_key (h.known last hmem) (hp last hmem).1 ((hp last hmem).2.trans hpl.2.symm) hc j)
  refine ⟨o', h1, h2, h3, ?_, h4⟩
  rcases h5 with ⟨p, c, last, q1, _, q2, q3⟩ | q
  · intro x hx
    rw [q2] at hx
    rcases List.mem_append.1 hx with hx | hx
    · exact hp x (by rw [q1]; simp [hx])
    · rw [List.mem_singleton.1 hx, q3]
      exact hp last (by rw [q1]; simp)
  · intro x hx
    rw [q] at hx
    rcases List.mem_append.1 hx with hx | hx
    · exact hp x hx
    · rw [List.mem_singleton.1 hx]; exact hpl

theorem concatLoop_key (f : Nat) (ls : List Location) : ∀ (o : Origin.Origin) (n : Nat), Inv o → (∀ l ∈ ls, Known l) → (∀ l ∈ ls, Plain f l) → (∀ l ∈ o.items, Plain f l) → 0 < n →
    n ≤ tot ls → o.nBytes + n < u64max →
    ∃ o', Origin.concatLoop o ls n = .ok o' ∧ Inv o' ∧ o'.nBytes = o.nBytes + n ∧ (∀ l ∈ o'.items, Plain f l) ∧
      ∀ j, j < o.nBytes + n → (locOf o'.items j).map key = if j < o.nBytes then (locOf o.items j).map key else (locOf ls (j - o.nBytes)).map key := by
  induction ls with
  | nil => intro o n _ _ _ _ h0 hn; simp [tot, CacheSpec.total] at hn; omega
  | cons l ls ih =>
    intro o n ho hk hp hpo h0 hn hroom
    have hl := hk l (by simp)
    have hpl := hp l (by simp)
    unfold Origin.concatLoop
    rw [if_neg (Nat.ne_of_lt hl.2.1)]
    simp only
    by_cases hgt : l.size > n
    · rw [if_pos hgt]
      have hk' : Known (Location.patchSize l n) := ⟨by show n ≠ 0; omega, by show n < u64max; omega, fun hv => by
        have := hl.2.2 hv; show l.offset + n < 2 ^ 64; omega⟩
      obtain ⟨o', h1, h2, h3, h4, h5⟩ := put_key f o (Location.patchSize l n) ho hk' hroom hpo hpl
      rw [h1]
      simp only
      have : n - (Location.patchSize l n).size = 0 := by show n - n = 0; omega
      rw [if_pos this]
      refine ⟨o', rfl, h2, h3, h4, ?_⟩
      intro j hj
      rw [h5]
      by_cases hjo : j < o.nBytes
      · rw [if_pos hjo, if_pos hjo]
      · rw [if_neg hjo, if_neg hjo]
        have e1 : locOf [Location.patchSize l n] (j - o.nBytes) = some (byteLoc l (j - o.nBytes)) := by
          unfold locOf
          rw [if_pos (by show j - o.nBytes < n; omega)]
          rfl
        have e2 : locOf (l :: ls) (j - o.nBytes) = some (byteLoc l (j - o.nBytes)) := by
          unfold locOf
          rw [if_pos (by omega)]
        rw [e1, e2]
    · rw [if_neg hgt]
      obtain ⟨o', h1, h2, h3, h4, h5⟩ := put_key f o l ho hl (by omega) hpo hpl
      rw [h1]
      simp only
      rw [tot_cons] at hn
      have hone : ∀ j, o.nBytes ≤ j → j < o.nBytes + l.size → (locOf [l] (j - o.nBytes)).map key = (locOf (l :: ls) (j - o.nBytes)).map key := by
        intro j hj1 hj2
        unfold locOf
        rw [if_pos (by omega), if_pos (by omega)]
      by_cases hz : n - l.size = 0
      · rw [if_pos hz]
        refine ⟨o', rfl, h2, by omega, h4, ?_⟩
        intro j hj
        rw [h5]
        by_cases hjo : j < o.nBytes
        · rw [if_pos hjo, if_pos hjo]
        · rw [if_neg hjo, if_neg hjo, hone j (by omega) (by omega)]
      · rw [if_neg hz]
        obtain ⟨o'', h6, h7, h8, h9, h10⟩ := ih o' (n - l.size) h2 (fun x hx => hk x (by simp [hx])) (fun x hx => hp x (by simp [hx])) h4 (by omega) (by omega) (by omega)
        refine ⟨o'', h6, h7, by omega, h9, ?_⟩
        intro j hj
        rw [h10 j (by omega), h5]
        by_cases hjo : j < o.nBytes
        · rw [if_pos hjo, if_pos (by omega), if_pos hjo]
        · by_cases hj2 : j < o'.nBytes
          · rw [if_pos hj2, if_neg hjo, if_neg hjo, hone j (by omega) (by omega)]
          · rw [if_neg hj2, if_neg hjo]
            have : locOf (l :: ls) (j - o.nBytes) = locOf ls (j - o'.nBytes) := by
              show (if j - o.nBytes < l.size then some (byteLoc l (j - o.nBytes)) else locOf ls (j - o.nBytes - l.size)) = _
              rw [if_neg (by omega)]
              congr 1
              omega
            rw [this]

theorem extract_key (f : Nat) (o : Origin.Origin) (n : Nat) (ho : Inv o) (hp : ∀ l ∈ o.items, Plain f l) (h0 : 0 < n) (hn : n ≤ o.nBytes) :
    ∃ o', Origin.extractBytes o n = .ok o' ∧ Inv o' ∧ o'.nBytes = n ∧ (∀ l ∈ o'.items, Plain f l) ∧ ∀ j, j < n → (locOf o'.items j).map key = (locOf o.items j).map key := by
  have hu := ho.small
  unfold Origin.extractBytes Origin.concat
  rw [if_neg (by omega), if_neg (by omega), if_neg (by omega), if_neg (by omega), if_neg (by omega)]
  have hz : Origin.empty.nBytes = 0 := rfl
  obtain ⟨o', h1, h2, h3, h4, h5⟩ := concatLoop_key f o.items Origin.empty n Origin.inv_empty ho.known hp (by intro l hl; cases hl) h0 (by rw [← tot_bytes, ← ho.count]; exact hn) (by omega)
  refine ⟨o', h1, h2, by omega, h4, ?_⟩
  intro j hj
  rw [h5 j (by omega), if_neg (by omega)]
  rfl

/-- The same place, byte by byte. -/
theorem is_same {ls : List Location} {j : Nat} {l : Location} : (∃ q, locOf ls j = some q ∧ CacheSpec.Same l q) ↔ (locOf ls j).map key = some (key l) := by
  cases h : locOf ls j with
  | none => simp
  | some q =>
    simp only [Option.some.injEq, exists_eq_left', Option.map_some]
    rw [same_key]
    exact eq_comm

end Casync.CacheMake
