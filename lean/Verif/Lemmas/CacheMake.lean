import Verif.Lemmas.CacheEnc
import Verif.Props.Chunker
/-!
What holds during a session that makes an index with the chunk cache.
-/
namespace Casync.CacheMake
open Resume
open Location (Location)
open Origin (Known Inv)

/-! ### Slices -/

theorem slice_length {A : Bytes} {a n : Nat} (h : a + n ≤ A.length) : (slice A a n).length = n := by
  unfold slice; rw [List.length_take, List.length_drop]; omega

theorem slice_append {A : Bytes} {a n m : Nat} : slice A a n ++ slice A (a + n) m = slice A a (n + m) := by
  unfold slice
  rw [List.take_add, List.drop_drop]

theorem slice_drop {A : Bytes} {a n k : Nat} : (slice A a n).drop k = slice A (a + k) (n - k) := by
  unfold slice
  rw [List.drop_take, List.drop_drop]

theorem slice_take {A : Bytes} {a n k : Nat} (h : k ≤ n) : (slice A a n).take k = slice A a k := by
  unfold slice
  rw [List.take_take, Nat.min_eq_left h]

theorem take_slice {A : Bytes} {a n : Nat} : A.take a ++ slice A a n = A.take (a + n) := by
  unfold slice
  rw [List.take_add]

theorem append_slice {A x y : Bytes} {a n : Nat} (h : x ++ y = slice A a n) (hl : x.length + y.length = n) : x = slice A a x.length ∧ y = slice A (a + x.length) y.length := by
  constructor
  · have := congrArg (List.take x.length) h
    rw [List.take_left, slice_take (by omega)] at this
    exact this
  · have := congrArg (List.drop x.length) h
    rw [List.drop_left, slice_drop] at this
    rw [this]
    congr 1
    rw [← this]; omega

/-! ### Origins of the buffer -/

section
variable {env : Env} {R : Obj}

/-- Every byte of the origin is at the place of the byte of the archive. -/
structure Placed (env : Env) (R : Obj) (o : Origin.Origin) (a : Nat) : Prop where
  inv : Inv o
  places : ∀ j, j < o.nBytes → ∃ l, locOf o.items j = some l ∧ LocAt env R (a + j) l

theorem Placed.empty (a : Nat) : Placed env R Origin.empty a := ⟨Origin.inv_empty, by intro j hj; cases hj⟩

theorem count_tot {o : Origin.Origin} (h : Inv o) : o.nBytes = tot o.items := by rw [h.count, tot_bytes]

theorem Placed.item {o : Origin.Origin} {a : Nat} (h : Placed env R o a) {pre r : List Location} {l : Location} (he : o.items = pre ++ l :: r) {j : Nat} (hj : j < l.size) :
    LocAt env R (a + tot pre + j) (byteLoc l j) := by
  have hc := count_tot h.inv
  rw [he, tot_append, tot_cons] at hc
  obtain ⟨q, h1, h2⟩ := h.places (tot pre + j) (by omega)
  rw [he, locOf_append, if_neg (by omega), Nat.add_sub_cancel_left] at h1
  unfold locOf at h1
  rw [if_pos hj] at h1
  injection h1 with h1
  subst h1
  rwa [← Nat.add_assoc] at h2

/-- What is known of the items. -/
theorem Placed.items {o : Origin.Origin} {a : Nat} (hf : Fine env R) (hq : Goodbye.Sorts env.qsort) (h : Placed env R o a) {pre r : List Location} {l : Location} (he : o.items = pre ++ l :: r) :
    Std env (a + tot pre) (byteLoc l 0) ∧ l.archiveOffset + l.size < u64max ∧ Known l := by
  have hk := h.inv.known l (by rw [he]; simp)
  have hp := hk.1
  obtain ⟨g1, _⟩ := (h.item he (j := 0) (by omega)).std hf hq
  obtain ⟨g2, g3⟩ := (h.item he (j := l.size - 1) (by omega)).std hf hq
  have hA := hf.size
  have h1 := g2.off
  have h2 : (byteLoc l (l.size - 1)).archiveOffset = l.archiveOffset + (l.size - 1) := rfl
  exact ⟨g1, by omega, hk⟩

theorem Placed.plain {o : Origin.Origin} {a : Nat} (hf : Fine env R) (hq : Goodbye.Sorts env.qsort) (h : Placed env R o a) : ∀ l ∈ o.items, Plain env.featureFlags l := by
  intro l hl
  obtain ⟨pre, r, he⟩ := List.append_of_mem hl
  obtain ⟨g, _, _⟩ := h.items hf hq he
  exact ⟨g.designator, g.flags⟩

theorem Placed.advance {o : Origin.Origin} {a n : Nat} (hf : Fine env R) (hq : Goodbye.Sorts env.qsort) (h : Placed env R o a) (hn : n ≤ o.nBytes) :
    ∃ o', Origin.advanceBytes o n = .ok o' ∧ Placed env R o' (a + n) ∧ o'.nBytes = o.nBytes - n ∧ ∀ l ∈ o'.items.getLast?, ∃ l0 ∈ o.items.getLast?, l.nameTable = l0.nameTable := by
  obtain ⟨o', h1, h2, h3, h4, h5, _⟩ := advance_view id o n h.inv hn (by
    intro l hl m l' hm ha j
    obtain ⟨pre, r, he⟩ := List.append_of_mem hl
    obtain ⟨g1, g2, g3⟩ := h.items hf hq he
    have := advance_exact g3 g1.designator hm g2 ha
    have := congrArg (fun x => byteLoc x j) this
    simp only [byteLoc_byteLoc, Nat.zero_add] at this
    exact this) (fun l hl => (h.plain hf hq l hl).1)
  refine ⟨o', h1, ⟨h2, ?_⟩, h3, h5⟩
  intro j hj
  have := h4 j
  simp only [Option.map_id_fun, id_eq] at this
  obtain ⟨l, q1, q2⟩ := h.places (n + j) (by omega)
  exact ⟨l, by rw [this, q1], by rw [Nat.add_assoc]; exact q2⟩

theorem Placed.put {o : Origin.Origin} {a n : Nat} {l : Location} (hf : Fine env R) (hq : Goodbye.Sorts env.qsort) (h : Placed env R o a) (hn : 0 < n)
    (hl : ∀ j, j < n → LocAt env R (a + o.nBytes + j) (byteLoc l j)) (ht : ∀ last ∈ o.items.getLast?, l.offset = 0 ∨ last.nameTable = l.nameTable) :
    ∃ o', Origin.put o (Location.patchSize l n) = .ok o' ∧ Placed env R o' a ∧ o'.nBytes = o.nBytes + n ∧ ∀ q ∈ o'.items.getLast?, q.nameTable = l.nameTable := by
  have hu : u64max = 2 ^ 64 - 1 := by decide
  have hA := hf.size
  obtain ⟨s1, s2⟩ := (hl 0 hn).std hf hq
  obtain ⟨s3, s4⟩ := (hl (n - 1) (by omega)).std hf hq
  have hle : l.offset + (n - 1) ≤ a + o.nBytes + (n - 1) := s3.le
  have hk : Known (Location.patchSize l n) := ⟨by show n ≠ 0; omega, by show n < u64max; omega, fun _ => by show l.offset + n < 2 ^ 64; omega⟩
  have hmv : ∀ last ∈ o.items.getLast?, ∀ c, Location.merge last (Location.patchSize l n) = .ok (some c) → last.nameTable = l.nameTable := by
    intro last hlast c hm
    rcases ht last hlast with h0 | h0
    · obtain ⟨pre, hp⟩ := List.getLast?_eq_some_iff.1 hlast
      obtain ⟨g1, g2, g3⟩ := h.items hf hq hp
      have hk := merge_key g3 g1.designator (by rw [show last.featureFlags = env.featureFlags from g1.flags]; exact s1.flags.symm) hm 0
      have : (byteLoc last (last.size + 0)).offset = (byteLoc (Location.patchSize l n) 0).offset := congrArg (fun k => k.2.2.1) hk
      have e1 : (byteLoc last (last.size + 0)).offset = last.offset + (last.size + 0) := rfl
      have e2 : (byteLoc (Location.patchSize l n) 0).offset = l.offset + 0 := rfl
      have := g3.1
      omega
    · exact h0
  obtain ⟨o', h1, h2, h3, h4, h5⟩ := put_view id o (Location.patchSize l n) h.inv hk (by show o.nBytes + n < u64max; omega) (by
    intro last hlast c hm j
    obtain ⟨pre, hp⟩ := List.getLast?_eq_some_iff.1 hlast
    obtain ⟨g1, g2, g3⟩ := h.items hf hq hp
    have hk := merge_key g3 g1.designator (by rw [show last.featureFlags = env.featureFlags from g1.flags]; exact s1.flags.symm) hm j
    have htab := hmv last hlast c hm
    have hcnt := count_tot h.inv
    rw [hp, tot_append, tot_cons] at hcnt
    have hnil : tot [] = 0 := rfl
    have e1 : last.archiveOffset = a + tot pre := g1.off
    have e2 : l.archiveOffset = a + o.nBytes := s1.off
    have hpath : last.path = l.path := congrArg (fun k => k.1) hk
    have hdes : last.designator = l.designator := congrArg (fun k => k.2.1) hk
    have hoff : last.offset + (last.size + j) = l.offset + j := congrArg (fun k => k.2.2.1) hk
    have m1 : last.mtime = (env.stamp last.path).1 := g1.mtime
    have m2 : last.inode = (env.stamp last.path).2.1 := g1.inode
    have m3 : last.generation = (env.stamp last.path).2.2 := g1.generation
    have m4 : last.featureFlags = env.featureFlags := g1.flags
    have n1 : l.mtime = (env.stamp l.path).1 := s1.mtime
    have n2 : l.inode = (env.stamp l.path).2.1 := s1.inode
    have n3 : l.generation = (env.stamp l.path).2.2 := s1.generation
    have n4 : l.featureFlags = env.featureFlags := s1.flags
    have r1 : last.root = none := g1.root
    have r2 : l.root = none := s1.root
    show byteLoc last (last.size + j) = byteLoc (Location.patchSize l n) j
    have f1 : last.mtime = l.mtime := by rw [m1, n1, hpath]
    have f2 : last.inode = l.inode := by rw [m2, n2, hpath]
    have f3 : last.generation = l.generation := by rw [m3, n3, hpath]
    have f4 : last.featureFlags = l.featureFlags := by rw [m4, n4]
    have f5 : last.root = l.root := by rw [r1, r2]
    have f6 : last.archiveOffset + (last.size + j) = l.archiveOffset + j := by omega
    unfold byteLoc Location.patchSize
    simp only [Location.Location.mk.injEq]
    exact ⟨hpath, hdes, hoff, trivial, f5, f1, f2, f3, htab, f6, f4⟩)
  refine ⟨o', h1, ⟨h2, ?_⟩, h3, ?_⟩
  · intro j hj
    have := h4 j
    simp only [Option.map_id_fun, id_eq] at this
    rw [this]
    have hjn : j < o.nBytes + n := by rw [h3] at hj; exact hj
    by_cases hjo : j < o.nBytes
    · rw [if_pos hjo]
      exact h.places j hjo
    · rw [if_neg hjo]
      refine ⟨byteLoc l (j - o.nBytes), ?_, ?_⟩
      · unfold locOf
        rw [if_pos (by show j - o.nBytes < n; omega)]
        rfl
      · have := hl (j - o.nBytes) (by omega)
        rw [show a + o.nBytes + (j - o.nBytes) = a + j by omega] at this
        exact this
  · intro q hq'
    rcases h5 with ⟨p, c, last, q1, q2, q3, q4⟩ | h5
    · rw [q3] at hq'
      simp at hq'
      subst hq' q4
      exact hmv last (by rw [q1]; simp) _ q2
    · rw [h5] at hq'
      simp at hq'
      subst hq'
      rfl

theorem Placed.covers {o : Origin.Origin} {a : Nat} (h : Placed env R o a) : Covers env R o a := by
  intro j hj
  obtain ⟨l, h1, h2⟩ := h.places j hj
  exact ⟨l, l, h2, h1, (same_key l l).2 rfl⟩

theorem Placed.extract {o : Origin.Origin} {a n : Nat} (hf : Fine env R) (hq : Goodbye.Sorts env.qsort) (h : Placed env R o a) (h0 : 0 < n) (hn : n ≤ o.nBytes) :
    ∃ o', Origin.extractBytes o n = .ok o' ∧ Inv o' ∧ o'.nBytes = n ∧ Covers env R o' a := by
  obtain ⟨o', h1, h2, h3, _, h5⟩ := extract_key env.featureFlags o n h.inv (h.plain hf hq) h0 hn
  refine ⟨o', h1, h2, h3, ?_⟩
  intro j hj
  obtain ⟨l, q1, q2⟩ := h.places j (by omega)
  have := h5 j (by omega)
  rw [q1] at this
  obtain ⟨q, t1, t2⟩ := is_same.2 this
  exact ⟨l, q, q2, t1, t2⟩

end

end Casync.CacheMake
