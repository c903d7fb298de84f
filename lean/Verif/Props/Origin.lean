import Verif.Model.Origin
import Verif.Spec.Origin
/-!
C19: origins track the provenance of every byte.
-/
namespace Casync.Origin
open Casync Location OriginSpec

/-- A location with a known size, not empty, not reaching over the end of the number range (as `ca_location_new()` makes sure). -/
def Known (l : Location) : Prop := l.size ≠ 0 ∧ l.size < u64max ∧ (l.designator ≠ void → l.offset + l.size < 2 ^ 64)

/-- What all origins satisfy: known locations, the byte count is the number of bytes, and that is a 64 bit number less than
`UINT64_MAX`. -/
structure Inv (o : Origin) : Prop where
  known : ∀ l ∈ o.items, Known l
  count : o.nBytes = (allBytes o.items).length
  small : o.nBytes < u64max

theorem length_bytesOf (l : Location) : (bytesOf l).length = l.size := by simp [bytesOf]

theorem allBytes_append (a b : List Location) : allBytes (a ++ b) = allBytes a ++ allBytes b := by simp [allBytes]

theorem allBytes_cons (a : Location) (b : List Location) : allBytes (a :: b) = bytesOf a ++ allBytes b := by simp [allBytes]

theorem allBytes_nil : allBytes [] = [] := rfl

theorem length_allBytes (ls : List Location) : (allBytes ls).length = (ls.map (·.size)).sum := by
  induction ls with
  | nil => rfl
  | cons l ls ih => rw [allBytes_cons, List.length_append, length_bytesOf, ih]; rfl

theorem bytesOf_patchSize (l : Location) (n : Nat) (h : n ≤ l.size) : bytesOf (patchSize l n) = (bytesOf l).take n := by
  simp only [bytesOf, patchSize]
  rw [← List.map_take, List.take_range, Nat.min_eq_left h]
  rfl

theorem merge_cases (a b : Location) (ha : Known a) (hb : Known b) (hsum : a.size + b.size < 2 ^ 64) :
    merge a b = .ok none ∨ ∃ c, merge a b = .ok (some c) ∧ bytesOf c = bytesOf a ++ bytesOf b ∧ c.size = a.size + b.size ∧
      (a.size + b.size < u64max → Known c) := by
  have hmax : u64max = 2 ^ 64 - 1 := by decide
  unfold merge
  have h1 := ha.2.1
  have h2 := hb.2.1
  rw [if_neg (by omega), if_neg (by omega)]
  by_cases hr : a.root ≠ b.root
  · rw [if_pos hr]; exact .inl rfl
  rw [if_neg hr]
  by_cases hp : a.path ≠ b.path
  · rw [if_pos hp]; exact .inl rfl
  rw [if_neg hp]
  by_cases hd : a.designator ≠ b.designator
  · rw [if_pos hd]; exact .inl rfl
  rw [if_neg hd]
  by_cases ho : a.designator ≠ void ∧ (a.offset + a.size) % 2 ^ 64 ≠ b.offset
  · rw [if_pos ho]; exact .inl rfl
  rw [if_neg ho]
  by_cases hm : a.mtime ≠ b.mtime
  · rw [if_pos hm]; exact .inl rfl
  rw [if_neg hm]
  by_cases hi : a.mtime ≠ u64max ∧ (a.inode ≠ b.inode ∨ a.generation.isSome ≠ b.generation.isSome ∨
      (a.generation.isSome ∧ a.generation ≠ b.generation))
  · rw [if_pos hi]; exact .inl rfl
  rw [if_neg hi]
  simp only [ne_eq, Classical.not_not] at hr hp hd hm
  right
  refine ⟨_, rfl, ?_, Nat.mod_eq_of_lt hsum, ?_⟩
  · have hstate : (if a.mtime = u64max then none else some (a.mtime, a.inode, a.generation)) =
        (if b.mtime = u64max then none else some (b.mtime, b.inode, b.generation)) := by
      rw [← hm]
      by_cases hmm : a.mtime = u64max
      · rw [if_pos hmm, if_pos hmm]
      · rw [if_neg hmm, if_neg hmm]
        have h3 := Classical.not_not.1 (fun hn => hi ⟨hmm, .inl hn⟩)
        have h4 : a.generation.isSome = b.generation.isSome := Classical.not_not.1 (fun hn => hi ⟨hmm, .inr (.inl hn)⟩)
        have h5 : a.generation = b.generation := by
          cases hg : a.generation with
          | none =>
            rw [hg] at h4
            cases hgb : b.generation with
            | none => rfl
            | some g => rw [hgb] at h4; cases h4
          | some g =>
            rw [← hg]
            exact Classical.not_not.1 (fun hn => hi ⟨hmm, .inr (.inr ⟨by rw [hg]; rfl, hn⟩)⟩)
        rw [h3, h5]
    apply List.ext_getElem
    · simp only [bytesOf, List.length_map, List.length_range, List.length_append]
      exact Nat.mod_eq_of_lt hsum
    · intro i h3 h4
      simp only [bytesOf, List.length_map, List.length_range, List.length_append] at h3 h4
      simp only [bytesOf, List.getElem_map, List.getElem_range, List.getElem_append, List.length_map, List.length_range]
      by_cases hlt : i < a.size
      · rw [dif_pos hlt]
        rfl
      · rw [dif_neg hlt]
        simp only [byteOf]
        rw [← hd]
        by_cases hv : a.designator = void
        · rw [if_pos hv, if_pos hv]
        · rw [if_neg hv, if_neg hv, hstate, hr, hp]
          have hcont : (a.offset + a.size) % 2 ^ 64 = b.offset := Classical.not_not.1 (fun hn => ho ⟨hv, hn⟩)
          have := ha.2.2 hv
          rw [Nat.mod_eq_of_lt this] at hcont
          rw [← hcont]
          congr 1
          omega
  · intro hs
    refine ⟨?_, ?_, ?_⟩
    · show (a.size + b.size) % 2 ^ 64 ≠ 0
      have := ha.1; omega
    · show (a.size + b.size) % 2 ^ 64 < u64max
      omega
    · intro hv
      have hv' : a.designator ≠ void := hv
      show a.offset + (a.size + b.size) % 2 ^ 64 < 2 ^ 64
      have hcont : (a.offset + a.size) % 2 ^ 64 = b.offset := Classical.not_not.1 (fun hn => ho ⟨hv, hn⟩)
      have h5 := ha.2.2 hv
      have h6 := hb.2.2 (by rw [← hd]; exact hv)
      omega

theorem inv_empty : Inv empty := ⟨by simp [empty], rfl, by decide⟩

theorem size_le_nBytes {o : Origin} (h : Inv o) {l : Location} (hl : l ∈ o.items) : l.size ≤ o.nBytes := by
  rw [h.count, length_allBytes]
  exact List.single_le_sum _ _ (List.mem_map_of_mem hl)
where
  List.single_le_sum (ls : List Nat) (x : Nat) (h : x ∈ ls) : x ≤ ls.sum := by
    induction ls with
    | nil => cases h
    | cons a ls ih =>
      rcases List.mem_cons.1 h with rfl | h
      · simp
      · have := ih h; simp; omega

/-- **C19**: putting a location appends its bytes. -/
theorem C19_put (o : Origin) (l : Location) (h : Inv o) (hl : Known l) (hroom : o.nBytes + l.size < u64max) :
    ∃ o', put o l = .ok o' ∧ Inv o' ∧ allBytes o'.items = allBytes o.items ++ bytesOf l ∧ o'.nBytes = o.nBytes + l.size := by
  have hmax : u64max = 2 ^ 64 - 1 := by decide
  unfold put
  rw [if_neg (Nat.ne_of_lt hl.2.1)]
  have hmod : (o.nBytes + l.size) % 2 ^ 64 = o.nBytes + l.size := Nat.mod_eq_of_lt (by omega)
  cases hlast : o.items.getLast? with
  | none =>
    have hnil : o.items = [] := List.getLast?_eq_none_iff.1 hlast
    have h0 : o.nBytes = 0 := by rw [h.count, hnil]; rfl
    rw [if_neg (by simp [h0])]
    refine ⟨_, rfl, ⟨by simpa using hl, ?_, hl.2.1⟩, ?_, by simp [h0]⟩
    · simp only [allBytes_cons, allBytes_nil, List.append_nil, length_bytesOf]
    · rw [hnil]; simp [allBytes]
  | some last =>
    have hsplit : o.items = o.items.dropLast ++ [last] := by
      obtain ⟨ys, hys⟩ := List.getLast?_eq_some_iff.1 hlast
      rw [hys]; simp
    have hmem : last ∈ o.items := by rw [hsplit]; simp
    have hk := h.known last hmem
    have hle := size_le_nBytes h hmem
    simp only
    rcases merge_cases last l hk hl (by omega) with hm | ⟨c, hm, hb, hs, hc⟩
    · rw [hm]
      refine ⟨_, rfl, ⟨?_, ?_, by rw [hmod]; exact hroom⟩, ?_, hmod⟩
      · intro x hx
        rcases List.mem_append.1 hx with hx | hx
        · exact h.known x hx
        · simp at hx; subst hx; exact hl
      · simp only [hmod, allBytes_append, List.length_append, ← h.count, allBytes_cons, allBytes_nil, List.append_nil, length_bytesOf]
      · simp only [allBytes_append, allBytes_cons, allBytes_nil, List.append_nil]
    · rw [hm]
      have hbytes : allBytes (o.items.dropLast ++ [c]) = allBytes o.items ++ bytesOf l := by
        conv => rhs; rw [hsplit]
        simp only [allBytes_append, allBytes_cons, allBytes_nil, List.append_nil, hb, List.append_assoc]
      refine ⟨_, rfl, ⟨?_, ?_, by rw [hmod]; exact hroom⟩, hbytes, hmod⟩
      · intro x hx
        rcases List.mem_append.1 hx with hx | hx
        · exact h.known x (List.dropLast_subset _ hx)
        · simp at hx; subst hx; exact hc (by omega)
      · simp only [hmod, hbytes, List.length_append, ← h.count, length_bytesOf]

/-- **C19**: putting a location of unknown size is refused. -/
theorem C19_put_unknown (o : Origin) (l : Location) (h : l.size = u64max) : put o l = .err .EINVAL := by simp [put, h]

theorem concatLoop_spec (ls : List Location) : ∀ (o : Origin) (n : Nat), Inv o → (∀ l ∈ ls, Known l) → 0 < n →
    n ≤ (allBytes ls).length → o.nBytes + n < u64max →
    ∃ o', concatLoop o ls n = .ok o' ∧ Inv o' ∧ allBytes o'.items = allBytes o.items ++ (allBytes ls).take n ∧ o'.nBytes = o.nBytes + n := by
  induction ls with
  | nil => intro o n _ _ h0 hn; simp [allBytes] at hn; omega
  | cons l ls ih =>
    intro o n ho hk h0 hn hroom
    have hl := hk l (by simp)
    unfold concatLoop
    rw [if_neg (Nat.ne_of_lt hl.2.1)]
    simp only
    by_cases hgt : l.size > n
    · rw [if_pos hgt]
      have hk' : Known (patchSize l n) := ⟨by show n ≠ 0; omega, by show n < u64max; omega, fun hv => by
        have := hl.2.2 hv; show l.offset + n < 2 ^ 64; omega⟩
      obtain ⟨o', h1, h2, h3, h4⟩ := C19_put o (patchSize l n) ho hk' hroom
      rw [h1]
      simp only
      have : n - (patchSize l n).size = 0 := by show n - n = 0; omega
      rw [if_pos this]
      refine ⟨o', rfl, h2, ?_, h4⟩
      rw [h3, allBytes_cons, List.take_append, bytesOf_patchSize l n (by omega), length_bytesOf]
      have : n - l.size = 0 := by omega
      rw [this]; simp
    · rw [if_neg hgt]
      obtain ⟨o', h1, h2, h3, h4⟩ := C19_put o l ho hl (by omega)
      rw [h1]
      simp only
      rw [allBytes_cons, List.length_append, length_bytesOf] at hn
      have htake : (bytesOf l ++ allBytes ls).take n = bytesOf l ++ (allBytes ls).take (n - l.size) := by
        rw [List.take_append, length_bytesOf, List.take_of_length_le (by rw [length_bytesOf]; omega)]
      by_cases hz : n - l.size = 0
      · rw [if_pos hz]
        refine ⟨o', rfl, h2, ?_, by omega⟩
        rw [h3, allBytes_cons, htake, hz]; simp
      · rw [if_neg hz]
        obtain ⟨o'', h5, h6, h7, h8⟩ := ih o' (n - l.size) h2 (fun x hx => hk x (by simp [hx])) (by omega) (by omega) (by omega)
        refine ⟨o'', h5, h6, ?_, by omega⟩
        rw [h7, h3, allBytes_cons, htake, List.append_assoc]

theorem concatAll_spec (ls : List Location) : ∀ (o : Origin), Inv o → (∀ l ∈ ls, Known l) → o.nBytes + (allBytes ls).length < u64max →
    ∃ o', concatAll o ls = .ok o' ∧ Inv o' ∧ allBytes o'.items = allBytes o.items ++ allBytes ls ∧
      o'.nBytes = o.nBytes + (allBytes ls).length := by
  induction ls with
  | nil => intro o ho _ _; exact ⟨o, rfl, ho, by simp [allBytes], by simp [allBytes]⟩
  | cons l ls ih =>
    intro o ho hk hroom
    have hl := hk l (by simp)
    rw [allBytes_cons, List.length_append, length_bytesOf] at hroom
    obtain ⟨o', h1, h2, h3, h4⟩ := C19_put o l ho hl (by omega)
    obtain ⟨o'', h5, h6, h7, h8⟩ := ih o' h2 (fun x hx => hk x (by simp [hx])) (by omega)
    refine ⟨o'', ?_, h6, ?_, ?_⟩
    · unfold concatAll
      rw [if_neg (Nat.ne_of_lt hl.2.1), h1]
      exact h5
    · rw [h7, h3, allBytes_cons, List.append_assoc]
    · rw [h8, h4, allBytes_cons, List.length_append, length_bytesOf]; omega

/-- **C19**: concatenating the first `n` bytes of an origin, possibly of the origin itself, appends these bytes; asking for more than there
are is refused; `UINT64_MAX` stands for all of them. -/
theorem C19_concat (o other : Origin) (n : Nat) (ho : Inv o) (hother : Inv other) :
    (n ≤ other.nBytes → o.nBytes + n < u64max →
      ∃ o', concat o other n = .ok o' ∧ Inv o' ∧ allBytes o'.items = allBytes o.items ++ (allBytes other.items).take n ∧
        o'.nBytes = o.nBytes + n) ∧
    (n > other.nBytes → n ≠ u64max → concat o other n = .err .ESPIPE) ∧
    (o.nBytes + other.nBytes < u64max →
      ∃ o', concat o other u64max = .ok o' ∧ Inv o' ∧ allBytes o'.items = allBytes o.items ++ allBytes other.items ∧
        o'.nBytes = o.nBytes + other.nBytes) := by
  refine ⟨?_, ?_, ?_⟩
  · intro hn hroom
    unfold concat
    by_cases h0 : n = 0
    · rw [if_pos h0]; subst h0; exact ⟨o, rfl, ho, by simp, by simp⟩
    · have hne : n ≠ u64max := by omega
      rw [if_neg h0, if_neg (by omega), if_neg (fun hh => hne hh.1), if_neg hne]
      exact concatLoop_spec _ o n ho hother.known (by omega) (by rw [← hother.count]; exact hn) hroom
  · intro hn hne
    unfold concat
    rw [if_neg (by omega), if_pos ⟨hne, hn⟩]
  · intro hroom
    unfold concat
    rw [if_neg (by decide), if_neg (fun hh => hh.1 rfl)]
    by_cases hnil : other.items = []
    · rw [if_pos ⟨rfl, hnil⟩]
      have : other.nBytes = 0 := by rw [hother.count, hnil]; rfl
      exact ⟨o, rfl, ho, by rw [hnil]; simp [allBytes], by omega⟩
    · rw [if_neg (fun hh => hnil hh.2), if_pos rfl]
      have := concatAll_spec other.items o ho hother.known (by rw [← hother.count]; exact hroom)
      rw [← hother.count] at this
      exact this

/-- **C19**: extracting `n` bytes yields the first `n` bytes. -/
theorem C19_extract (o : Origin) (n : Nat) (ho : Inv o) :
    (n ≤ o.nBytes → ∃ o', extractBytes o n = .ok o' ∧ Inv o' ∧ allBytes o'.items = (allBytes o.items).take n ∧ o'.nBytes = n) ∧
    (n > o.nBytes → n ≠ u64max → extractBytes o n = .err .ESPIPE) := by
  constructor
  · intro hn
    unfold extractBytes
    by_cases h0 : n = 0
    · rw [if_pos h0]; subst h0; exact ⟨empty, rfl, inv_empty, by simp [empty, allBytes], rfl⟩
    · rw [if_neg h0]
      have := ho.small
      have hz : empty.nBytes = 0 := rfl
      obtain ⟨o', h1, h2, h3, h4⟩ := (C19_concat empty o n inv_empty ho).1 hn (by omega)
      exact ⟨o', h1, h2, by rw [h3]; simp [empty, allBytes], by omega⟩
  · intro hn hne
    unfold extractBytes
    rw [if_neg (by omega)]
    exact (C19_concat empty o n inv_empty ho).2.1 hn hne

theorem findItem_spec (ls : List Location) : ∀ (i n : Nat), (∀ l ∈ ls, Known l) → n < (allBytes ls).length →
    ∃ k m, findItem ls i n = .ok (i + k, m) ∧ k < ls.length ∧ n = (allBytes (ls.take k)).length + m ∧
      ∃ l r, ls.drop k = l :: r ∧ m < l.size := by
  induction ls with
  | nil => intro i n _ hn; simp [allBytes] at hn
  | cons l ls ih =>
    intro i n hk hn
    have hl := hk l (by simp)
    unfold findItem
    rw [if_neg (Nat.ne_of_lt hl.2.1)]
    by_cases hgt : l.size > n
    · rw [if_pos hgt]
      exact ⟨0, n, rfl, by simp, by simp [allBytes], l, ls, rfl, hgt⟩
    · rw [if_neg hgt]
      rw [allBytes_cons, List.length_append, length_bytesOf] at hn
      obtain ⟨k, m, h1, h2, h3, h4⟩ := ih (i + 1) (n - l.size) (fun x hx => hk x (by simp [hx])) (by omega)
      refine ⟨k + 1, m, by rw [h1]; congr 2; omega, by simp; omega, ?_, by simpa using h4⟩
      simp only [List.take_succ_cons, allBytes_cons, List.length_append, length_bytesOf]
      omega

/-- **C19**: dropping whole locations. -/
theorem C19_advance_items (o : Origin) (n : Nat) (ho : Inv o) :
    (n ≤ o.items.length → ∃ o', advanceItems o n = .ok o' ∧ Inv o' ∧ o'.items = o.items.drop n ∧
      o'.nBytes + (allBytes (o.items.take n)).length = o.nBytes) ∧
    (n > o.items.length → advanceItems o n = .err .ESPIPE) := by
  have hmax : u64max = 2 ^ 64 - 1 := by decide
  constructor
  · intro hn
    unfold advanceItems
    by_cases h0 : n = 0
    · rw [if_pos h0]; subst h0; exact ⟨o, rfl, ho, by simp, by simp [allBytes]⟩
    rw [if_neg h0, if_neg (by omega)]
    have hc := ho.count
    have hsplit : allBytes o.items = allBytes (o.items.take n) ++ allBytes (o.items.drop n) := by
      rw [← allBytes_append, List.take_append_drop]
    by_cases heq : n = o.items.length
    · rw [if_pos heq]
      refine ⟨empty, rfl, inv_empty, by rw [heq]; simp [empty], ?_⟩
      rw [hc, heq, List.take_length]
      show 0 + _ = _
      omega
    rw [if_neg heq]
    simp only
    have hsum : ((o.items.take n).map (·.size)).sum = (allBytes (o.items.take n)).length := (length_allBytes _).symm
    have hpos : 0 < (allBytes (o.items.drop n)).length := by
      cases hd : o.items.drop n with
      | nil => have := List.drop_eq_nil_iff.1 hd; omega
      | cons l r =>
        have hm : l ∈ o.items := List.drop_subset n _ (by rw [hd]; simp)
        have := (ho.known l hm).1
        rw [allBytes_cons, List.length_append, length_bytesOf]; omega
    have hlen : o.nBytes = (allBytes (o.items.take n)).length + (allBytes (o.items.drop n)).length := by
      rw [hc, hsplit, List.length_append]
    have hsm := ho.small
    have hany : ((o.items.drop 1).take (n - 1)).any (·.size == u64max) = false := by
      rw [List.any_eq_false]
      intro l hl
      have hm : l ∈ o.items := List.drop_subset 1 _ (List.take_subset _ _ hl)
      have := (ho.known l hm).2.1
      simp; omega
    rw [hany, hsum, Nat.mod_eq_of_lt (by omega)]
    simp only [Bool.false_eq_true, if_false]
    rw [if_neg (by omega)]
    refine ⟨_, rfl, ⟨fun l hl => ho.known l (List.drop_subset n _ hl), ?_, ?_⟩, rfl, ?_⟩
    · simp only; omega
    · simp only; omega
    · simp only; omega
  · intro hn
    unfold advanceItems
    rw [if_neg (by omega), if_pos hn]

theorem advance_spec (l : Location) (n : Nat) (hl : Known l) (hn : n < l.size) :
    ∃ l', advance l n = .ok l' ∧ Known l' ∧ bytesOf l' = (bytesOf l).drop n := by
  have hmax : u64max = 2 ^ 64 - 1 := by decide
  have h1 := hl.2.1
  unfold advance
  by_cases h0 : n = 0
  · rw [if_pos h0]; subst h0; exact ⟨l, rfl, hl, by simp⟩
  rw [if_neg h0, if_neg (fun hh => absurd hh.2 (by omega))]
  have hk : l.size ≠ u64max := by omega
  refine ⟨_, rfl, ⟨?_, ?_, ?_⟩, ?_⟩
  · show (if l.size ≠ u64max then l.size - n else l.size) ≠ 0
    rw [if_pos hk]; omega
  · show (if l.size ≠ u64max then l.size - n else l.size) < u64max
    rw [if_pos hk]; omega
  · intro hv
    have hv' : l.designator ≠ void := hv
    show (if l.designator ≠ void then (l.offset + n) % 2 ^ 64 else l.offset) + (if l.size ≠ u64max then l.size - n else l.size) < 2 ^ 64
    rw [if_pos hk, if_pos hv']
    have := hl.2.2 hv'
    omega
  · apply List.ext_getElem
    · simp only [bytesOf, List.length_map, List.length_range, List.length_drop]
      rw [if_pos hk]
    · intro i h3 h4
      simp only [bytesOf, List.length_map, List.length_range, List.length_drop] at h3 h4
      simp only [bytesOf, List.getElem_map, List.getElem_range, List.getElem_drop, byteOf]
      by_cases hv : l.designator = void
      · rw [if_pos hv, if_pos hv]
      · rw [if_neg hv, if_neg hv, if_pos hv]
        have := hl.2.2 hv
        congr 1
        rw [Nat.mod_eq_of_lt (by omega)]
        omega

/-- **C19**: advancing by `n` bytes drops the first `n` bytes; asking for more than there are is refused. -/
theorem C19_advance_bytes (o : Origin) (n : Nat) (ho : Inv o) :
    (n ≤ o.nBytes → ∃ o', advanceBytes o n = .ok o' ∧ Inv o' ∧ allBytes o'.items = (allBytes o.items).drop n ∧ o'.nBytes = o.nBytes - n) ∧
    (n > o.nBytes → advanceBytes o n = .err .ESPIPE) := by
  constructor
  · intro hn
    unfold advanceBytes
    by_cases h0 : n = 0
    · rw [if_pos h0]; subst h0; exact ⟨o, rfl, ho, by simp, by simp⟩
    rw [if_neg h0, if_neg (by omega)]
    by_cases heq : n = o.nBytes
    · rw [if_pos heq]
      refine ⟨empty, rfl, inv_empty, ?_, ?_⟩
      · rw [heq, ho.count]; simp [empty, allBytes]
      · show 0 = _; omega
    rw [if_neg heq]
    obtain ⟨k, m, h1, h2, h3, l, r, h4, h5⟩ := findItem_spec o.items 0 n ho.known (by rw [← ho.count]; omega)
    rw [h1]
    simp only [Nat.zero_add]
    obtain ⟨o1, h6, h7, h8, h9⟩ := (C19_advance_items o k ho).1 (by omega)
    rw [h6]
    simp only
    have hk := h7.known
    rw [h8, h4] at hk
    have hl := hk l (by simp)
    have hcnt := h7.count
    rw [h8, h4, allBytes_cons, List.length_append, length_bytesOf] at hcnt
    rw [if_neg (by omega), h8, h4]
    simp only
    rw [if_neg (by omega)]
    obtain ⟨l', h10, h11, h12⟩ := advance_spec l m hl h5
    rw [h10]
    simp only
    have hlen' : (bytesOf l').length = l.size - m := by rw [h12, List.length_drop, length_bytesOf]
    have hsm := h7.small
    refine ⟨_, rfl, ⟨?_, ?_, ?_⟩, ?_, ?_⟩
    · intro x hx
      rcases List.mem_cons.1 hx with rfl | hx
      · exact h11
      · exact hk x (by simp [hx])
    · simp only [allBytes_cons, List.length_append, hlen']; omega
    · simp only; omega
    · have hsplit : allBytes o.items = allBytes (o.items.take k) ++ (bytesOf l ++ allBytes r) := by
        rw [← allBytes_cons, ← h4, ← allBytes_append, List.take_append_drop]
      rw [hsplit, allBytes_cons, h12, h3, List.drop_append]
      have : (allBytes (o.items.take k)).length + m - (allBytes (o.items.take k)).length = m := by omega
      rw [this, List.drop_append, length_bytesOf, List.drop_of_length_le (l := allBytes (o.items.take k)) (by omega)]
      have : m - l.size = 0 := by omega
      rw [this]; simp
    · simp only; omega
  · intro hn
    unfold advanceBytes
    rw [if_neg (by omega), if_pos hn]

theorem newVoid_spec (n : Nat) (h0 : n ≠ 0) (hn : n < u64max) :
    ∃ v, newVoid n = .ok v ∧ Known v ∧ v.size = n ∧ bytesOf v = List.replicate n .nowhere := by
  have hmax : u64max = 2 ^ 64 - 1 := by decide
  have e : newVoid n = .ok { path := [], designator := void, offset := 0, size := n } := by
    unfold newVoid new
    have h1 : (!designatorValid void) = false := by decide
    rw [h1]
    simp only [Bool.false_eq_true, if_false]
    rw [if_neg (by simp), if_neg (by decide), if_neg h0, if_neg (by simp), if_neg (by omega)]
    rfl
  refine ⟨_, e, ⟨h0, hn, fun hv => absurd rfl hv⟩, rfl, ?_⟩
  apply List.ext_getElem
  · simp [bytesOf]
  · intro i h3 h4
    simp [bytesOf, byteOf]

/-- **C19**: putting `n` bytes without a location appends `n` bytes from nowhere. -/
theorem C19_put_void (o : Origin) (n : Nat) (ho : Inv o) (hroom : o.nBytes + n < u64max) :
    ∃ o', putVoid o n = .ok o' ∧ Inv o' ∧ allBytes o'.items = allBytes o.items ++ List.replicate n .nowhere ∧ o'.nBytes = o.nBytes + n := by
  have hmax : u64max = 2 ^ 64 - 1 := by decide
  unfold putVoid
  by_cases h0 : n = 0
  · rw [if_pos h0]; subst h0; exact ⟨o, rfl, ho, by simp, by simp⟩
  rw [if_neg h0]
  obtain ⟨v, hv, hvk, hvs, hvb⟩ := newVoid_spec n h0 (by omega)
  have viaPut : ∃ o', put o v = .ok o' ∧ Inv o' ∧ allBytes o'.items = allBytes o.items ++ List.replicate n .nowhere ∧
      o'.nBytes = o.nBytes + n := by
    have := C19_put o v ho hvk (by omega)
    rw [hvb, hvs] at this
    exact this
  cases hlast : o.items.getLast? with
  | none => simp only [hv]; exact viaPut
  | some last =>
    simp only
    by_cases hd : last.designator = void
    · rw [if_pos hd]
      have hsplit : o.items = o.items.dropLast ++ [last] := by
        obtain ⟨ys, hys⟩ := List.getLast?_eq_some_iff.1 hlast
        rw [hys]; simp
      have hmem : last ∈ o.items := by rw [hsplit]; simp
      have hk := ho.known last hmem
      have hle := size_le_nBytes ho hmem
      have hm1 : (last.size + n) % 2 ^ 64 = last.size + n := Nat.mod_eq_of_lt (by omega)
      have hm2 : (o.nBytes + n) % 2 ^ 64 = o.nBytes + n := Nat.mod_eq_of_lt (by omega)
      rw [hm1, hm2]
      have hb : bytesOf (patchSize last (last.size + n)) = bytesOf last ++ List.replicate n .nowhere := by
        apply List.ext_getElem
        · simp [bytesOf, patchSize]
        · intro i h3 h4
          simp only [bytesOf, List.getElem_map, List.getElem_range, List.getElem_append, List.getElem_replicate, List.length_map,
            List.length_range, byteOf, patchSize, hd, if_true]
          split <;> rfl
      have hbytes : allBytes (o.items.dropLast ++ [patchSize last (last.size + n)]) = allBytes o.items ++ List.replicate n .nowhere := by
        conv => rhs; rw [hsplit]
        simp only [allBytes_append, allBytes_cons, allBytes_nil, List.append_nil, hb, List.append_assoc]
      refine ⟨_, rfl, ⟨?_, ?_, hroom⟩, hbytes, rfl⟩
      · intro x hx
        rcases List.mem_append.1 hx with hx | hx
        · exact ho.known x (List.dropLast_subset _ hx)
        · simp at hx; subst hx
          exact ⟨by show last.size + n ≠ 0; omega, by show last.size + n < u64max; omega, fun hv => absurd hd hv⟩
      · simp only [hbytes, List.length_append, ← ho.count, List.length_replicate]
    · rw [if_neg hd]
      simp only [hv]
      exact viaPut

/-! ### Whole histories -/

/-- Operations on one origin. -/
inductive Op
  | put (l : Location)
  | putVoid (n : Nat)
  /-- append the first `n` bytes of another origin -/
  | concat (other : Origin) (n : Nat)
  /-- append the first `n` bytes of this origin -/
  | concatSelf (n : Nat)
  | advanceBytes (n : Nat)
  | flush

/-- Doing one operation; a refused operation changes nothing, `none` is an assertion failure. -/
def step (o : Origin) : Op → Option Origin
  | .put l => keep o (put o l)
  | .putVoid n => keep o (Origin.putVoid o n)
  | .concat other n => keep o (Origin.concat o other n)
  | .concatSelf n => keep o (Origin.concat o o n)
  | .advanceBytes n => keep o (Origin.advanceBytes o n)
  | .flush => some empty
where
  keep (o : Origin) : Res Origin → Option Origin
    | .ok o' => some o'
    | .err _ => some o
    | .ub => none

/-- What the operations mean for a list of provenances. -/
def specStep (b : List Prov) : Op → List Prov
  | .put l => b ++ bytesOf l
  | .putVoid n => b ++ List.replicate n .nowhere
  | .concat other n => if n ≤ (allBytes other.items).length then b ++ (allBytes other.items).take n else b
  | .concatSelf n => if n ≤ b.length then b ++ b.take n else b
  | .advanceBytes n => if n ≤ b.length then b.drop n else b
  | .flush => []

/-- The arguments an operation may have in state `b`: known locations, consistent origins, and no more than `UINT64_MAX - 1` bytes. -/
def Allowed (b : List Prov) : Op → Prop
  | .put l => Known l ∧ b.length + l.size < u64max
  | .putVoid n => b.length + n < u64max
  | .concat other n => Inv other ∧ n ≠ u64max ∧ b.length + n < u64max
  | .concatSelf n => b.length + n < u64max
  | .advanceBytes _ => True
  | .flush => True

/-- All operations are allowed when they are reached. -/
def AllAllowed : List Prov → List Op → Prop
  | _, [] => True
  | b, op :: ops => Allowed b op ∧ AllAllowed (specStep b op) ops

/-- Running a list of operations. -/
def run (o : Origin) : List Op → Option Origin
  | [] => some o
  | op :: ops => match step o op with
    | some o' => run o' ops
    | none => none

theorem step_spec (o : Origin) (ho : Inv o) (op : Op) (ha : Allowed (allBytes o.items) op) :
    ∃ o', step o op = some o' ∧ Inv o' ∧ allBytes o'.items = specStep (allBytes o.items) op := by
  have hc := ho.count
  cases op with
  | put l =>
    obtain ⟨o', h1, h2, h3, _⟩ := C19_put o l ho ha.1 (by rw [hc]; exact ha.2)
    exact ⟨o', by simp [step, step.keep, h1], h2, h3⟩
  | putVoid n =>
    obtain ⟨o', h1, h2, h3, _⟩ := C19_put_void o n ho (by rw [hc]; exact ha)
    exact ⟨o', by simp [step, step.keep, h1], h2, h3⟩
  | concat other n =>
    have hs := C19_concat o other n ho ha.1
    by_cases hn : n ≤ other.nBytes
    · obtain ⟨o', h1, h2, h3, _⟩ := hs.1 hn (by rw [hc]; exact ha.2.2)
      refine ⟨o', by simp [step, step.keep, h1], h2, ?_⟩
      simp only [specStep]
      rw [if_pos (by rw [← ha.1.count]; exact hn)]
      exact h3
    · refine ⟨o, by simp [step, step.keep, hs.2.1 (by omega) ha.2.1], ho, ?_⟩
      simp only [specStep]
      rw [if_neg (by rw [← ha.1.count]; exact hn)]
  | concatSelf n =>
    have hs := C19_concat o o n ho ho
    have ha' : (allBytes o.items).length + n < u64max := ha
    by_cases hn : n ≤ o.nBytes
    · obtain ⟨o', h1, h2, h3, _⟩ := hs.1 hn (by rw [hc]; exact ha)
      refine ⟨o', by simp [step, step.keep, h1], h2, ?_⟩
      simp only [specStep]
      rw [if_pos (by rw [← hc]; exact hn)]
      exact h3
    · refine ⟨o, by simp [step, step.keep, hs.2.1 (by omega) (by omega)], ho, ?_⟩
      simp only [specStep]
      rw [if_neg (by rw [← hc]; exact hn)]
  | advanceBytes n =>
    have hs := C19_advance_bytes o n ho
    by_cases hn : n ≤ o.nBytes
    · obtain ⟨o', h1, h2, h3, _⟩ := hs.1 hn
      refine ⟨o', by simp [step, step.keep, h1], h2, ?_⟩
      simp only [specStep]
      rw [if_pos (by rw [← hc]; exact hn)]
      exact h3
    · refine ⟨o, by simp [step, step.keep, hs.2 (by omega)], ho, ?_⟩
      simp only [specStep]
      rw [if_neg (by rw [← hc]; exact hn)]
  | flush => exact ⟨empty, rfl, inv_empty, rfl⟩

/-- **C19**: after every sequence of operations on a new origin, no assertion has failed, the locations describe exactly the bytes the
sequence means, in order, and the reported byte count is their number. -/
theorem C19_history (ops : List Op) (h : AllAllowed [] ops) :
    ∃ o, run empty ops = some o ∧ allBytes o.items = ops.foldl specStep [] ∧ o.nBytes = (ops.foldl specStep []).length := by
  have gen : ∀ (ops : List Op) (o : Origin), Inv o → AllAllowed (allBytes o.items) ops →
      ∃ o', run o ops = some o' ∧ Inv o' ∧ allBytes o'.items = ops.foldl specStep (allBytes o.items) := by
    intro ops
    induction ops with
    | nil => intro o ho _; exact ⟨o, rfl, ho, rfl⟩
    | cons op ops ih =>
      intro o ho ha
      obtain ⟨o1, h1, h2, h3⟩ := step_spec o ho op ha.1
      obtain ⟨o2, h4, h5, h6⟩ := ih o1 h2 (by rw [h3]; exact ha.2)
      refine ⟨o2, ?_, h5, ?_⟩
      · simp only [run, h1, h4]
      · rw [h6, h3]; rfl
  obtain ⟨o, h1, h2, h3⟩ := gen ops empty inv_empty h
  exact ⟨o, h1, h3, by rw [h2.count, h3]; rfl⟩

/-- Two contiguous pieces of a file, a hole, then dropping the first 60 bytes: 90 bytes are left, in two locations. -/
example : AllAllowed [] [.put { path := [97], designator := 112, offset := 0, size := 50 },
      .put { path := [97], designator := 112, offset := 50, size := 70 }, .putVoid 30, .advanceBytes 60] ∧
    run empty [.put { path := [97], designator := 112, offset := 0, size := 50 },
      .put { path := [97], designator := 112, offset := 50, size := 70 }, .putVoid 30, .advanceBytes 60] =
    some ⟨[{ path := [97], designator := 112, offset := 60, size := 60 }, { designator := void, offset := 0, size := 30 }], 90⟩ := by
  constructor
  · simp [AllAllowed, Allowed, specStep, Known, length_bytesOf]
    decide
  · decide

end Casync.Origin
