import Verif.Model.Location
import Verif.Props.NameTable
/-!
C18: locations survive formatting and parsing.
-/
namespace Casync.Location
open Casync Number

/-- What `ca_location_new()` and the code filling in the remaining fields guarantee: a known designator, a relative path, a known offset, a
size that is unknown or not zero, no overflow at the end, no path and no offset for the void designator, and all numbers within their
C types. -/
structure WellFormed (l : Location) : Prop where
  designator : designatorValid l.designator = true
  path : l.path.head? ≠ some 47
  offset : l.offset < u64max
  size : l.size ≠ 0 ∧ l.size ≤ u64max
  fits : l.size ≠ u64max → l.offset + l.size < 2 ^ 64
  void : l.designator = void → l.path = [] ∧ l.offset = 0
  mtime : l.mtime ≤ u64max
  inode : l.inode ≤ u64max
  generation : ∀ g, l.generation = some g → g < 2 ^ 32
  featureFlags : l.featureFlags ≤ u64max
  archiveOffset : l.archiveOffset ≤ u64max
  nameTable : NameTable.InRange l.nameTable

theorem splitLast_append (c : UInt8) (a r : Bytes) (h : ∀ b ∈ r, b ≠ c) : splitLast c (a ++ c :: r) = some (a, r) := by
  have h0 : splitLast c r = none := by
    induction r with
    | nil => rfl
    | cons b r ih =>
      unfold splitLast
      rw [ih (fun x hx => h x (by simp [hx]))]
      simp [h b (by simp)]
  induction a with
  | nil => simp [splitLast, h0]
  | cons b a ih => simp [splitLast, ih]

theorem cut_none (c : UInt8) (s : Bytes) (h : ∀ b ∈ s, b ≠ c) : cut c s = (s, none) := by
  have := takeWhile_all (p := fun b => decide (b ≠ c)) (l := s) (fun b hb => by simpa using h b hb) [] (by simp)
  rw [List.append_nil] at this
  unfold cut
  rw [this.2]

theorem cut_some (c : UInt8) (s r : Bytes) (h : ∀ b ∈ s, b ≠ c) : cut c (s ++ c :: r) = (s, some r) := by
  have := takeWhile_all (p := fun b => decide (b ≠ c)) (l := s) (fun b hb => by simpa using h b hb) (c :: r) (by simp)
  unfold cut
  rw [this.2, this.1]

/-- `+ # $ % . : @` -/
def Sep (c : UInt8) : Prop := c = 43 ∨ c = 35 ∨ c = 36 ∨ c = 37 ∨ c = 46 ∨ c = 58 ∨ c = 64

theorem hexdigit_ne_sep {b c : UInt8} (h : isDigit 16 b = true) (hc : Sep c) : b ≠ c := by
  rintro rfl
  rcases hc with rfl | rfl | rfl | rfl | rfl | rfl | rfl <;> revert h <;> decide

theorem isDigit10_16 {b : UInt8} (h : isDigit 10 b = true) : isDigit 16 b = true := by
  unfold isDigit at h ⊢
  split at h
  · simp at h ⊢; omega
  · cases h

theorem dec_ne_sep (n : Nat) {c : UInt8} (hc : Sep c) : ∀ b ∈ dec n, b ≠ c :=
  fun b hb => hexdigit_ne_sep (isDigit10_16 (fmt_digits (base := 10) (by omega) (by omega) n b hb)) hc

theorem hex_ne_sep (n : Nat) {c : UInt8} (hc : Sep c) : ∀ b ∈ hex n, b ≠ c :=
  fun b hb => hexdigit_ne_sep (fmt_digits (base := 16) (by omega) (by omega) n b hb) hc

theorem nameTable_ne_sep (t : NameTable.Chain) {c : UInt8} (hc : Sep c) : ∀ b ∈ NameTable.format t, b ≠ c := by
  intro b hb
  rcases NameTable.C36_charset t b hb with h | h | h | h | h
  · exact hexdigit_ne_sep h hc
  all_goals (subst h; rintro rfl; rcases hc with hc | hc | hc | hc | hc | hc | hc <;> revert hc <;> decide)

theorem fmtSize_ne (l : Location) (w : With) {c : UInt8} (hc : Sep c) (h : c ≠ 58) : ∀ b ∈ fmtSize l w, b ≠ c := by
  unfold fmtSize
  split
  · intro b hb
    rcases List.mem_cons.1 hb with rfl | hb
    · exact h.symm
    · exact dec_ne_sep _ hc b hb
  · intro b hb; cases hb

theorem fmtMtime_ne (l : Location) (w : With) {c : UInt8} (hc : Sep c) (h : c ≠ 64) (h2 : c ≠ 46) : ∀ b ∈ fmtMtime l w, b ≠ c := by
  unfold fmtMtime
  split
  · intro b hb
    simp only [List.cons_append, List.mem_cons, List.mem_append] at hb
    rcases hb with rfl | hb | rfl | hb | hb
    · exact h.symm
    · exact dec_ne_sep _ hc b hb
    · exact h2.symm
    · exact dec_ne_sep _ hc b hb
    · split at hb
      · rcases List.mem_cons.1 hb with rfl | hb
        · exact h2.symm
        · exact dec_ne_sep _ hc b hb
      · cases hb
  · intro b hb; cases hb

theorem fmtFlags_ne (l : Location) (w : With) {c : UInt8} (hc : Sep c) (h : c ≠ 37) : ∀ b ∈ fmtFlags l w, b ≠ c := by
  unfold fmtFlags
  split
  · intro b hb
    rcases List.mem_cons.1 hb with rfl | hb
    · exact h.symm
    · exact hex_ne_sep _ hc b hb
  · intro b hb; cases hb

theorem fmtArchiveOffset_ne (l : Location) (w : With) {c : UInt8} (hc : Sep c) (h : c ≠ 35) : ∀ b ∈ fmtArchiveOffset l w, b ≠ c := by
  unfold fmtArchiveOffset
  split
  · intro b hb
    rcases List.mem_cons.1 hb with rfl | hb
    · exact h.symm
    · exact dec_ne_sep _ hc b hb
  · intro b hb; cases hb

theorem fmtNameTable_ne (l : Location) (w : With) {c : UInt8} (hc : Sep c) (h : c ≠ 36) : ∀ b ∈ fmtNameTable l w, b ≠ c := by
  unfold fmtNameTable
  split
  · intro b hb
    rcases List.mem_cons.1 hb with rfl | hb
    · exact h.symm
    · exact nameTable_ne_sep _ hc b hb
  · intro b hb; cases hb

theorem app_ne {a b : Bytes} {c : UInt8} (ha : ∀ x ∈ a, x ≠ c) (hb : ∀ x ∈ b, x ≠ c) : ∀ x ∈ a ++ b, x ≠ c := by
  intro x hx
  rcases List.mem_append.1 hx with h | h
  · exact ha x h
  · exact hb x h

/-- Cutting off one optional suffix. -/
theorem cut_suffix (c : UInt8) (s f : Bytes) (p : Prop) [Decidable p] (hs : ∀ b ∈ s, b ≠ c) :
    cut c (s ++ (if p then c :: f else [])) = (s, if p then some f else none) := by
  by_cases h : p
  · rw [if_pos h, if_pos h, cut_some c s f hs]
  · rw [if_neg h, if_neg h, List.append_nil, cut_none c s hs]

/-- The location that is left when only the parts selected by `w` are kept. -/
def restrict (l : Location) (w : With) : Location where
  path := l.path
  designator := l.designator
  offset := l.offset
  size := if w.size then l.size else u64max
  root := none
  mtime := if w.mtime then l.mtime else u64max
  inode := if w.mtime ∧ l.mtime ≠ u64max then l.inode else 0
  generation := if w.mtime ∧ l.mtime ≠ u64max then l.generation else none
  nameTable := if w.nameTable then l.nameTable else []
  archiveOffset := if w.archiveOffset then l.archiveOffset else u64max
  featureFlags := if w.featureFlags then l.featureFlags else u64max

theorem lt64_of_le {n : Nat} (h : n ≤ u64max) : n < 2 ^ 64 := Nat.lt_of_le_of_lt h (by decide)

theorem parse_format (l : Location) (w : With) (h : WellFormed l) : parse (format l w) = .ok (restrict l w) := by
  have hne : ∀ b ∈ l.designator :: (dec l.offset ++ (fmtSize l w ++ (fmtMtime l w ++ (fmtFlags l w ++
      (fmtArchiveOffset l w ++ fmtNameTable l w))))), b ≠ 43 := by
    have hs : Sep 43 := .inl rfl
    intro b hb
    rcases List.mem_cons.1 hb with rfl | hb
    · have := h.designator
      rintro heq
      rw [heq] at this
      revert this; decide
    · exact app_ne (dec_ne_sep _ hs) (app_ne (fmtSize_ne _ _ hs (by decide)) (app_ne (fmtMtime_ne _ _ hs (by decide) (by decide))
        (app_ne (fmtFlags_ne _ _ hs (by decide)) (app_ne (fmtArchiveOffset_ne _ _ hs (by decide)) (fmtNameTable_ne _ _ hs (by decide))))))
        b hb
  unfold parse
  rw [show splitLast 43 (format l w) = _ from splitLast_append 43 l.path _ hne]
  simp only
  have hp : ¬ (l.path ≠ [] ∧ (format l w).head? = some 47) := by
    rintro ⟨h1, h2⟩
    apply h.path
    unfold format at h2
    cases hl : l.path with
    | nil => exact absurd hl h1
    | cons a t => rw [hl] at h2; simpa using h2
  rw [if_neg hp, h.designator]
  simp only [Bool.not_true, Bool.false_eq_true, if_false]
  -- the name table
  have s36 : Sep 36 := by simp [Sep]
  have e1 : cut 36 (dec l.offset ++ (fmtSize l w ++ (fmtMtime l w ++ (fmtFlags l w ++ (fmtArchiveOffset l w ++ fmtNameTable l w))))) =
      (dec l.offset ++ (fmtSize l w ++ (fmtMtime l w ++ (fmtFlags l w ++ fmtArchiveOffset l w))),
        if w.nameTable ∧ l.nameTable ≠ [] then some (NameTable.format l.nameTable) else none) := by
    have := cut_suffix 36 (dec l.offset ++ (fmtSize l w ++ (fmtMtime l w ++ (fmtFlags l w ++ fmtArchiveOffset l w))))
      (NameTable.format l.nameTable) (w.nameTable ∧ l.nameTable ≠ []) (app_ne (dec_ne_sep _ s36) (app_ne (fmtSize_ne _ _ s36 (by decide))
        (app_ne (fmtMtime_ne _ _ s36 (by decide) (by decide)) (app_ne (fmtFlags_ne _ _ s36 (by decide))
          (fmtArchiveOffset_ne _ _ s36 (by decide))))))
    rw [← this]
    simp only [List.append_assoc, fmtNameTable]
  have e2 : parseNameTable (if w.nameTable ∧ l.nameTable ≠ [] then some (NameTable.format l.nameTable) else none) =
      .ok (if w.nameTable then l.nameTable else []) := by
    by_cases hc : w.nameTable = true ∧ l.nameTable ≠ []
    · rw [if_pos hc, if_pos hc.1]
      obtain ⟨t', ht, rfl, _⟩ := NameTable.C36_roundtrip l.nameTable hc.2 h.nameTable
      exact ht
    · rw [if_neg hc]
      by_cases hw : w.nameTable = true
      · rw [if_pos hw]
        have : l.nameTable = [] := Classical.not_not.1 (fun hn => hc ⟨hw, hn⟩)
        rw [this]; rfl
      · rw [if_neg hw]; rfl
  rw [e1]
  simp only [e2, Res.bind_ok]
  -- the archive offset
  have s35 : Sep 35 := by simp [Sep]
  have e3 : cut 35 (dec l.offset ++ (fmtSize l w ++ (fmtMtime l w ++ (fmtFlags l w ++ fmtArchiveOffset l w)))) =
      (dec l.offset ++ (fmtSize l w ++ (fmtMtime l w ++ fmtFlags l w)),
        if w.archiveOffset ∧ l.archiveOffset ≠ u64max then some (dec l.archiveOffset) else none) := by
    have := cut_suffix 35 (dec l.offset ++ (fmtSize l w ++ (fmtMtime l w ++ fmtFlags l w)))
      (dec l.archiveOffset) (w.archiveOffset ∧ l.archiveOffset ≠ u64max) (app_ne (dec_ne_sep _ s35) (app_ne (fmtSize_ne _ _ s35 (by decide))
        (app_ne (fmtMtime_ne _ _ s35 (by decide) (by decide)) (fmtFlags_ne _ _ s35 (by decide)))))
    rw [← this]
    simp only [List.append_assoc, fmtArchiveOffset]
  have e4 : optNumber atou64 (if w.archiveOffset ∧ l.archiveOffset ≠ u64max then some (dec l.archiveOffset) else none) =
      .ok (if w.archiveOffset then l.archiveOffset else u64max) := by
    by_cases hw : w.archiveOffset = true
    · by_cases hc : l.archiveOffset = u64max
      · rw [if_neg (fun hh => hh.2 hc), if_pos hw, hc]; rfl
      · rw [if_pos ⟨hw, hc⟩, if_pos hw]
        unfold optNumber
        simp only
        rw [atou64_dec (lt64_of_le h.archiveOffset)]
        simp only [hc, if_false]
    · rw [if_neg (fun hh => hw hh.1), if_neg hw]; rfl
  rw [e3]
  simp only [e4, Res.bind_ok]
  -- the feature flags
  have s37 : Sep 37 := by simp [Sep]
  have e5 : cut 37 (dec l.offset ++ (fmtSize l w ++ (fmtMtime l w ++ fmtFlags l w))) =
      (dec l.offset ++ (fmtSize l w ++ fmtMtime l w),
        if w.featureFlags ∧ l.featureFlags ≠ u64max then some (hex l.featureFlags) else none) := by
    have := cut_suffix 37 (dec l.offset ++ (fmtSize l w ++ fmtMtime l w))
      (hex l.featureFlags) (w.featureFlags ∧ l.featureFlags ≠ u64max) (app_ne (dec_ne_sep _ s37) (app_ne (fmtSize_ne _ _ s37 (by decide))
        (fmtMtime_ne _ _ s37 (by decide) (by decide))))
    rw [← this]
    simp only [List.append_assoc, fmtFlags]
  have e6 : optNumber atox64 (if w.featureFlags ∧ l.featureFlags ≠ u64max then some (hex l.featureFlags) else none) =
      .ok (if w.featureFlags then l.featureFlags else u64max) := by
    by_cases hw : w.featureFlags = true
    · by_cases hc : l.featureFlags = u64max
      · rw [if_neg (fun hh => hh.2 hc), if_pos hw, hc]; rfl
      · rw [if_pos ⟨hw, hc⟩, if_pos hw]
        unfold optNumber
        simp only
        rw [atox64_hex (lt64_of_le h.featureFlags)]
        simp only [hc, if_false]
    · rw [if_neg (fun hh => hw hh.1), if_neg hw]; rfl
  rw [e5]
  simp only [e6, Res.bind_ok]
  -- inode, mtime, generation
  have s64 : Sep 64 := by simp [Sep]
  have s46 : Sep 46 := by simp [Sep]
  generalize hgen : (match l.generation with | some g => 46 :: dec g | none => ([] : Bytes)) = gtext
  have e7 : cut 64 (dec l.offset ++ (fmtSize l w ++ fmtMtime l w)) =
      (dec l.offset ++ fmtSize l w,
        if w.mtime ∧ l.mtime ≠ u64max then some (dec l.inode ++ (46 :: dec l.mtime ++ gtext)) else none) := by
    have := cut_suffix 64 (dec l.offset ++ fmtSize l w)
      (dec l.inode ++ (46 :: dec l.mtime ++ gtext)) (w.mtime ∧ l.mtime ≠ u64max) (app_ne (dec_ne_sep _ s64) (fmtSize_ne _ _ s64 (by decide)))
    rw [← this]
    simp only [List.append_assoc, fmtMtime]
    rw [← hgen]
    rfl
  have e8 : parseMtime (if w.mtime ∧ l.mtime ≠ u64max then some (dec l.inode ++ (46 :: dec l.mtime ++ gtext)) else none) =
      .ok ((if w.mtime then l.mtime else u64max), (if w.mtime ∧ l.mtime ≠ u64max then l.inode else 0),
        (if w.mtime ∧ l.mtime ≠ u64max then l.generation else none)) := by
    by_cases hw : w.mtime = true
    · by_cases hc : l.mtime = u64max
      · rw [if_neg (fun hh => hh.2 hc), if_pos hw, if_neg (fun hh => hh.2 hc), if_neg (fun hh => hh.2 hc), hc]; rfl
      · have hwc : w.mtime = true ∧ l.mtime ≠ u64max := ⟨hw, hc⟩
        rw [if_pos hwc, if_pos hw, if_pos hwc, if_pos hwc]
        unfold parseMtime
        simp only [List.cons_append]
        rw [cut_some 46 (dec l.inode) _ (dec_ne_sep _ s46)]
        simp only
        rw [atou64_dec (lt64_of_le h.inode)]
        simp only [Res.bind_ok]
        cases hg : l.generation with
        | none =>
          rw [hg] at hgen
          simp only at hgen
          subst hgen
          rw [List.append_nil, cut_none 46 (dec l.mtime) (dec_ne_sep _ s46)]
          simp only [Res.bind_ok]
          rw [atou64_dec (lt64_of_le h.mtime)]
          simp only [Res.bind_ok, hc, if_false]
        | some g =>
          rw [hg] at hgen
          simp only at hgen
          subst hgen
          rw [cut_some 46 (dec l.mtime) (dec g) (dec_ne_sep _ s46)]
          simp only
          rw [atou_dec (h.generation g hg)]
          simp only [Res.bind_ok]
          rw [atou64_dec (lt64_of_le h.mtime)]
          simp only [Res.bind_ok, hc, if_false]
    · rw [if_neg (fun hh => hw hh.1), if_neg hw, if_neg (fun hh => hw hh.1), if_neg (fun hh => hw hh.1)]; rfl
  rw [e7]
  simp only [e8, Res.bind_ok]
  -- the size
  have s58 : Sep 58 := by simp [Sep]
  have e9 : cut 58 (dec l.offset ++ fmtSize l w) = (dec l.offset, if w.size ∧ l.size ≠ u64max then some (dec l.size) else none) := by
    have := cut_suffix 58 (dec l.offset) (dec l.size) (w.size ∧ l.size ≠ u64max) (dec_ne_sep _ s58)
    rw [← this]
    simp only [fmtSize]
  have e10 : parseSizeField (if w.size ∧ l.size ≠ u64max then some (dec l.size) else none) = .ok (if w.size then l.size else u64max) := by
    by_cases hw : w.size = true
    · by_cases hc : l.size = u64max
      · rw [if_neg (fun hh => hh.2 hc), if_pos hw, hc]; rfl
      · rw [if_pos ⟨hw, hc⟩, if_pos hw]
        unfold parseSizeField
        simp only
        rw [atou64_dec (lt64_of_le h.size.2)]
        simp only [hc, h.size.1, or_self, if_false]
    · rw [if_neg (fun hh => hw hh.1), if_neg hw]; rfl
  rw [e9]
  simp only [e10, Res.bind_ok]
  -- the offset
  rw [atou64_dec (lt64_of_le (Nat.le_of_lt h.offset))]
  simp only [Res.bind_ok]
  have h1 : ¬ l.offset = u64max := Nat.ne_of_lt h.offset
  rw [if_neg h1]
  have h2 : ¬ ((if w.size = true then l.size else u64max) ≠ u64max ∧
      (l.offset + (if w.size = true then l.size else u64max)) % 2 ^ 64 < l.offset) := by
    rintro ⟨h3, h4⟩
    by_cases hw : w.size = true
    · rw [if_pos hw] at h3 h4
      rw [Nat.mod_eq_of_lt (h.fits h3)] at h4
      omega
    · rw [if_neg hw] at h3; exact h3 rfl
  rw [if_neg h2]
  have h3 : ¬ (l.designator = Location.void ∧ l.path ≠ []) := fun hh => hh.2 (h.void hh.1).1
  rw [if_neg h3]
  have h4 : (if l.designator = Location.void then 0 else l.offset) = l.offset := by
    by_cases hv : l.designator = Location.void
    · rw [if_pos hv, (h.void hv).2]
    · rw [if_neg hv]
  rw [h4]
  rfl

/-- **C18**: formatting a location with everything in it and parsing the text yields the same path, designator, offset, size, inode, mtime,
generation, feature flags, archive offset and name table, whatever characters the path consists of.  (Inode and generation are only
meaningful when the mtime is known.) -/
theorem C18_roundtrip (l : Location) (h : WellFormed l) : ∃ l', parse (format l withAll) = .ok l' ∧
    l'.path = l.path ∧ l'.designator = l.designator ∧ l'.offset = l.offset ∧ l'.size = l.size ∧ l'.mtime = l.mtime ∧
    (l.mtime ≠ u64max → l'.inode = l.inode ∧ l'.generation = l.generation) ∧
    l'.featureFlags = l.featureFlags ∧ l'.archiveOffset = l.archiveOffset ∧ l'.nameTable = l.nameTable ∧ equal l l' withAll = true := by
  refine ⟨_, parse_format l withAll h, rfl, rfl, rfl, rfl, rfl, ?_, rfl, rfl, rfl, ?_⟩
  · intro hm
    simp [restrict, withAll, hm]
  · have := (NameTable.equal_iff l.nameTable l.nameTable).2 rfl
    by_cases hm : l.mtime = u64max <;> simp [equal, restrict, withAll, hm, this]

/-- **C18**, for every selection of parts: the selected ones are restored, the others come out as unknown. -/
theorem C18_roundtrip_with (l : Location) (w : With) (h : WellFormed l) : ∃ l', parse (format l w) = .ok l' ∧ equal l l' w = true ∧
    l'.path = l.path ∧ l'.designator = l.designator ∧ l'.offset = l.offset ∧
    l'.size = (if w.size then l.size else u64max) ∧ l'.mtime = (if w.mtime then l.mtime else u64max) ∧
    l'.featureFlags = (if w.featureFlags then l.featureFlags else u64max) ∧
    l'.archiveOffset = (if w.archiveOffset then l.archiveOffset else u64max) ∧ l'.nameTable = (if w.nameTable then l.nameTable else []) := by
  refine ⟨_, parse_format l w h, ?_, rfl, rfl, rfl, rfl, rfl, rfl, rfl, rfl⟩
  have := (NameTable.equal_iff l.nameTable l.nameTable).2 rfl
  obtain ⟨w1, w2, w3, w4, w5⟩ := w
  by_cases hm : l.mtime = u64max <;> cases w1 <;> cases w2 <;> cases w3 <;> cases w5 <;> simp [equal, restrict, hm, this]

/-- **C18**: different locations have different texts. -/
theorem C18_format_injective (a b : Location) (ha : WellFormed a) (hb : WellFormed b) (h : format a withAll = format b withAll) :
    equal a b withAll = true ∧ a.archiveOffset = b.archiveOffset := by
  have h1 := parse_format a withAll ha
  have h2 := parse_format b withAll hb
  rw [h, h2] at h1
  injection h1 with h1
  have key : ∀ f : Location → Prop, f (restrict b withAll) ↔ f (restrict a withAll) := by intro f; rw [h1]
  have h3 : (restrict b withAll).mtime = (restrict a withAll).mtime := by rw [h1]
  have h4 : (restrict b withAll).designator = (restrict a withAll).designator := by rw [h1]
  have h5 : (restrict b withAll).offset = (restrict a withAll).offset := by rw [h1]
  have h6 : (restrict b withAll).path = (restrict a withAll).path := by rw [h1]
  have h7 : (restrict b withAll).size = (restrict a withAll).size := by rw [h1]
  have h8 : (restrict b withAll).featureFlags = (restrict a withAll).featureFlags := by rw [h1]
  have h9 : (restrict b withAll).nameTable = (restrict a withAll).nameTable := by rw [h1]
  have h10 : (restrict b withAll).inode = (restrict a withAll).inode := by rw [h1]
  have h11 : (restrict b withAll).generation = (restrict a withAll).generation := by rw [h1]
  have h12 : (restrict b withAll).archiveOffset = (restrict a withAll).archiveOffset := by rw [h1]
  simp only [restrict, withAll, if_true] at h3 h4 h5 h6 h7 h8 h9 h10 h11 h12
  refine ⟨?_, h12.symm⟩
  have := (NameTable.equal_iff a.nameTable b.nameTable).2 h9.symm
  by_cases hm : a.mtime = u64max
  · simp [equal, withAll, this, h4, h5, h6, h7, h8, h3, hm]
  · have hm2 : b.mtime ≠ u64max := by rw [h3]; exact hm
    simp only [hm, hm2, ne_eq, not_false_eq_true, and_self, if_true] at h10 h11
    simp [equal, withAll, this, h4, h5, h6, h7, h8, h3, h10, h11]

/-- A path full of separator characters, with all optional parts. -/
def exampleLocation : Location where
  path := "a+b/c$d#e%f@g.h:i+p0".toUTF8.toList
  designator := 112
  offset := 4096
  size := 1048576
  mtime := 1500000000123456789
  inode := 4711
  generation := some 4000000000
  nameTable := [⟨0, [⟨255, 64, 128⟩]⟩]
  archiveOffset := 777
  featureFlags := 0xb000000000000001

theorem exampleLocation_wf : WellFormed exampleLocation where
  designator := by decide
  path := by decide +kernel
  offset := by decide
  size := by decide
  fits := by decide
  void := by decide
  mtime := by decide
  inode := by decide
  generation := by intro g hg; injection hg with hg; subst hg; decide
  featureFlags := by decide
  archiveOffset := by decide
  nameTable := by
    intro l hl
    simp [exampleLocation] at hl
    subst hl
    refine ⟨by decide, ?_⟩
    intro i hi
    simp at hi
    subst hi
    decide

example : ∃ l', parse (format exampleLocation withAll) = .ok l' ∧ l'.path = exampleLocation.path ∧ l'.generation = some 4000000000 := by
  obtain ⟨l', h1, h2, _, _, _, _, h3, _⟩ := C18_roundtrip exampleLocation exampleLocation_wf
  exact ⟨l', h1, h2, (h3 (by decide)).2⟩

/-! ### The hypothesis is what the code maintains -/

/-- **C18**: every location made by `ca_location_new()` is well-formed. -/
theorem C18_new_wf (path : Option Bytes) (d : UInt8) (offset size : Nat) (l : Location) (ho : offset ≤ u64max) (hs : size ≤ u64max)
    (h : new path d offset size = .ok l) : WellFormed l := by
  have hmax : u64max = 2 ^ 64 - 1 := by decide
  unfold new at h
  split at h; · cases h
  rename_i h1
  split at h; · cases h
  rename_i h2
  split at h; · cases h
  rename_i h3
  split at h; · cases h
  rename_i h4
  split at h; · cases h
  rename_i h5
  split at h; · cases h
  rename_i h6
  injection h with h
  subst h
  refine ⟨by simpa using h1, h2, ?_, ⟨h4, hs⟩, ?_, ?_, Nat.le_refl _, Nat.zero_le _, by simp, Nat.le_refl _, Nat.le_refl _, by simp [NameTable.InRange]⟩
  · simp only
    split
    · decide
    · omega
  · simp only
    intro hsz
    have h7 : ¬ (offset + size) % 2 ^ 64 < offset := fun hh => h6 ⟨hsz, hh⟩
    split
    · omega
    · by_cases hlt : offset + size < 2 ^ 64
      · exact hlt
      · exfalso; apply h7
        omega
  · simp only
    intro hv
    rw [if_pos hv]
    refine ⟨?_, rfl⟩
    cases hp : path with
    | none => rfl
    | some p => exact absurd ⟨hv, by rw [hp]; rfl⟩ h5

theorem optNumber_le (read : Bytes → Res Nat) (hr : ∀ s n, read s = .ok n → n < 2 ^ 64) (q : Option Bytes) (v : Nat)
    (h : optNumber read q = .ok v) : v ≤ u64max := by
  have hmax : u64max = 2 ^ 64 - 1 := by decide
  unfold optNumber at h
  split at h
  · injection h with h; omega
  · split at h
    · rename_i hv
      split at h
      · cases h
      · injection h with h; subst h; have := hr _ _ hv; omega
    · rename_i hx; exact absurd h (hx v)

/-- **C18**: every text that is accepted yields a well-formed location, which survives formatting and parsing. -/
theorem C18_parse_wf (text : Bytes) (l : Location) (h : parse text = .ok l) :
    WellFormed l ∧ parse (format l withAll) = .ok l := by
  have hmax : u64max = 2 ^ 64 - 1 := by decide
  have r64 : ∀ s n, atou64 s = .ok n → n < 2 ^ 64 := fun s n => (C44_number_range s n).1
  have rx64 : ∀ s n, atox64 s = .ok n → n < 2 ^ 64 := fun s n => (C44_number_range s n).2.1
  unfold parse at h
  split at h; · cases h
  rename_i path u hsp
  split at h; · cases h
  rename_i hp
  split at h; · cases h
  rename_i d u' 
  split at h; · cases h
  rename_i hd
  simp only at h
  obtain ⟨nt, h1, h⟩ := Res.bind_eq_ok.1 h
  obtain ⟨ao, h2, h⟩ := Res.bind_eq_ok.1 h
  obtain ⟨ff, h3, h⟩ := Res.bind_eq_ok.1 h
  obtain ⟨⟨mt, ino, gen⟩, h4, h⟩ := Res.bind_eq_ok.1 h
  obtain ⟨sz, h5, h⟩ := Res.bind_eq_ok.1 h
  obtain ⟨off, h6, h⟩ := Res.bind_eq_ok.1 h
  simp only at h
  split at h; · cases h
  rename_i ho
  split at h; · cases h
  rename_i hfit
  split at h; · cases h
  rename_i hv
  injection h with h
  have hoff := r64 _ _ h6
  have hpath : path.head? ≠ some 47 := by
    intro hh
    have hne : path ≠ [] := by rintro rfl; cases hh
    apply hp
    refine ⟨hne, ?_⟩
    have key : ∀ (t a b : Bytes), splitLast 43 t = some (a, b) → t = a ++ 43 :: b := by
      intro t
      induction t with
      | nil => intro a b hx; cases hx
      | cons c t ih =>
        intro a b hx
        simp only [splitLast] at hx
        split at hx
        · rename_i x y hxy
          injection hx with hx; injection hx with hx1 hx2; subst hx1 hx2
          rw [ih _ _ hxy]; rfl
        · split at hx
          · rename_i hc
            injection hx with hx; injection hx with hx1 hx2; subst hx1 hx2
            rw [hc]; rfl
          · cases hx
    rw [key _ _ _ hsp]
    cases path with
    | nil => exact absurd rfl hne
    | cons a p => simpa using hh
  have hmt : mt ≤ u64max ∧ ino ≤ u64max ∧ (∀ g, gen = some g → g < 2 ^ 32) ∧ (mt = u64max → ino = 0 ∧ gen = none) := by
    unfold parseMtime at h4
    split at h4
    · injection h4 with h4; injection h4 with a1 h4; injection h4 with a2 a3
      subst a1 a2 a3
      exact ⟨Nat.le_refl _, Nat.zero_le _, by simp, fun _ => ⟨rfl, rfl⟩⟩
    · split at h4
      · cases h4
      · rename_i w z hcut
        obtain ⟨i, b1, h4⟩ := Res.bind_eq_ok.1 h4
        simp only at h4
        obtain ⟨g, b2, h4⟩ := Res.bind_eq_ok.1 h4
        obtain ⟨m, b3, h4⟩ := Res.bind_eq_ok.1 h4
        split at h4
        · cases h4
        · rename_i hm
          injection h4 with h4; injection h4 with a1 h4; injection h4 with a2 a3
          subst a1 a2 a3
          have := r64 _ _ b1
          have := r64 _ _ b3
          refine ⟨by omega, by omega, ?_, fun hh => absurd hh hm⟩
          intro g' hg'
          subst hg'
          split at b2
          · cases b2
          · split at b2
            · rename_i hx
              injection b2 with b2; injection b2 with b2; subst b2
              exact (C44_number_range _ _).2.2 hx
            · cases b2
            · cases b2
  have hsz : sz ≠ 0 ∧ sz ≤ u64max := by
    unfold parseSizeField at h5
    split at h5
    · injection h5 with h5; subst h5; decide
    · split at h5
      · rename_i hv2
        split at h5
        · cases h5
        · rename_i hne
          injection h5 with h5; subst h5
          have := r64 _ _ hv2
          omega
      · rename_i hx; exact absurd h5 (hx sz)
  have hnt : NameTable.InRange nt := by
    unfold parseNameTable at h1
    split at h1
    · injection h1 with h1; subst h1; intro l hl; cases hl
    · rename_i s _
      rcases NameTable.C36_parse_total s with ⟨e, he⟩ | ⟨t, ht, hr, _⟩
      · rw [he] at h1; cases h1
      · rw [ht] at h1; injection h1 with h1; subst h1; exact hr
  have hwf : WellFormed l := by
    subst h
    refine ⟨by simpa using hd, hpath, ?_, hsz, ?_, ?_, hmt.1, hmt.2.1, hmt.2.2.1, optNumber_le _ rx64 _ _ h3, optNumber_le _ r64 _ _ h2, hnt⟩
    · show (if d = Location.void then 0 else off) < u64max
      split
      · decide
      · omega
    · show sz ≠ u64max → (if d = Location.void then 0 else off) + sz < 2 ^ 64
      intro hs
      have h7 : ¬ (off + sz) % 2 ^ 64 < off := fun hh => hfit ⟨hs, hh⟩
      split
      · omega
      · by_cases hlt : off + sz < 2 ^ 64
        · exact hlt
        · exfalso; apply h7; omega
    · show d = Location.void → path = [] ∧ (if d = Location.void then 0 else off) = 0
      intro hdv
      rw [if_pos hdv]
      exact ⟨Classical.not_not.1 (fun hn => hv ⟨hdv, hn⟩), rfl⟩
  refine ⟨hwf, ?_⟩
  rw [parse_format l withAll hwf]
  congr 1
  subst h
  simp only [restrict, withAll, if_true, true_and]
  by_cases hm : mt = u64max
  · obtain ⟨b1, b2⟩ := hmt.2.2.2 hm
    simp [hm, b1, b2]
  · simp [hm]

/-- **C18**: taking a part off the front that leaves something keeps a location well-formed (`ca_origin_advance_bytes()` only does this). -/
theorem C18_advance_wf (l l' : Location) (n : Nat) (hl : WellFormed l) (hn : n < l.size) (hk : l.size ≠ u64max) (ha : advance l n = .ok l') :
    WellFormed l' := by
  have hmax : u64max = 2 ^ 64 - 1 := by decide
  have h1 := hl.offset
  have h2 := hl.size
  have h3 := hl.fits hk
  unfold advance at ha
  by_cases hn0 : n = 0
  · rw [if_pos hn0] at ha; injection ha with ha; subst ha; exact hl
  · rw [if_neg hn0, if_neg (fun hh => absurd hh.2 (by omega))] at ha
    injection ha with ha
    subst ha
    refine ⟨hl.designator, hl.path, ?_, ?_, ?_, ?_, hl.mtime, hl.inode, hl.generation, hl.featureFlags, ?_, hl.nameTable⟩
    · show (if l.designator ≠ Location.void then (l.offset + n) % 2 ^ 64 else l.offset) < u64max
      by_cases hv : l.designator ≠ Location.void
      · rw [if_pos hv]; omega
      · rw [if_neg hv]; exact h1
    · show (if l.size ≠ u64max then l.size - n else l.size) ≠ 0 ∧ (if l.size ≠ u64max then l.size - n else l.size) ≤ u64max
      rw [if_pos hk]; omega
    · show (if l.size ≠ u64max then l.size - n else l.size) ≠ u64max →
        (if l.designator ≠ Location.void then (l.offset + n) % 2 ^ 64 else l.offset) + (if l.size ≠ u64max then l.size - n else l.size) < 2 ^ 64
      intro _
      rw [if_pos hk]
      by_cases hv : l.designator ≠ Location.void
      · rw [if_pos hv]; omega
      · rw [if_neg hv]; omega
    · show l.designator = Location.void → l.path = [] ∧ (if l.designator ≠ Location.void then (l.offset + n) % 2 ^ 64 else l.offset) = 0
      intro hv
      rw [if_neg (fun hh => hh hv)]
      exact hl.void hv
    · show (if l.archiveOffset ≠ u64max then (l.archiveOffset + n) % 2 ^ 64 else l.archiveOffset) ≤ u64max
      by_cases ho : l.archiveOffset ≠ u64max
      · rw [if_pos ho]; have := Nat.mod_lt (l.archiveOffset + n) (show 0 < 2 ^ 64 by decide); omega
      · rw [if_neg ho]; exact hl.archiveOffset

/-- **C18**: merging a location with the one following it keeps it well-formed, as long as the sizes of void locations do not overflow. -/
theorem C18_merge_wf (a b c : Location) (ha : WellFormed a) (hb : WellFormed b) (hsum : a.size + b.size < u64max)
    (h : merge a b = .ok (some c)) : WellFormed c := by
  have hmax : u64max = 2 ^ 64 - 1 := by decide
  unfold merge at h
  split at h; · cases h
  rename_i hka
  split at h; · cases h
  rename_i hkb
  have h3 := ha.fits hka
  have h4 := hb.fits hkb
  have h5 := ha.size
  have h6 := hb.size
  split at h; · cases h
  split at h; · cases h
  split at h; · cases h
  rename_i hd
  split at h; · cases h
  rename_i hcont
  split at h; · cases h
  split at h; · cases h
  injection h with h
  injection h with h
  subst h
  refine ⟨ha.designator, ha.path, ha.offset, ?_, ?_, ha.void, ha.mtime, ha.inode, ha.generation, ha.featureFlags, ha.archiveOffset, ha.nameTable⟩
  · show (a.size + b.size) % 2 ^ 64 ≠ 0 ∧ (a.size + b.size) % 2 ^ 64 ≤ u64max
    omega
  · show (a.size + b.size) % 2 ^ 64 ≠ u64max → a.offset + (a.size + b.size) % 2 ^ 64 < 2 ^ 64
    intro _
    by_cases hv : a.designator = Location.void
    · have := (ha.void hv).2
      omega
    · have : (a.offset + a.size) % 2 ^ 64 = b.offset := Classical.not_not.1 (fun hne => hcont ⟨hv, hne⟩)
      omega

/-! ### The cached text -/

/-- The cached text, if there is one, is the text of the location. -/
def Obj.Coherent (o : Obj) : Prop := ∀ w t, o.cache = some (w, t) → t = Location.format o.loc w

theorem format_root (l : Location) (r : Option Nat) (w : With) : Location.format { l with root := r } w = Location.format l w := rfl

/-- **C18**: a location never hands out a stale text: from a coherent object (a fresh one has no cached text), patching the size or the
root, advancing, merging and formatting lead to coherent objects, and what formatting returns is the text of the current location. -/
theorem C18_cache_coherent (o : Obj) (h : o.Coherent) :
    (∀ w, (o.format w).1 = Location.format o.loc w ∧ (o.format w).2.Coherent ∧ (o.format w).2.loc = o.loc) ∧
    (∀ size, (o.patchSize size).Coherent ∧ (o.patchSize size).loc = { o.loc with size }) ∧
    (∀ root, (o.patchRoot root).Coherent ∧ (o.patchRoot root).loc = { o.loc with root }) ∧
    (∀ n o', o.advance n = .ok o' → o'.Coherent ∧ Location.advance o.loc n = .ok o'.loc) ∧
    (∀ b m o', o.merge b = .ok (m, o') → o'.Coherent ∧ Location.merge o.loc b = .ok (if m then some o'.loc else none) ∧
      (m = false → o'.loc = o.loc)) := by
  have fresh : ∀ l s, Obj.Coherent ⟨l, s, none⟩ := by intro l s w t hh; cases hh
  refine ⟨?_, ?_, ?_, ?_, ?_⟩
  · intro w
    have single : ∀ s, Obj.Coherent ⟨o.loc, s, some (w, Location.format o.loc w)⟩ := by
      intro s w' t hh; injection hh with hh; injection hh with h1 h2; subst h1 h2; rfl
    unfold Obj.format
    split
    · rename_i w' t hc
      split
      · rename_i hw; subst hw
        exact ⟨h _ _ hc, h, rfl⟩
      · exact ⟨rfl, single _, rfl⟩
    · exact ⟨rfl, single _, rfl⟩
  · intro size
    unfold Obj.patchSize
    split
    · rename_i hs; subst hs; exact ⟨h, rfl⟩
    · exact ⟨fresh _ _, rfl⟩
  · intro root
    unfold Obj.patchRoot
    split
    · rename_i hs; subst hs; exact ⟨h, rfl⟩
    · split
      · exact ⟨fresh _ _, rfl⟩
      · refine ⟨?_, rfl⟩
        intro w t hc
        rw [h w t hc]
        rfl
  · intro n o' ho
    unfold Obj.advance at ho
    split at ho
    · rename_i l hl
      split at ho
      · rename_i hn
        injection ho with ho; subst ho
        refine ⟨h, ?_⟩
        rw [hn]; simp [Location.advance]
      · injection ho with ho; subst ho
        exact ⟨fresh _ _, hl⟩
    · cases ho
    · cases ho
  · intro b m o' ho
    unfold Obj.merge at ho
    split at ho
    · rename_i l hl
      injection ho with ho; injection ho with h1 h2; subst h1 h2
      exact ⟨fresh _ _, hl, by simp⟩
    · rename_i hl
      injection ho with ho; injection ho with h1 h2; subst h1 h2
      exact ⟨h, by simpa using hl, fun _ => rfl⟩
    · cases ho
    · cases ho

end Casync.Location
