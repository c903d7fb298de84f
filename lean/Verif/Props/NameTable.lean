import Verif.Model.NameTable
import Verif.Props.Number
/-!
C36: name tables survive formatting and parsing.
-/
namespace Casync.NameTable
open Casync Number

/-- All numbers of the table are 64 bit numbers, as their C type makes sure. -/
def InRange (t : Chain) : Prop :=
  ∀ l ∈ t, l.entryOffset < 2 ^ 64 ∧ ∀ i ∈ l.items, i.hash < 2 ^ 64 ∧ i.start < 2 ^ 64 ∧ i.end < 2 ^ 64

/-- The text does not go on with a hexadecimal digit. -/
def NoHex (r : Bytes) : Prop := ∀ b, r.head? = some b → isDigit 16 b = false

theorem field_hex (tag : UInt8) {n : Nat} (hn : n < 2 ^ 64) (r : Bytes) (hr : NoHex r) :
    field tag (tag :: hex n ++ r) = .ok (n, r) := by
  have h := takeWhile_all (fmt_digits (base := 16) (by omega) (by omega) n) r hr
  show field tag (tag :: (fmt 16 n ++ r)) = _
  unfold field
  simp only [ne_eq, not_true_eq_false, if_false, h.1, h.2]
  rw [show atox64 (fmt 16 n) = .ok n from atox64_hex hn]

theorem parseOne_format (i : Item) (h : i.hash < 2 ^ 64 ∧ i.start < 2 ^ 64 ∧ i.end < 2 ^ 64) (r : Bytes) (hr : NoHex r) :
    parseOne (formatItem i ++ r) = .ok (i, r) := by
  have e : formatItem i ++ r = 72 :: hex i.hash ++ (83 :: hex i.start ++ (88 :: hex i.end ++ r)) := by simp [formatItem]
  rw [e]
  unfold parseOne
  rw [field_hex 72 h.1 _ (by intro b hb; simp at hb; subst hb; decide)]
  simp only [Res.bind_ok]
  rw [field_hex 83 h.2.1 _ (by intro b hb; simp at hb; subst hb; decide)]
  simp only [Res.bind_ok]
  rw [field_hex 88 h.2.2 r hr]
  simp only [Res.bind_ok, Res.pure_eq]

/-- What may follow the items of a level: nothing, or the next level. -/
def Next (r : Bytes) : Prop := r = [] ∨ ∃ t, r = 79 :: t

theorem Next.noHex {r : Bytes} (h : Next r) : NoHex r := by
  rcases h with rfl | ⟨t, rfl⟩
  · intro b hb; cases hb
  · intro b hb; simp at hb; subst hb; decide

theorem items_noHex (is : List Item) {r : Bytes} (h : Next r) : NoHex ((is.map formatItem).flatten ++ r) := by
  cases is with
  | nil => simpa using h.noHex
  | cons i is => intro b hb; simp [formatItem] at hb; subst hb; decide

theorem parseItems_format (is : List Item) (hi : ∀ i ∈ is, i.hash < 2 ^ 64 ∧ i.start < 2 ^ 64 ∧ i.end < 2 ^ 64) (r : Bytes) (hr : Next r) :
    ∀ fuel, is.length < fuel → parseItems fuel ((is.map formatItem).flatten ++ r) = .ok (is, r) := by
  induction is with
  | nil =>
    intro fuel hf
    obtain ⟨k, rfl⟩ : ∃ k, fuel = k + 1 := ⟨fuel - 1, by simp at hf; omega⟩
    rcases hr with rfl | ⟨t, rfl⟩ <;> rfl
  | cons i is ih =>
    intro fuel hf
    obtain ⟨k, rfl⟩ : ∃ k, fuel = k + 1 := ⟨fuel - 1, by simp at hf; omega⟩
    have e : ((i :: is).map formatItem).flatten ++ r = formatItem i ++ ((is.map formatItem).flatten ++ r) := by simp
    have hone := parseOne_format i (hi i (by simp)) _ (items_noHex is hr)
    have hrec := ih (fun j hj => hi j (by simp [hj])) k (by simp at hf; omega)
    rw [e]
    unfold parseItems
    split
    · rename_i heq; simp [formatItem] at heq
    · rename_i heq; simp [formatItem] at heq
    · rw [hone]; simp only [Res.bind_ok]; rw [hrec]; rfl

theorem formatItem_length (i : Item) : 0 < (formatItem i).length := by simp [formatItem]

theorem items_length (is : List Item) : is.length ≤ ((is.map formatItem).flatten).length := by
  induction is with
  | nil => simp
  | cons i is ih =>
    have := formatItem_length i
    simp only [List.map_cons, List.flatten_cons, List.length_append, List.length_cons]
    omega

theorem format_next (t : Chain) : Next (format t) := by
  cases t with
  | nil => exact .inl rfl
  | cons l t => exact .inr ⟨_, by simp [format, formatLevel]; rfl⟩

theorem parseLevels_format (t : Chain) (hne : t ≠ []) (h : InRange t) : ∀ fuel, t.length ≤ fuel → parseLevels fuel (format t) = .ok t := by
  induction t with
  | nil => exact absurd rfl hne
  | cons l t ih =>
    intro fuel hf
    obtain ⟨k, rfl⟩ : ∃ k, fuel = k + 1 := ⟨fuel - 1, by simp at hf; omega⟩
    have hl := h l (by simp)
    have e : format (l :: t) = 79 :: hex l.entryOffset ++ ((l.items.map formatItem).flatten ++ format t) := by simp [format, formatLevel]
    have hnext := format_next t
    unfold parseLevels
    rw [e, field_hex 79 hl.1 _ (items_noHex l.items hnext)]
    simp only [Res.bind_ok]
    rw [parseItems_format l.items hl.2 (format t) hnext _ (by have := items_length l.items; simp only [List.length_append]; omega)]
    simp only [Res.bind_ok]
    cases t with
    | nil => simp [format]
    | cons l2 t =>
      have hne2 : format (l2 :: t) ≠ [] := by simp [format, formatLevel]
      rw [if_neg hne2, ih (by simp) (fun x hx => h x (by simp [hx])) k (by simp at hf; simp; omega)]
      rfl

theorem format_length (t : Chain) : t.length ≤ (format t).length := by
  induction t with
  | nil => simp
  | cons l t ih =>
    have : format (l :: t) = formatLevel l ++ format t := by simp [format]
    rw [this]
    simp only [List.length_append, List.length_cons, formatLevel]
    omega

theorem equal_iff (a b : Chain) : equal a b = true ↔ a = b := by
  induction a generalizing b with
  | nil => cases b <;> simp [equal]
  | cons x a ih =>
    cases b with
    | nil => simp [equal]
    | cons y b =>
      simp only [equal, Bool.and_eq_true, beq_iff_eq, ih, List.cons.injEq]
      constructor
      · rintro ⟨⟨h1, h2⟩, h3⟩; refine ⟨?_, h3⟩; cases x; cases y; simp_all
      · rintro ⟨rfl, rfl⟩; simp

/-- **C36**: formatting a table with all its parents and parsing the text yields an equal table. -/
theorem C36_roundtrip (t : Chain) (hne : t ≠ []) (h : InRange t) : ∃ t', parse (format t) = .ok t' ∧ t' = t ∧ equal t t' = true :=
  ⟨t, parseLevels_format t hne h _ (by have := format_length t; omega), rfl, (equal_iff t t).2 rfl⟩

/-- **C36**: two tables with the same text are the same table. -/
theorem C36_format_injective (a b : Chain) (ha : InRange a) (hb : InRange b) (h : format a = format b) : a = b := by
  by_cases h1 : a = []
  · subst h1
    by_cases h2 : b = []
    · exact h2.symm
    · have := parseLevels_format b h2 hb (b.length) (Nat.le_refl _)
      rw [← h] at this
      cases hbl : b.length with
      | zero => exact absurd (List.length_eq_zero_iff.1 hbl) h2
      | succ k => rw [hbl] at this; cases this
  · by_cases h2 : b = []
    · subst h2
      have := parseLevels_format a h1 ha (a.length) (Nat.le_refl _)
      rw [h] at this
      cases hal : a.length with
      | zero => exact absurd (List.length_eq_zero_iff.1 hal) h1
      | succ k => rw [hal] at this; cases this
    · obtain ⟨a', ha1, ha2, _⟩ := C36_roundtrip a h1 ha
      obtain ⟨b', hb1, hb2, _⟩ := C36_roundtrip b h2 hb
      rw [h, hb1] at ha1
      cases ha1
      rw [← ha2, ← hb2]

/-- A table of two levels, the unknown entry offset included. -/
example : InRange [⟨u64max, [⟨0xdeadbeef, 64, 4096⟩, ⟨7, 4096, 5000⟩]⟩, ⟨0, []⟩] ∧
    format [⟨255, [⟨0, 1, 10⟩]⟩, ⟨0, []⟩] = "OffH0S1XaO0".toUTF8.toList := by
  constructor
  · intro l hl
    simp at hl
    rcases hl with rfl | rfl
    · refine ⟨by decide, ?_⟩
      intro i hi
      simp at hi
      rcases hi with rfl | rfl <;> decide
    · exact ⟨by decide, by simp⟩
  · decide +kernel

/-- **C36**: the text of a table never contains `+`, `$` or a NUL byte, so that it can end a location. -/
theorem C36_charset (t : Chain) : ∀ b ∈ format t, isDigit 16 b = true ∨ b = 79 ∨ b = 72 ∨ b = 83 ∨ b = 88 := by
  have hh : ∀ n, ∀ b ∈ hex n, isDigit 16 b = true := fun n => fmt_digits (by omega) (by omega) n
  intro b hb
  simp only [format, List.mem_flatten, List.mem_map] at hb
  obtain ⟨_, ⟨l, _, rfl⟩, hb⟩ := hb
  simp only [formatLevel, List.cons_append, List.mem_cons, List.mem_append, List.mem_flatten, List.mem_map] at hb
  rcases hb with hb | hb | ⟨_, ⟨i, _, rfl⟩, hb⟩
  · exact .inr (.inl hb)
  · exact .inl (hh _ _ hb)
  · simp only [formatItem, List.cons_append, List.mem_cons, List.mem_append] at hb
    rcases hb with hb | hb | hb | hb | hb | hb
    · exact .inr (.inr (.inl hb))
    · exact .inl (hh _ _ hb)
    · exact .inr (.inr (.inr (.inl hb)))
    · exact .inl (hh _ _ hb)
    · exact .inr (.inr (.inr (.inr hb)))
    · exact .inl (hh _ _ hb)

theorem field_range (tag : UInt8) (x : Bytes) (v : Nat) (r : Bytes) (h : field tag x = .ok (v, r)) : v < 2 ^ 64 ∧ r.length < x.length := by
  unfold field at h
  split at h
  · cases h
  · split at h
    · cases h
    · split at h
      · rename_i hv
        injection h with h; injection h with h1 h2
        subst h1 h2
        refine ⟨(C44_number_range _ _).2.1 hv, ?_⟩
        have := (List.dropWhile_suffix (isDigit 16) (l := ‹Bytes›)).length_le
        simp only [List.length_cons]
        omega
      · cases h
      · cases h

theorem field_no_ub (tag : UInt8) (x : Bytes) : field tag x ≠ .ub := by
  unfold field
  split
  · simp
  · split
    · simp
    · split
      · simp
      · simp
      · rename_i hv
        unfold atox64 safeAto at hv
        simp only at hv
        repeat' split at hv
        all_goals cases hv

theorem parseOne_range (x : Bytes) (i : Item) (r : Bytes) (h : parseOne x = .ok (i, r)) :
    (i.hash < 2 ^ 64 ∧ i.start < 2 ^ 64 ∧ i.end < 2 ^ 64) ∧ r.length < x.length := by
  unfold parseOne at h
  obtain ⟨⟨a, x1⟩, h1, h⟩ := Res.bind_eq_ok.1 h
  obtain ⟨⟨b, x2⟩, h2, h⟩ := Res.bind_eq_ok.1 h
  obtain ⟨⟨c, x3⟩, h3, h⟩ := Res.bind_eq_ok.1 h
  injection h with h; injection h with h4 h5
  subst h4 h5
  have r1 := field_range _ _ _ _ h1
  have r2 := field_range _ _ _ _ h2
  have r3 := field_range _ _ _ _ h3
  exact ⟨⟨r1.1, r2.1, r3.1⟩, by omega⟩

theorem parseOne_no_ub (x : Bytes) : parseOne x ≠ .ub := by
  unfold parseOne
  cases h1 : field 72 x with
  | ub => exact absurd h1 (field_no_ub _ _)
  | err e => simp
  | ok a =>
    obtain ⟨v1, x1⟩ := a
    simp only [Res.bind_ok]
    cases h2 : field 83 x1 with
    | ub => exact absurd h2 (field_no_ub _ _)
    | err e => simp
    | ok a =>
      obtain ⟨v2, x2⟩ := a
      simp only [Res.bind_ok]
      cases h3 : field 88 x2 with
      | ub => exact absurd h3 (field_no_ub _ _)
      | err e => simp
      | ok a => simp

theorem parseItems_range (fuel : Nat) : ∀ (x : Bytes), x.length < fuel → parseItems fuel x ≠ .ub ∧
    ∀ (is : List Item) (r : Bytes), parseItems fuel x = .ok (is, r) →
      (∀ i ∈ is, i.hash < 2 ^ 64 ∧ i.start < 2 ^ 64 ∧ i.end < 2 ^ 64) ∧ r.length ≤ x.length := by
  induction fuel with
  | zero => intro x hx; omega
  | succ fuel ih =>
    intro x hx
    unfold parseItems
    split
    · exact ⟨by simp, by intro is r h; cases h; simp⟩
    · exact ⟨by simp, by intro is r h; cases h; simp⟩
    · cases h1 : parseOne x with
      | ub => exact absurd h1 (parseOne_no_ub _)
      | err e => exact ⟨by simp, by simp⟩
      | ok a =>
        obtain ⟨i, x1⟩ := a
        have h2 := parseOne_range _ _ _ h1
        have h3 := ih x1 (by omega)
        simp only [Res.bind_ok]
        cases h4 : parseItems fuel x1 with
        | ub => exact absurd h4 h3.1
        | err e => exact ⟨by simp, by simp⟩
        | ok b =>
          obtain ⟨is, x2⟩ := b
          have h5 := h3.2 _ _ h4
          refine ⟨by simp, ?_⟩
          intro is' r' h
          simp only [Res.bind_ok, Res.pure_eq] at h
          injection h with h; injection h with h6 h7
          subst h6 h7
          refine ⟨?_, by omega⟩
          intro j hj
          rcases List.mem_cons.1 hj with rfl | hj
          · exact h2.1
          · exact h5.1 j hj

theorem parseLevels_range (fuel : Nat) : ∀ (x : Bytes), x.length < fuel → parseLevels fuel x ≠ .ub ∧
    ∀ t, parseLevels fuel x = .ok t → InRange t ∧ t ≠ [] := by
  induction fuel with
  | zero => intro x hx; omega
  | succ fuel ih =>
    intro x hx
    unfold parseLevels
    cases h1 : field 79 x with
    | ub => exact absurd h1 (field_no_ub _ _)
    | err e => exact ⟨by simp, by simp⟩
    | ok a =>
      obtain ⟨o, x1⟩ := a
      have h2 := field_range _ _ _ _ h1
      simp only [Res.bind_ok]
      have h3 := parseItems_range (x1.length + 1) x1 (by omega)
      cases h4 : parseItems (x1.length + 1) x1 with
      | ub => exact absurd h4 h3.1
      | err e => exact ⟨by simp, by simp⟩
      | ok b =>
        obtain ⟨is, x2⟩ := b
        have h5 := h3.2 _ _ h4
        simp only [Res.bind_ok]
        have one : ∀ l : Level, l = ⟨o, is⟩ → l.entryOffset < 2 ^ 64 ∧ ∀ i ∈ l.items, i.hash < 2 ^ 64 ∧ i.start < 2 ^ 64 ∧ i.end < 2 ^ 64 := by
          rintro l rfl; exact ⟨h2.1, h5.1⟩
        split
        · refine ⟨by simp, ?_⟩
          intro t h
          simp only [Res.pure_eq] at h
          injection h with h; subst h
          exact ⟨fun l hl => one l (by simpa using hl), by simp⟩
        · have h6 := ih x2 (by omega)
          cases h7 : parseLevels fuel x2 with
          | ub => exact absurd h7 h6.1
          | err e => exact ⟨by simp, by simp⟩
          | ok ps =>
            refine ⟨by simp, ?_⟩
            intro t h
            simp only [Res.bind_ok, Res.pure_eq] at h
            injection h with h; subst h
            refine ⟨?_, by simp⟩
            intro l hl
            rcases List.mem_cons.1 hl with hl | hl
            · exact one l hl
            · exact (h6.2 _ h7).1 l hl

/-- **C36**: parsing any text ends with an error or a table of 64 bit numbers, which survives formatting and parsing again. -/
theorem C36_parse_total (x : Bytes) : (∃ e, parse x = .err e) ∨ ∃ t, parse x = .ok t ∧ InRange t ∧ t ≠ [] ∧ parse (format t) = .ok t := by
  have h := parseLevels_range (x.length + 1) x (by omega)
  cases hp : parseLevels (x.length + 1) x with
  | ub => exact absurd hp h.1
  | err e => exact .inl ⟨e, hp⟩
  | ok t =>
    have h2 := h.2 t hp
    refine .inr ⟨t, hp, h2.1, h2.2, ?_⟩
    obtain ⟨t', h3, h4, _⟩ := C36_roundtrip t h2.2 h2.1
    rw [h3, h4]

end Casync.NameTable
