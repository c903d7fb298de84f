import Verif.Model.ChunkId
import Verif.Spec.ChunkId
/-!
Properties C11 and C12: textual form, path and null test of chunk ids.
-/
namespace Casync.ChunkId
open Casync Casync.ChunkId.Spec

/-! ### single digits -/

theorem encDec (x : UInt8) : decodeChar (encodeChar (x >>> 4)) = some (x >>> 4) ∧
    decodeChar (encodeChar (x &&& 0xF)) = some (x &&& 0xF) ∧ ((x >>> 4) <<< 4 ||| (x &&& 0xF)) = x := by
  have h : ∀ n : Fin 256, let x := UInt8.ofFin n
    decodeChar (encodeChar (x >>> 4)) = some (x >>> 4) ∧
    decodeChar (encodeChar (x &&& 0xF)) = some (x &&& 0xF) ∧ ((x >>> 4) <<< 4 ||| (x &&& 0xF)) = x := by decide +kernel
  exact h x.toFin

theorem decDigit (c : UInt8) : match decodeChar c with
    | some x => digits[x.toNat]? = some c ∧ x.toNat < 16 ∧ encodeChar x = c
    | none => c ∉ digits := by
  have h : ∀ n : Fin 256, (decodeChar (UInt8.ofFin n)).all (fun x => decide
      (digits[x.toNat]? = some (UInt8.ofFin n) ∧ x.toNat < 16 ∧ encodeChar x = UInt8.ofFin n)) = true ∧
      (decodeChar (UInt8.ofFin n) = none → UInt8.ofFin n ∉ digits) := by decide +kernel
  have h : (decodeChar c).all (fun x => decide
      (digits[x.toNat]? = some c ∧ x.toNat < 16 ∧ encodeChar x = c)) = true ∧
      (decodeChar c = none → c ∉ digits) := h c.toFin
  split
  · rename_i x hx; rw [hx] at h; simpa using h.1
  · rename_i hx; exact h.2 hx

theorem nibbles : ∀ a b : Fin 16, let x := UInt8.ofNat a.val; let y := UInt8.ofNat b.val
    (x <<< 4 ||| y) >>> 4 = x ∧ (x <<< 4 ||| y) &&& 0xF = y ∧ (x <<< 4 ||| y).toNat = 16 * a.val + b.val := by
  decide +kernel

theorem nibbles' {x y : UInt8} (hx : x.toNat < 16) (hy : y.toNat < 16) :
    (x <<< 4 ||| y) >>> 4 = x ∧ (x <<< 4 ||| y) &&& 0xF = y ∧ (x <<< 4 ||| y).toNat = 16 * x.toNat + y.toNat := by
  have := nibbles ⟨x.toNat, hx⟩ ⟨y.toNat, hy⟩
  simpa using this

/-! ### format and parse -/

theorem format_length (id : Bytes) : (format id).length = 2 * id.length := by
  induction id with
  | nil => rfl
  | cons b bs ih => simp [format, ih]; omega

theorem format_inj : ∀ {a b : Bytes}, format a = format b → a = b
  | [], [], _ => rfl
  | [], _ :: _, h => by simp [format] at h
  | _ :: _, [], h => by simp [format] at h
  | x :: a, y :: b, h => by
    simp only [format, List.cons.injEq] at h
    obtain ⟨h1, h2, h3⟩ := h
    have e1 := (encDec x).1; have e2 := (encDec x).2.1; have e3 := (encDec x).2.2
    rw [h1, (encDec y).1] at e1; rw [h2, (encDec y).2.1] at e2
    rw [← Option.some.inj e1, ← Option.some.inj e2, (encDec y).2.2] at e3
    rw [e3, format_inj h3]

theorem parseLoop_ok (v : Bytes) (i n : Nat) (id : Bytes) :
    parseLoop v i n = .ok (some id) ↔ id.length = n ∧ (i * 2 ≤ v.length ∨ n = 0) ∧ (v.drop (i * 2)).take (2 * n) = format id := by
  induction n generalizing i id with
  | zero =>
    simp only [parseLoop, Res.ok.injEq, Option.some.injEq]
    constructor
    · rintro rfl; simp [format]
    · rintro ⟨h, -⟩; exact (List.length_eq_zero_iff.1 h).symm
  | succ n ih =>
    simp only [parseLoop]
    constructor
    · intro h
      rw [Res.bind_eq_ok] at h
      obtain ⟨c, hc, h⟩ := h
      have d := decDigit c
      split at h
      · cases h
      · rename_i x hx
        rw [hx] at d
        rw [Res.bind_eq_ok] at h
        obtain ⟨c', hc', h⟩ := h
        have d' := decDigit c'
        split at h
        · cases h
        · rename_i y hy
          rw [hy] at d'
          rw [Res.bind_eq_ok] at h
          obtain ⟨r, hr, h⟩ := h
          split at h
          · cases h
          · rename_i bs
            have := Option.some.inj (Res.ok.inj h); subst this
            obtain ⟨l1, l2, l3⟩ := (ih _ _).1 hr
            unfold strAt at hc hc'
            split at hc
            · split at hc'
              · rename_i h1 h2
                refine ⟨by simp [l1], by left; omega, ?_⟩
                rw [List.drop_eq_getElem_cons h1, List.drop_eq_getElem_cons h2,
                  show 2 * (n + 1) = 2 * n + 1 + 1 by omega, List.take_succ_cons, List.take_succ_cons,
                  show i * 2 + 1 + 1 = (i + 1) * 2 by omega, l3]
                have n' := nibbles' d.2.1 d'.2.1
                simp only [format]
                rw [n'.1, n'.2.1, d.2.2, d'.2.2, Res.ok.inj hc, Res.ok.inj hc']
              · rename_i h2
                split at hc'
                · have := Res.ok.inj hc'; subst this; cases hy
                · cases hc'
            · split at hc
              · have := Res.ok.inj hc; subst this; cases hx
              · cases hc
    · rintro ⟨h1, h2, h3⟩
      obtain ⟨b, bs, rfl⟩ : ∃ b bs, id = b :: bs := by
        cases id with
        | nil => simp at h1
        | cons b bs => exact ⟨b, bs, rfl⟩
      have hl : i * 2 + 2 * (n + 1) ≤ v.length := by
        have := congrArg List.length h3
        rw [format_length, h1, List.length_take, List.length_drop] at this
        omega
      have q1 : i * 2 < v.length := by omega
      have q2 : i * 2 + 1 < v.length := by omega
      rw [List.drop_eq_getElem_cons q1, List.drop_eq_getElem_cons q2,
        show 2 * (n + 1) = 2 * n + 1 + 1 by omega, List.take_succ_cons, List.take_succ_cons,
        show i * 2 + 1 + 1 = (i + 1) * 2 by omega] at h3
      simp only [format, List.cons.injEq] at h3
      obtain ⟨e1, e2, e3⟩ := h3
      have r := (ih (i + 1) bs).2 ⟨by simpa using h1, by omega, e3⟩
      obtain ⟨d1, d2, d3⟩ := encDec b
      have s1 : strAt v (i * 2) = .ok (encodeChar (b >>> 4)) := by simp [strAt, q1, e1]
      have s2 : strAt v (i * 2 + 1) = .ok (encodeChar (b &&& 0xF)) := by simp [strAt, q2, e2]
      rw [s1, Res.bind_ok, d1]; simp only
      rw [s2, Res.bind_ok, d2]; simp only
      rw [r, Res.bind_ok]; simp only
      rw [d3]

theorem parse_ok (v id : Bytes) (hnul : ∀ c ∈ v, c ≠ 0) :
    parse v = .ok (some id) ↔ id.length = 32 ∧ v = format id := by
  unfold parse
  constructor
  · intro h
    rw [Res.bind_eq_ok] at h
    obtain ⟨r, hr, h⟩ := h
    split at h
    · cases h
    · rename_i id'
      rw [Res.bind_eq_ok] at h
      obtain ⟨c, hc, h⟩ := h
      split at h
      · cases h
      · rename_i hc0
        have := Option.some.inj (Res.ok.inj h); subst this
        obtain ⟨l1, l2, l3⟩ := (parseLoop_ok _ _ _ _).1 hr
        refine ⟨l1, ?_⟩
        have hl := congrArg List.length l3
        rw [format_length, l1, List.length_take, List.length_drop] at hl
        have : v.length = 64 := by
          unfold strAt at hc
          split at hc
          · rename_i hlt
            have := Res.ok.inj hc
            exact absurd (this ▸ List.getElem_mem hlt) (fun hm => hnul _ hm (by simpa using hc0))
          · omega
        simpa [List.take_of_length_le, this] using l3
  · rintro ⟨h1, rfl⟩
    have hl : (format id).length = 64 := by rw [format_length, h1]
    have := (parseLoop_ok (format id) 0 32 id).2 ⟨h1, by simp, by simp [List.take_of_length_le, hl]⟩
    rw [this, Res.bind_ok]
    simp [strAt, hl]

theorem digit_ne_zero (x : UInt8) : encodeChar x ≠ 0 ∧ encodeChar x ≠ 47 := by
  have h : ∀ n : Fin 256, encodeChar (UInt8.ofFin n) ≠ 0 ∧ encodeChar (UInt8.ofFin n) ≠ 47 := by decide +kernel
  exact h x.toFin

theorem format_no_nul : ∀ (id : Bytes), ∀ c ∈ format id, c ≠ 0
  | [], c, h => by simp [format] at h
  | b :: bs, c, h => by
    simp only [format, List.mem_cons] at h
    rcases h with rfl | rfl | h
    · exact (digit_ne_zero _).1
    · exact (digit_ne_zero _).1
    · exact format_no_nul bs c h

/-- C11. Formatting writes the lower case hexadecimal digits of the bytes. -/
theorem C11_format_denotes : ∀ id : Bytes, Denotes (format id) id
  | [] => trivial
  | b :: bs => by
    refine ⟨?_, C11_format_denotes bs⟩
    obtain ⟨h1, h2, h3⟩ := encDec b
    have d1 := decDigit (encodeChar (b >>> 4)); rw [h1] at d1
    have d2 := decDigit (encodeChar (b &&& 0xF)); rw [h2] at d2
    refine ⟨_, _, d1.1, d2.1, ?_⟩
    have := (nibbles' d1.2.1 d2.2.1).2.2
    rw [h3] at this; exact this

/-- The digits are distinct: a text denotes at most one byte string, and each byte string has one text. -/
theorem digits_inj {i j : Nat} {a : UInt8} (h1 : digits[i]? = some a) (h2 : digits[j]? = some a) : i = j := by
  have hi : i < 16 := by
    rcases Nat.lt_or_ge i 16 with h | h
    · exact h
    · rw [List.getElem?_eq_none (by simpa [digits] using h)] at h1; cases h1
  have hj : j < 16 := by
    rcases Nat.lt_or_ge j 16 with h | h
    · exact h
    · rw [List.getElem?_eq_none (by simpa [digits] using h)] at h2; cases h2
  have : ∀ i j : Fin 16, digits[i.val]? = digits[j.val]? → i = j := by decide +kernel
  exact Fin.mk.inj (this ⟨i, hi⟩ ⟨j, hj⟩ (by rw [h1, h2]))

theorem denotes_format : ∀ {t : List UInt8} {id : Bytes}, Denotes t id → t = format id
  | [], [], _ => rfl
  | [], _ :: _, h => h.elim
  | [_], [], h => h.elim
  | [_], _ :: _, h => h.elim
  | _ :: _ :: _, [], h => h.elim
  | a :: b :: t, x :: id, h => by
    obtain ⟨⟨i, j, h1, h2, h3⟩, h4⟩ := h
    have f := C11_format_denotes (x :: id)
    obtain ⟨⟨i', j', f1, f2, f3⟩, -⟩ := f
    have lt : ∀ {k : Nat} {a : UInt8}, digits[k]? = some a → k < 16 := by
      intro k a hk
      rcases Nat.lt_or_ge k 16 with h | h
      · exact h
      · rw [List.getElem?_eq_none (by simpa [digits] using h)] at hk; cases hk
    have := lt h1; have := lt h2; have := lt f1; have := lt f2
    have e1 : i = i' := by omega
    have e2 : j = j' := by omega
    subst e1 e2
    rw [h1] at f1; rw [h2] at f2
    simp only [format]
    rw [Option.some.inj f1, Option.some.inj f2, denotes_format h4]

/-- C11. Formatting an id and parsing the text gives the id back. -/
theorem C11_round_trip (id : Bytes) (h : id.length = 32) : parse (format id) = .ok (some id) :=
  (parse_ok _ _ (format_no_nul id)).2 ⟨h, rfl⟩

/-- C11. Parsing accepts exactly the texts that consist of the 64 lower case hex digits of the id, for every C
string. -/
theorem C11_parse_iff (v id : Bytes) (hnul : ∀ c ∈ v, c ≠ 0) :
    parse v = .ok (some id) ↔ v.length = 64 ∧ Denotes v id := by
  rw [parse_ok v id hnul]
  constructor
  · rintro ⟨h, rfl⟩; exact ⟨by rw [format_length, h], C11_format_denotes id⟩
  · rintro ⟨h, hd⟩
    have := denotes_format hd
    exact ⟨by rw [this, format_length] at h; omega, this⟩

theorem strAt_ok_of_le {v : Bytes} {i : Nat} (h : i ≤ v.length) : ∃ c, strAt v i = .ok c ∧ (i = v.length → c = 0) := by
  unfold strAt
  split
  · exact ⟨_, rfl, by omega⟩
  · rw [if_pos (by omega)]; exact ⟨_, rfl, fun _ => rfl⟩

theorem parseLoop_total (v : Bytes) (i n : Nat) (h : i * 2 ≤ v.length) :
    parseLoop v i n = .ok none ∨ ∃ id, parseLoop v i n = .ok (some id) ∧ (i + n) * 2 ≤ v.length := by
  induction n generalizing i with
  | zero => right; exact ⟨[], rfl, by omega⟩
  | succ n ih =>
    simp only [parseLoop]
    obtain ⟨c, hc, hc0⟩ := strAt_ok_of_le h
    rw [hc, Res.bind_ok]
    split
    · left; rfl
    · rename_i x hx
      have hlt : i * 2 < v.length := by
        rcases Nat.lt_or_ge (i * 2) v.length with h | h'
        · exact h
        · have := hc0 (by omega); subst this; cases hx
      obtain ⟨c', hc', hc0'⟩ := strAt_ok_of_le (v := v) (i := i * 2 + 1) (by omega)
      rw [hc', Res.bind_ok]
      split
      · left; rfl
      · rename_i y hy
        have hlt' : i * 2 + 1 < v.length := by
          rcases Nat.lt_or_ge (i * 2 + 1) v.length with h | h'
          · exact h
          · have := hc0' (by omega); subst this; cases hy
        rcases ih (i + 1) (by omega) with h | ⟨id, h, hl⟩
        · left; rw [h, Res.bind_ok]
        · right; refine ⟨_, by rw [h, Res.bind_ok], by omega⟩

/-- C11. Parsing is total: on any C string it returns without reading behind the terminating NUL. -/
theorem C11_parse_total (v : Bytes) : ∃ r, parse v = .ok r := by
  unfold parse
  rcases parseLoop_total v 0 32 (by omega) with h | ⟨id, h, hl⟩
  · rw [h, Res.bind_ok]; exact ⟨_, rfl⟩
  · rw [h, Res.bind_ok]
    obtain ⟨c, hc, -⟩ := strAt_ok_of_le (v := v) (i := 64) (by omega)
    simp only
    rw [hc, Res.bind_ok]
    split <;> exact ⟨_, rfl⟩

/-- C11. Two ids in the same store have the same path only if id and suffix are the same. -/
theorem C11_path_injective (pre a b suf suf' : Bytes) (ha : a.length = 32) (hb : b.length = 32)
    (h : formatPath pre a suf = formatPath pre b suf') : a = b ∧ suf = suf' := by
  unfold formatPath at h
  have h := List.append_cancel_left h
  have la : (format a).length = 64 := by rw [format_length, ha]
  have lb : (format b).length = 64 := by rw [format_length, hb]
  have := List.append_inj h (by simp [la, lb])
  have h2 := (List.cons.inj this.2).2
  have := List.append_inj h2 (by rw [la, lb])
  exact ⟨format_inj this.1, this.2⟩

/-- C11. A path is one directory, named by the first four digits, and a file in it: neither the digits nor the
directory name contain a slash or NUL, so a suffix without slash cannot leave the store. -/
theorem C11_path_shape (pre id suf : Bytes) (hid : id.length = 32) :
    ∃ dir file : Bytes, formatPath pre id suf = pre ++ (dir ++ (47 :: (file ++ suf))) ∧ dir.length = 4 ∧
      file.length = 64 ∧ dir = file.take 4 ∧ Denotes file id ∧ ∀ c ∈ file, c ∈ digits := by
  have hl : (format id).length = 64 := by rw [format_length, hid]
  refine ⟨_, _, rfl, by simp [hl], hl, rfl, C11_format_denotes id, ?_⟩
  intro c hc
  have : ∀ id : Bytes, ∀ c ∈ format id, c ∈ digits := by
    intro id
    induction id with
    | nil => simp [format]
    | cons b bs ih =>
      intro c hc
      simp only [format, List.mem_cons] at hc
      obtain ⟨h1, h2, -⟩ := encDec b
      have d1 := decDigit (encodeChar (b >>> 4)); rw [h1] at d1
      have d2 := decDigit (encodeChar (b &&& 0xF)); rw [h2] at d2
      rcases hc with rfl | rfl | hc
      · exact List.mem_of_getElem? d1.1
      · exact List.mem_of_getElem? d2.1
      · exact ih c hc
  exact this id c hc

/-- C12. Two ids compare equal exactly if all their bytes agree. -/
theorem C12_equal_iff (a b : Bytes) : equal a b = true ↔ a.length = b.length ∧ ∀ i : Nat, a[i]? = b[i]? := by
  unfold equal
  rw [beq_iff_eq]
  exact ⟨fun h => h ▸ ⟨rfl, fun _ => rfl⟩, fun h => List.ext_getElem? h.2⟩

/-! ### the null test -/

theorem isNull_iff (id : Bytes) : isNull id = true ↔ rdLE (id.take 8) = 0 := by
  unfold isNull
  by_cases h : rdLE (id.take 8) = 0 <;> simp [isNullLoop, h]

theorem rdLE_eq_zero : ∀ bs : Bytes, rdLE bs = 0 ↔ ∀ b ∈ bs, b = 0
  | [] => by simp [rdLE]
  | b :: bs => by
    have := rdLE_eq_zero bs
    simp only [rdLE, List.mem_cons, forall_eq_or_imp]
    rw [← this, ← UInt8.toNat_inj]
    simp only [UInt8.toNat_zero]
    omega

/-- C12, what the code decides: an id counts as null exactly if its *first eight* bytes are zero. -/
theorem C12_is_null_first_eight_partial (id : Bytes) : isNull id = true ↔ ∀ b ∈ id.take 8, b = 0 := by
  rw [isNull_iff, rdLE_eq_zero]

/-- C12, the half that holds: the all-zero id counts as null. -/
theorem C12_zero_is_null_partial (id : Bytes) (h : ∀ b ∈ id, b = 0) : isNull id = true :=
  (C12_is_null_first_eight_partial id).2 (fun b hb => h b (List.mem_of_mem_take hb))

/-- C12 is false of the code: there are ids (2^192 - 1 of them) that are not all zero and count as null. -/
theorem C12_violated : ∃ id : Bytes, id.length = 32 ∧ isNull id = true ∧ ∃ b ∈ id, b ≠ 0 :=
  ⟨List.replicate 8 0 ++ List.replicate 24 1, by simp, by decide +kernel, 1, by simp, by decide⟩

/-- C12, the exact set of ids that are misjudged: first eight bytes zero, something else not. -/
theorem C12_misjudged_iff (id : Bytes) :
    ¬ (isNull id = true ↔ ∀ b ∈ id, b = 0) ↔ (∀ b ∈ id.take 8, b = 0) ∧ ∃ b ∈ id.drop 8, b ≠ 0 := by
  rw [C12_is_null_first_eight_partial]
  constructor
  · intro hn
    by_cases h8 : ∀ b ∈ id.take 8, b = 0
    · refine ⟨h8, ?_⟩
      refine Classical.byContradiction fun hd => hn ⟨fun _ b hb => ?_, fun _ => h8⟩
      rw [← List.take_append_drop 8 id, List.mem_append] at hb
      rcases hb with hb | hb
      · exact h8 b hb
      · exact Classical.byContradiction fun hne => hd ⟨b, hb, hne⟩
    · exact absurd ⟨fun hh => absurd hh h8, fun hh => absurd (fun b hb => hh b (List.mem_of_mem_take hb)) h8⟩ hn
  · rintro ⟨h1, b, hb, hne⟩ hiff
    exact hne (hiff.1 h1 b (List.mem_of_mem_drop hb))

/-! ### non-vacuity -/

example : parse (format (List.replicate 31 0xab ++ [0x0f])) = .ok (some (List.replicate 31 0xab ++ [0x0f])) :=
  C11_round_trip _ (by simp)
example : formatPath [] (List.replicate 32 0xab) [46] =
    [97, 98, 97, 98, 47] ++ (List.replicate 32 [97, 98]).flatten ++ [46] := by decide +kernel
/-- upper case digits are refused -/
example : parse (65 :: List.replicate 63 48) = .ok none := by decide +kernel
/-- one digit too many is refused -/
example : parse (List.replicate 65 48) = .ok none := by decide +kernel

end Casync.ChunkId
