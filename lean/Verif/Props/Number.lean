import Verif.Lemmas.Number
import Verif.Spec.Number
/-!
C44: numbers and sizes given as text are parsed exactly or refused.
-/
namespace Casync.Number
open Casync SizeSpec

/-! ### Round trip of 64 bit numbers -/

/-- **C44**: a 64 bit number written in decimal, or in hexadecimal, is read back; a 32 bit number is read back as 32 bit number, and a
number that does not fit in 32 bit is refused there. -/
theorem C44_number_roundtrip (n : Nat) (hn : n < 2 ^ 64) :
    atou64 (dec n) = .ok n ∧ atox64 (hex n) = .ok n ∧ (n < 2 ^ 32 → atou (dec n) = .ok n) ∧ (2 ^ 32 ≤ n → atou (dec n) = .err .ERANGE) := by
  refine ⟨atou64_dec hn, atox64_hex hn, fun h => atou_dec h, fun h => ?_⟩
  unfold atou
  rw [show safeAto 0 (dec n) = .ok n from atou64_dec hn]
  have : ¬ n < 2 ^ 32 := by omega
  simp only [this, if_false]

example : atou64 (dec 18446744073709551615) = .ok 18446744073709551615 := (C44_number_roundtrip _ (by omega)).1

/-- **C44**: whatever text is accepted, the result fits the type. -/
theorem C44_number_range (s : Bytes) (n : Nat) :
    (atou64 s = .ok n → n < 2 ^ 64) ∧ (atox64 s = .ok n → n < 2 ^ 64) ∧ (atou s = .ok n → n < 2 ^ 32) := by
  have key : ∀ b, safeAto b s = .ok n → n < 2 ^ 64 := by
    intro b h
    have hd : ∀ neg t p, strtoullDigits neg b t = some p → p.value < 2 ^ 64 := by
      intro neg t p hp
      simp only [strtoullDigits] at hp
      split at hp
      · cases hp
      · injection hp with hp
        subst hp
        generalize digitsVal _ _ = v
        show (if 2 ^ 64 ≤ v then u64max else if neg = true then (2 ^ 64 - v) % 2 ^ 64 else v) < 2 ^ 64
        split
        · show u64max < 2 ^ 64; decide
        · split
          · exact Nat.mod_lt _ (by decide)
          · omega
    have hs : ∀ t p, strtoull b t = some p → p.value < 2 ^ 64 := by
      intro t p hp
      unfold strtoull at hp
      split at hp <;> exact hd _ _ _ hp
    unfold safeAto at h
    simp only at h
    split at h
    · cases h
    · rename_i p hp
      repeat' split at h
      all_goals first | cases h; done | (injection h with h; subst h; exact hs _ _ hp)
  refine ⟨key 0, key 16, ?_⟩
  intro h
  unfold atou at h
  split at h
  · split at h
    · injection h with h; subst h; assumption
    · cases h
  · rename_i hx; exact absurd h (hx n)

/-- A minus sign hidden behind a vertical tab is not noticed: the text `"\v-5"` is read as `2^64 - 5`.  (`WHITESPACE` lacks `\v` and
`\f`, which `strtoull()` skips.) -/
theorem C44_number_wrap_violated : atou64 [11, 45, 53] = .ok (2 ^ 64 - 5) := by decide

/-! ### Sizes -/

theorem decimal_of_digits (ds : Bytes) (hne : ds ≠ []) (h : ∀ b ∈ ds, isDigit 10 b = true) : Decimal ds (digitsVal 10 ds) := by
  have hdig : ∀ b : UInt8, isDigit 10 b = true → ∃ d, d < 10 ∧ b = UInt8.ofNat (48 + d) ∧ digitVal b = some d := by
    have key : ∀ n : Fin 256, isDigit 10 (UInt8.ofNat n.val) = true →
        n.val - 48 < 10 ∧ UInt8.ofNat n.val = UInt8.ofNat (48 + (n.val - 48)) ∧ digitVal (UInt8.ofNat n.val) = some (n.val - 48) := by
      decide +kernel
    intro b hb
    have := key ⟨b.toNat, b.toNat_lt⟩
    simp only [UInt8.ofNat_toNat] at this
    exact ⟨_, this hb⟩
  generalize hl : ds.length = k
  induction k generalizing ds with
  | zero => exact absurd (List.length_eq_zero_iff.1 hl) hne
  | succ k ih =>
    rcases List.eq_nil_or_concat ds with h0 | ⟨ini, b, rfl⟩
    · exact absurd h0 hne
    · rw [List.concat_eq_append] at *
      obtain ⟨d, hd, hb, hv⟩ := hdig b (h b (by simp))
      rw [digitsVal_snoc, hv]
      simp only [Option.getD_some]
      rw [hb]
      by_cases hi : ini = []
      · subst hi
        have := Decimal.one d hd
        simpa [digitsVal] using this
      · exact Decimal.snoc ini _ d (ih ini hi (fun b hb => h b (by simp [hb])) (by simp at hl; exact hl)) hd

theorem findUnit_spec (e : Bytes) (start i f : Nat) (sfx : Bytes) (h : findUnit e (units.drop start) start = some (i, sfx, f)) :
    Unit' i sfx f ∧ start ≤ i ∧ ∃ r, e = sfx ++ r := by
  have gen : ∀ us k, findUnit e us k = some (i, sfx, f) → k ≤ i ∧ us[i - k]? = some (sfx, f) ∧ ∃ r, e = sfx ++ r := by
    intro us
    induction us with
    | nil => intro k hk; cases hk
    | cons a us ih =>
      intro k hk
      obtain ⟨s, g⟩ := a
      simp only [findUnit] at hk
      split at hk
      · rename_i hp
        injection hk with hk; injection hk with h1 hk; injection hk with h2 h3
        subst h1 h2 h3
        refine ⟨Nat.le_refl _, by simp, ?_⟩
        obtain ⟨r, hr⟩ := List.isPrefixOf_iff_prefix.1 hp
        exact ⟨r, hr.symm⟩
      · obtain ⟨h1, h2, h3⟩ := ih (k + 1) hk
        refine ⟨by omega, ?_, h3⟩
        have : i - k = (i - (k + 1)) + 1 := by omega
        rw [this]; simpa using h2
  obtain ⟨h1, h2, h3⟩ := gen _ _ h
  refine ⟨?_, h1, h3⟩
  rw [List.getElem?_drop] at h2
  have : start + (i - start) = i := by omega
  rw [this] at h2
  unfold units at h2
  match i, h2 with
  | 0, h2 => cases h2; exact .E
  | 1, h2 => cases h2; exact .P
  | 2, h2 => cases h2; exact .T
  | 3, h2 => cases h2; exact .G
  | 4, h2 => cases h2; exact .M
  | 5, h2 => cases h2; exact .K
  | 6, h2 => cases h2; exact .B
  | 7, h2 => cases h2; exact .none
  | _ + 8, h2 => cases h2

theorem mem_takeWhile {p : UInt8 → Bool} {l : Bytes} : ∀ b ∈ l.takeWhile p, p b = true := by
  induction l with
  | nil => simp
  | cons a l ih =>
    intro b hb
    rw [List.takeWhile_cons] at hb
    split at hb
    · rcases List.mem_cons.1 hb with rfl | h
      · assumption
      · exact ih b h
    · cases hb

theorem blanks_takeWhile (p : Bytes) : Blanks (p.takeWhile isWs) := by
  intro b hb
  have := mem_takeWhile b hb
  simp [isWs] at this
  rcases this with ((h | h) | h) | h <;> simp [h]

theorem head_dropWhile {q : UInt8 → Bool} (p : Bytes) (b : UInt8) (h : (p.dropWhile q).head? = some b) : q b = false := by
  induction p with
  | nil => cases h
  | cons a p ih =>
    rw [List.dropWhile_cons] at h
    split at h
    · exact ih h
    · rename_i hq; simp only [List.head?_cons, Option.some.injEq] at h; subst h; simpa using hq

theorem strtoullDigits10 (s : Bytes) (p : Parsed) (h : strtoullDigits false 10 s = some p) (ho : p.overflow = false) :
    ∃ ds n, Decimal ds n ∧ s = ds ++ p.rest ∧ p.value = n ∧ n < 2 ^ 64 := by
  have hsel : selectBase 10 s = (10, s) := by
    unfold selectBase; split <;> simp
  simp only [strtoullDigits, hsel] at h
  split at h
  · cases h
  · rename_i hne
    injection h with h
    subst h
    simp only [decide_eq_false_iff_not] at ho
    refine ⟨s.takeWhile (isDigit 10), _, decimal_of_digits _ (by simpa using hne) mem_takeWhile, ?_, ?_, by omega⟩
    · simp only; rw [List.takeWhile_append_dropWhile]
    · simp only; rw [if_neg ho]; rfl

/-- A text that uses neither vertical tab nor form feed nor a fraction: no dot is followed by a digit. -/
def Plain (t : Bytes) : Prop := (∀ b ∈ t, b ≠ 11 ∧ b ≠ 12) ∧ ∀ pre d post, d < 10 → t ≠ pre ++ ([46, UInt8.ofNat (48 + d)] ++ post)

theorem Plain.suffix {a b : Bytes} (h : Plain (a ++ b)) : Plain b :=
  ⟨fun c hc => h.1 c (by simp [hc]), fun pre d post hd he => h.2 (a ++ pre) d post hd (by rw [he]; simp [List.append_assoc])⟩

theorem component_spec (p : Bytes) (l : Nat) (ds e : Bytes) (hp : Plain p) (hws : ∀ b, p.head? = some b → isWs b = false)
    (hm : p.head? ≠ some 45) (h : component p = .ok (l, ds, e)) :
    ds = [] ∧ l < 2 ^ 64 ∧ ∃ sgn ns dot, (sgn = [] ∨ sgn = [43]) ∧ Decimal ns l ∧ (dot = [] ∨ dot = [46]) ∧
      p = sgn ++ (ns ++ (dot ++ e)) := by
  have hdrop : p.dropWhile isSpace = p := by
    cases p with
    | nil => rfl
    | cons b p =>
      have h1 := hws b rfl
      have h2 := hp.1 b (by simp)
      have : isSpace b = false := by simp [isSpace, h1, h2]
      simp [List.dropWhile_cons, this]
  unfold component at h
  split at h
  · cases h
  · rename_i pr hpr
    split at h
    · cases h
    · rename_i ho
      have ho' : pr.overflow = false := by simpa using ho
      have hnum : ∃ sgn ns, (sgn = [] ∨ sgn = [43]) ∧ Decimal ns pr.value ∧ p = sgn ++ (ns ++ pr.rest) ∧ pr.value < 2 ^ 64 := by
        unfold strtoull at hpr
        rw [hdrop] at hpr
        split at hpr
        · exact absurd rfl hm
        · obtain ⟨ds, n, h1, h2, h3, h4⟩ := strtoullDigits10 _ _ hpr ho'
          exact ⟨[43], ds, .inr rfl, h3 ▸ h1, by rw [h2]; rfl, h3 ▸ h4⟩
        · obtain ⟨ds, n, h1, h2, h3, h4⟩ := strtoullDigits10 _ _ hpr ho'
          exact ⟨[], ds, .inl rfl, h3 ▸ h1, by rw [← h2]; rfl, h3 ▸ h4⟩
      obtain ⟨sgn, ns, hsgn, hdec, heq, hlt⟩ := hnum
      split at h
      · rename_i e' hrest
        -- a dot
        split at h
        · cases h
        · rename_i ds' r' hf
          injection h with h; injection h with h1 h; injection h with h2 h3
          subst h1 h2 h3
          unfold fracDigits at hf
          simp only at hf
          split at hf
          · cases hf
          · injection hf with hf; injection hf with h4 h5
            have hnil : e'.takeWhile (isDigit 10) = [] := by
              cases e' with
              | nil => rfl
              | cons d post =>
                rw [List.takeWhile_cons]
                split
                · rename_i hd
                  exfalso
                  have key : ∀ n : Fin 256, isDigit 10 (UInt8.ofNat n.val) = true →
                    n.val - 48 < 10 ∧ UInt8.ofNat n.val = UInt8.ofNat (48 + (n.val - 48)) := by decide +kernel
                  have hk := key ⟨d.toNat, d.toNat_lt⟩
                  simp only [UInt8.ofNat_toNat] at hk
                  have hk := hk hd
                  refine hp.2 (sgn ++ ns) _ post hk.1 ?_
                  rw [← hk.2, heq, hrest]
                  simp [List.append_assoc]
                · rfl
            have hdr : e'.dropWhile (isDigit 10) = e' := by
              have := List.takeWhile_append_dropWhile (p := isDigit 10) (l := e')
              rw [hnil] at this; simpa using this
            rw [hnil] at h4
            rw [hdr] at h5
            subst h4 h5
            exact ⟨rfl, hlt, sgn, ns, [46], hsgn, hdec, .inr rfl, by rw [heq, hrest]; rfl⟩
      · injection h with h; injection h with h1 h; injection h with h2 h3
        subst h1 h2 h3
        exact ⟨rfl, hlt, sgn, ns, [], hsgn, hdec, .inl rfl, by rw [heq]; rfl⟩

theorem unit_pos {u f : Nat} {s : Bytes} (h : Unit' u s f) : 0 < f := by cases h <;> decide

theorem parseTurn_spec (fm : Bytes → Nat → Option Nat) (p : Bytes) (start r r' start' : Nat) (p' : Bytes) (hp : Plain p) (hr : r < 2 ^ 64)
    (h : parseTurn fm p start r = .ok (r', start', p')) :
    ∃ w sgn ds dot w' sfx u f n, Blanks w ∧ (sgn = [] ∨ sgn = [43]) ∧ Decimal ds n ∧ (dot = [] ∨ dot = [46]) ∧ Blanks w' ∧
      Unit' u sfx f ∧ start ≤ u ∧ start' = u + 1 ∧ r' = r + n * f ∧ r' < 2 ^ 64 ∧
      p = w ++ (sgn ++ (ds ++ (dot ++ (w' ++ (sfx ++ p'))))) := by
  unfold parseTurn at h
  simp only at h
  split at h
  · cases h
  · rename_i hm
    split at h
    · cases h
    · cases h
    · rename_i l ds e hc
      have hsplit : p = p.takeWhile isWs ++ p.dropWhile isWs := (List.takeWhile_append_dropWhile).symm
      have hp2 : Plain (p.dropWhile isWs) := Plain.suffix (a := p.takeWhile isWs) (by rw [← hsplit]; exact hp)
      obtain ⟨h1, h2, sgn, ns, dot, h3, h4, h5, h6⟩ := component_spec _ l ds e hp2 (fun b hb => head_dropWhile p b hb) hm hc
      subst h1
      split at h
      · cases h
      · rename_i i sfx f hu
        obtain ⟨hu1, hu2, rest, hrest⟩ := findUnit_spec _ _ _ _ _ hu
        have hf := unit_pos hu1
        simp only [if_true, Option.isSome_none, Bool.false_eq_true, if_false, Nat.add_zero, Option.getD_none] at h
        split at h
        · cases h
        · rename_i hle
          have hl : l ≤ u64max / f := by
            have : l % 2 ^ 64 = l := Nat.mod_eq_of_lt h2
            rw [this] at hle; omega
          have hmul : l * f ≤ u64max := (Nat.le_div_iff_mul_le hf).1 hl
          have hmm : l * f % 2 ^ 64 = l * f := Nat.mod_eq_of_lt (Nat.lt_of_le_of_lt hmul (by decide))
          rw [hmm] at h
          split at h
          · cases h
          · rename_i hle2
            injection h with h; injection h with h7 h; injection h with h8 h9
            refine ⟨p.takeWhile isWs, sgn, ns, dot, e.takeWhile isWs, sfx, i, f, l, blanks_takeWhile p, h3, h4, h5, blanks_takeWhile e, hu1,
              hu2, h8.symm, h7.symm, ?_, ?_⟩
            · have : u64max < 2 ^ 64 := by decide
              omega
            · have h10 : e.dropWhile isWs = sfx ++ p' := by
                rw [← h9, hrest]; simp
              rw [← h10, List.takeWhile_append_dropWhile, ← h6, List.takeWhile_append_dropWhile]

theorem parseSizeLoop_spec (fm : Bytes → Nat → Option Nat) : ∀ (fuel : Nat) (p : Bytes) (start r n : Nat), Plain p → r < 2 ^ 64 →
    parseSizeLoop fm fuel p start r = .ok n → ∃ m, Size start p m ∧ n = r + m ∧ n < 2 ^ 64 := by
  intro fuel
  induction fuel with
  | zero => intro p start r n _ _ h; cases h
  | succ fuel ih =>
    intro p start r n hp hr h
    unfold parseSizeLoop at h
    split at h
    · cases h
    · cases h
    · rename_i r' start' p' ht
      obtain ⟨w, sgn, ds, dot, w', sfx, u, f, k, a1, a2, a3, a4, a5, a6, a7, a8, a9, a10, a11⟩ := parseTurn_spec fm p start r r' start' p' hp hr ht
      split at h
      · rename_i hnil
        injection h with h
        subst h hnil
        refine ⟨k * f, ?_, a9, a10⟩
        rw [a11, List.append_nil]
        exact Size.last a1 a2 a3 a4 a5 a6 a7
      · have hp' : Plain p' := by
          have : p = (w ++ (sgn ++ (ds ++ (dot ++ (w' ++ sfx))))) ++ p' := by rw [a11]; simp [List.append_assoc]
          rw [this] at hp; exact hp.suffix
        obtain ⟨m, b1, b2, b3⟩ := ih p' start' r' n hp' a10 h
        refine ⟨k * f + m, ?_, by omega, b3⟩
        rw [a11]
        exact Size.more a1 a2 a3 a4 a5 a6 a7 (a8 ▸ b1)

theorem digitOf_isDigit {base : Nat} (hb : base ≤ 16) (b : UInt8) (h : isDigit base b = true) :
    ∃ d, DigitOf b d ∧ d < base ∧ digitVal b = some d := by
  have key : ∀ n : Fin 256, ∀ v, digitVal (UInt8.ofNat n.val) = some v → v < 16 → (v < 10 ∧ UInt8.ofNat n.val = UInt8.ofNat (48 + v)) ∨
      (10 ≤ v ∧ v < 16 ∧ (UInt8.ofNat n.val = UInt8.ofNat (87 + v) ∨ UInt8.ofNat n.val = UInt8.ofNat (55 + v))) := by
    have h2 : ∀ n : Fin 256, match digitVal (UInt8.ofNat n.val) with
      | none => True
      | some v => v < 16 → (v < 10 ∧ UInt8.ofNat n.val = UInt8.ofNat (48 + v)) ∨
        (10 ≤ v ∧ v < 16 ∧ (UInt8.ofNat n.val = UInt8.ofNat (87 + v) ∨ UInt8.ofNat n.val = UInt8.ofNat (55 + v))) := by
      have h3 : ∀ n : Fin 256, (match digitVal (UInt8.ofNat n.val) with
        | none => true
        | some v => decide (v < 16 → (v < 10 ∧ UInt8.ofNat n.val = UInt8.ofNat (48 + v)) ∨
          (10 ≤ v ∧ v < 16 ∧ (UInt8.ofNat n.val = UInt8.ofNat (87 + v) ∨ UInt8.ofNat n.val = UInt8.ofNat (55 + v))))) = true := by
        decide +kernel
      intro n
      have := h3 n
      cases hv : digitVal (UInt8.ofNat n.val) with
      | none => trivial
      | some v => rw [hv] at this; exact of_decide_eq_true this
    intro n v hv
    have := h2 n
    rw [hv] at this
    exact this
  unfold isDigit at h
  split at h
  · rename_i v hv
    have hlt : v < base := by simpa using h
    have := key ⟨b.toNat, b.toNat_lt⟩ v
    simp only [UInt8.ofNat_toNat] at this
    exact ⟨v, this hv (by omega), hlt, hv⟩
  · cases h

theorem numeral_of_digits {base : Nat} (hb : base ≤ 16) (ds : Bytes) (hne : ds ≠ []) (h : ∀ b ∈ ds, isDigit base b = true) :
    Numeral base ds (digitsVal base ds) := by
  generalize hl : ds.length = k
  induction k generalizing ds with
  | zero => exact absurd (List.length_eq_zero_iff.1 hl) hne
  | succ k ih =>
    rcases List.eq_nil_or_concat ds with h0 | ⟨ini, b, rfl⟩
    · exact absurd h0 hne
    · rw [List.concat_eq_append] at *
      obtain ⟨d, hd, hlt, hv⟩ := digitOf_isDigit hb b (h b (by simp))
      rw [digitsVal_snoc, hv]
      simp only [Option.getD_some]
      by_cases hi : ini = []
      · subst hi
        have := Numeral.one (base := base) b d hd hlt
        simpa [digitsVal] using this
      · exact Numeral.snoc ini _ b d (ih ini hi (fun b hb => h b (by simp [hb])) (by simp at hl; exact hl)) hd hlt

theorem selectBase_cases (want : Nat) (hw : want = 0 ∨ want = 16) (s : Bytes) :
    (∃ x r, s = 48 :: x :: r ∧ (x = 120 ∨ x = 88) ∧ selectBase want s = (16, r)) ∨
    (want = 0 ∧ s.head? = some 48 ∧ selectBase want s = (8, s)) ∨
    (want = 0 ∧ s.head? ≠ some 48 ∧ selectBase want s = (10, s)) ∨
    (want = 16 ∧ selectBase want s = (16, s)) := by
  unfold selectBase
  split
  · rename_i x d r
    by_cases hc : ((x == 120 || x == 88) && (want == 0 || want == 16) && isDigit 16 d) = true
    · rw [if_pos hc]
      left
      refine ⟨x, d :: r, rfl, ?_, rfl⟩
      simp at hc; exact hc.1.1
    · rw [if_neg hc]
      rcases hw with rfl | rfl
      · right; left; simp
      · right; right; right; simp
  · rcases hw with rfl | rfl
    · right; left; simp
    · right; right; right; simp
  · rename_i h1 h2
    rcases hw with rfl | rfl
    · right; right; left
      refine ⟨rfl, ?_, by simp⟩
      intro hh
      cases s with
      | nil => cases hh
      | cons a s => simp at hh; subst hh; exact h2 s rfl
    · right; right; right; simp

theorem strtoullDigits_exact (want : Nat) (hw : want = 0 ∨ want = 16) (s : Bytes) (p : Parsed) (h : strtoullDigits false want s = some p)
    (ho : p.overflow = false) (hr : p.rest = []) :
    (∃ x ds, s = 48 :: x :: ds ∧ (x = 120 ∨ x = 88) ∧ Numeral 16 ds p.value) ∨
    (want = 0 ∧ s.head? = some 48 ∧ Numeral 8 s p.value) ∨
    (want = 0 ∧ s.head? ≠ some 48 ∧ Numeral 10 s p.value) ∨
    (want = 16 ∧ Numeral 16 s p.value) := by
  have gen : ∀ (b : Nat) (t : Bytes), b ≤ 16 → selectBase want s = (b, t) → Numeral b t p.value := by
    intro b t hb hs
    simp only [strtoullDigits, hs] at h
    split at h
    · cases h
    · rename_i hne
      injection h with h
      subst h
      simp only [decide_eq_false_iff_not] at ho
      simp only at hr
      have ht : t.takeWhile (isDigit b) = t := by
        have := List.takeWhile_append_dropWhile (p := isDigit b) (l := t)
        rw [hr, List.append_nil] at this; exact this
      simp only [ht] at ho hne ⊢
      rw [if_neg ho]
      simp only [Bool.false_eq_true, if_false]
      exact numeral_of_digits hb t (by simpa using hne) (by rw [← ht]; exact mem_takeWhile)
  rcases selectBase_cases want hw s with ⟨x, r, h1, h2, h3⟩ | ⟨h1, h2, h3⟩ | ⟨h1, h2, h3⟩ | ⟨h1, h3⟩
  · exact .inl ⟨x, r, h1, h2, gen _ _ (by omega) h3⟩
  · exact .inr (.inl ⟨h1, h2, gen _ _ (by omega) h3⟩)
  · exact .inr (.inr (.inl ⟨h1, h2, gen _ _ (by omega) h3⟩))
  · exact .inr (.inr (.inr ⟨h1, gen _ _ (by omega) h3⟩))

theorem safeAto_exact (want : Nat) (s : Bytes) (n : Nat) (hs : ∀ b ∈ s, b ≠ 11 ∧ b ≠ 12) (h : safeAto want s = .ok n) :
    ∃ w sgn t p, Blanks w ∧ (sgn = [] ∨ sgn = [43]) ∧ s = w ++ (sgn ++ t) ∧ strtoullDigits false want t = some p ∧
      p.overflow = false ∧ p.rest = [] ∧ p.value = n := by
  have hsplit : s = s.takeWhile isWs ++ s.dropWhile isWs := (List.takeWhile_append_dropWhile).symm
  unfold safeAto at h
  simp only at h
  split at h
  · cases h
  rename_i p hp
  split at h
  · cases h
  rename_i ho
  split at h
  · cases h
  rename_i hr
  split at h
  · cases h
  rename_i hm
  injection h with h
  have hdrop : (s.dropWhile isWs).dropWhile isSpace = s.dropWhile isWs := by
    cases hd : s.dropWhile isWs with
    | nil => rfl
    | cons b r =>
      have h1 : isWs b = false := head_dropWhile s b (by rw [hd]; rfl)
      have h2 := hs b (by rw [hsplit, hd]; simp)
      have : isSpace b = false := by simp [isSpace, h1, h2]
      simp [this]
  unfold strtoull at hp
  rw [hdrop] at hp
  split at hp
  · rename_i heq
    exfalso; apply hm; rw [heq]; rfl
  · rename_i r heq
    exact ⟨_, [43], r, p, blanks_takeWhile s, .inr rfl, by rw [heq] at hsplit; exact hsplit, hp, by simpa using ho,
      Classical.not_not.1 hr, h⟩
  · exact ⟨_, [], _, p, blanks_takeWhile s, .inl rfl, hsplit, hp, by simpa using ho, Classical.not_not.1 hr, h⟩

/-- **C44** for numbers: a text without vertical tabs and form feeds that is accepted is a number literal, and its value is delivered (for
the others see `C44_number_wrap_violated`). -/
theorem C44_number_exact_partial (s : Bytes) (n : Nat) (hs : ∀ b ∈ s, b ≠ 11 ∧ b ≠ 12) :
    (atou64 s = .ok n → Literal s n) ∧ (atou s = .ok n → Literal s n ∧ n < 2 ^ 32) ∧ (atox64 s = .ok n → HexLiteral s n) := by
  have h0 : atou64 s = .ok n → Literal s n := by
    intro h
    obtain ⟨w, sgn, t, p, h1, h2, h3, h4, h5, h6, h7⟩ := safeAto_exact 0 s n hs h
    subst h3 h7
    rcases strtoullDigits_exact 0 (.inl rfl) t p h4 h5 h6 with ⟨x, ds, rfl, h8, h9⟩ | ⟨_, h8, h9⟩ | ⟨_, h8, h9⟩ | ⟨h8, _⟩
    · exact .hex h1 h2 h8 h9
    · exact .oct h1 h2 h9 h8
    · exact .dec h1 h2 h9 h8
    · omega
  refine ⟨h0, ?_, ?_⟩
  · intro h
    have hr := (C44_number_range s n).2.2 h
    refine ⟨h0 ?_, hr⟩
    unfold atou at h
    split at h
    · rename_i v hv
      split at h
      · injection h with h; subst h; exact hv
      · cases h
    · rename_i hx; exact absurd h (hx n)
  · intro h
    obtain ⟨w, sgn, t, p, h1, h2, h3, h4, h5, h6, h7⟩ := safeAto_exact 16 s n hs h
    subst h3 h7
    rcases strtoullDigits_exact 16 (.inr rfl) t p h4 h5 h6 with ⟨x, ds, rfl, h8, h9⟩ | ⟨h8, _⟩ | ⟨h8, _⟩ | ⟨_, h9⟩
    · exact .prefixed h1 h2 h8 h9
    · omega
    · omega
    · exact .plain h1 h2 h9

/-- `" +0x1F"` is 31 -/
example : atou64 [32, 43, 48, 120, 49, 70] = .ok 31 := by decide

/-- C44 for sizes without a fraction: whatever `parse_size()` accepts, it delivers exactly the number of bytes the text denotes, and
that number fits in 64 bit.  Missing from the full property: texts with a fraction (`1.5K`) and with vertical tabs or form feeds, for
which it is false, see `C44_size_wrap_violated` and `C44_size_minus_violated`. -/
theorem C44_size_exact_partial (fm : Bytes → Nat → Option Nat) (t : Bytes) (n : Nat) (ht : Plain t) (h : parseSize fm t = .ok n) :
    Size 0 t n ∧ n < 2 ^ 64 := by
  obtain ⟨m, h1, h2, h3⟩ := parseSizeLoop_spec fm 9 t 0 0 n ht (by decide) h
  have : n = m := by omega
  exact ⟨this ▸ h1, h3⟩

/-- `"1G 512M"` -/
example : parseSize (fun _ _ => none) [49, 71, 32, 53, 49, 50, 77] = .ok (3 * 2 ^ 29) := by decide

/-- **C44**: a number and a unit are accepted exactly when the product fits in 64 bit, and the product is delivered. -/
theorem C44_size_unit (fm : Bytes → Nat → Option Nat) (n u f : Nat) (hn : n < 2 ^ 64) (sfx : Bytes) (hu : Unit' u sfx f) :
    parseSize fm (dec n ++ sfx) = if n * f < 2 ^ 64 then .ok (n * f) else .err .ERANGE := by
  have hsfx : ∀ b, sfx.head? = some b → isDigit 10 b = false ∧ b ≠ 120 ∧ b ≠ 88 := by
    cases hu <;> simp <;> decide
  have hst := strtoull_fmt (.inl rfl) hn 10 (.inl rfl) sfx hsfx
  obtain ⟨b, t, hbt, hd⟩ := fmt_first (base := 10) (by omega) (by omega) n
  have hs := isDigit_not_space hd
  have hdw : (dec n ++ sfx).dropWhile isWs = dec n ++ sfx := by
    show (fmt 10 n ++ sfx).dropWhile isWs = fmt 10 n ++ sfx
    rw [hbt]; simp [hs.2.1]
  have hh : (dec n ++ sfx).head? ≠ some 45 := by
    show (fmt 10 n ++ sfx).head? ≠ some 45
    rw [hbt]; simp [hs.2.2.1]
  have hcomp : component (dec n ++ sfx) = .ok (n, [], sfx) := by
    unfold component
    have : strtoull 10 (dec n ++ sfx) = some ⟨false, n, sfx⟩ := hst
    rw [this]
    cases hu <;> rfl
  have hws : sfx.dropWhile isWs = sfx := by cases hu <;> decide
  have hfu : findUnit sfx units 0 = some (u, sfx, f) := by cases hu <;> decide
  have hf := unit_pos hu
  have hturn : parseTurn fm (dec n ++ sfx) 0 0 = if n * f < 2 ^ 64 then .ok (n * f, u + 1, []) else .err .ERANGE := by
    unfold parseTurn
    simp only [hdw, hh, if_false, hcomp, hws, List.drop_zero, hfu, if_true, Option.isSome_none, Bool.false_eq_true, Nat.add_zero,
      Option.getD_none]
    rw [Nat.mod_eq_of_lt hn]
    by_cases hlt : n * f < 2 ^ 64
    · have h1 : ¬ n > u64max / f := by
        have : n ≤ u64max / f := (Nat.le_div_iff_mul_le hf).2 (by have : u64max = 2 ^ 64 - 1 := by decide
                                                                  omega)
        omega
      have h2 : ¬ n * f > u64max - 0 := by
        have : u64max = 2 ^ 64 - 1 := by decide
        omega
      rw [if_neg h1, Nat.mod_eq_of_lt hlt, if_neg h2, if_pos hlt]
      simp
    · have h1 : n > u64max / f := by
        apply Nat.lt_of_not_le
        intro hle
        have := (Nat.le_div_iff_mul_le hf).1 hle
        have : u64max = 2 ^ 64 - 1 := by decide
        omega
      rw [if_pos h1, if_neg hlt]
  unfold parseSize parseSizeLoop
  rw [hturn]
  by_cases hlt : n * f < 2 ^ 64
  · simp only [hlt, if_true]
  · simp only [hlt, if_false]

example : parseSize (fun _ _ => none) (dec 16 ++ [77]) = .ok (2 ^ 24) := C44_size_unit _ 16 4 (2 ^ 20) (by omega) [77] .M
example : parseSize (fun _ _ => none) (dec 16 ++ [69]) = .err .ERANGE := C44_size_unit _ 16 0 (2 ^ 60) (by omega) [69] .E

/-- Finding: the overflow check of `parse_size()` overflows itself.  `18446744073709551615.5K` is accepted although it denotes about
`2^74` bytes, and a wrapped value is delivered; `fm` only has to compute `0.5 * 1024 = 512`. -/
theorem C44_size_wrap_violated (fm : Bytes → Nat → Option Nat) (hfm : fm [53] 1024 = some 512) :
    parseSize fm (dec 18446744073709551615 ++ [46, 53, 75]) = .ok (2 ^ 64 - 512) := by
  have hst := strtoull_fmt (base := 10) (.inl rfl) (n := 18446744073709551615) (by decide) 10 (.inl rfl) [46, 53, 75] (by simp; decide)
  obtain ⟨b, t, hbt, hd⟩ := fmt_first (base := 10) (by omega) (by omega) 18446744073709551615
  have hs := isDigit_not_space hd
  have hdw : (dec 18446744073709551615 ++ [46, 53, 75]).dropWhile isWs = dec 18446744073709551615 ++ [46, 53, 75] := by
    show (fmt 10 18446744073709551615 ++ [46, 53, 75]).dropWhile isWs = fmt 10 18446744073709551615 ++ [46, 53, 75]
    rw [hbt]; simp [hs.2.1]
  have hh : (dec 18446744073709551615 ++ [46, 53, 75]).head? ≠ some 45 := by
    show (fmt 10 18446744073709551615 ++ [46, 53, 75]).head? ≠ some 45
    rw [hbt]; simp [hs.2.2.1]
  have hcomp : component (dec 18446744073709551615 ++ [46, 53, 75]) = .ok (18446744073709551615, [53], [75]) := by
    unfold component
    have : strtoull 10 (dec 18446744073709551615 ++ [46, 53, 75]) = some ⟨false, 18446744073709551615, [46, 53, 75]⟩ := hst
    rw [this]
    decide
  have hfu : findUnit [75] units 0 = some (5, [75], 1024) := by decide
  have hws : ([75] : Bytes).dropWhile isWs = [75] := by decide
  unfold parseSize parseSizeLoop
  have hturn : parseTurn fm (dec 18446744073709551615 ++ [46, 53, 75]) 0 0 = .ok (2 ^ 64 - 512, 6, []) := by
    unfold parseTurn
    simp only [hdw, hh, if_false, hcomp, hws, List.drop_zero, hfu]
    rw [if_neg (by simp : ¬ ([53] : Bytes) = []), hfm]
    decide
  rw [hturn]
  rfl

/-- Finding: a negative size hidden behind a vertical tab is accepted as a huge one. -/
theorem C44_size_minus_violated (fm : Bytes → Nat → Option Nat) : parseSize fm [11, 45, 49] = .ok (2 ^ 64 - 1) := by
  have hturn : parseTurn fm [11, 45, 49] 0 0 = .ok (2 ^ 64 - 1, 8, []) := by
    have hcomp : component [11, 45, 49] = .ok (2 ^ 64 - 1, [], []) := by decide
    have hfu : findUnit [] units 0 = some (7, [], 1) := by decide
    unfold parseTurn
    have hdw : ([11, 45, 49] : Bytes).dropWhile isWs = [11, 45, 49] := by decide
    simp only [hdw, hcomp, List.dropWhile_nil, List.drop_zero, hfu, if_true]
    decide
  unfold parseSize parseSizeLoop
  rw [hturn]
  rfl

end Casync.Number
