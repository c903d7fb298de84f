import Verif.Model.Number
/-! Lemmas on numbers as text. -/
namespace Casync.Number
open Casync

theorem digitVal_digitChar {d : Nat} (h : d < 16) : digitVal (digitChar d) = some d := by
  have : ∀ d : Fin 16, digitVal (digitChar d.val) = some d.val := by decide
  exact this ⟨d, h⟩

theorem digitChar_ne_zero {d : Nat} (h : d < 16) (hz : d ≠ 0) : digitChar d ≠ 48 := by
  have : ∀ d : Fin 16, d.val ≠ 0 → digitChar d.val ≠ 48 := by decide
  exact this ⟨d, h⟩ hz

theorem isDigit_digitChar {base d : Nat} (hb : base ≤ 16) (h : d < base) : isDigit base (digitChar d) = true := by
  simp [isDigit, digitVal_digitChar (d := d) (by omega), h]

theorem fmt_lt {base n : Nat} (h : n < base) : fmt base n = [digitChar n] := by
  rw [fmt, dif_pos (Or.inl h)]

theorem fmt_ge {base n : Nat} (hb : 2 ≤ base) (h : base ≤ n) : fmt base n = fmt base (n / base) ++ [digitChar (n % base)] := by
  rw [fmt, dif_neg (by omega)]

theorem fmt_digits {base : Nat} (hb : 2 ≤ base) (hb' : base ≤ 16) (n : Nat) : ∀ b ∈ fmt base n, isDigit base b = true := by
  induction n using Nat.strongRecOn with
  | ind n ih =>
    by_cases h : n < base
    · rw [fmt_lt h]; intro b hm; simp at hm; subst hm; exact isDigit_digitChar hb' h
    · rw [fmt_ge hb (by omega)]
      intro b hm
      rcases List.mem_append.1 hm with h1 | h1
      · exact ih (n / base) (Nat.div_lt_self (by omega) (by omega)) b h1
      · simp at h1; subst h1; exact isDigit_digitChar hb' (Nat.mod_lt _ (by omega))

theorem fmt_ne_nil (base n : Nat) : fmt base n ≠ [] := by
  rw [fmt]; split <;> simp

theorem digitsVal_snoc (base : Nat) (ds : Bytes) (b : UInt8) :
    digitsVal base (ds ++ [b]) = digitsVal base ds * base + (digitVal b).getD 0 := by
  simp [digitsVal, List.foldl_append]

theorem digitsVal_fmt {base : Nat} (hb : 2 ≤ base) (hb' : base ≤ 16) (n : Nat) : digitsVal base (fmt base n) = n := by
  induction n using Nat.strongRecOn with
  | ind n ih =>
    by_cases h : n < base
    · rw [fmt_lt h]; simp [digitsVal, digitVal_digitChar (d := n) (by omega)]
    · have hm : n % base < base := Nat.mod_lt _ (by omega)
      rw [fmt_ge hb (by omega), digitsVal_snoc, ih (n / base) (Nat.div_lt_self (by omega) (by omega)),
        digitVal_digitChar (by omega)]
      simp only [Option.getD_some]
      rw [Nat.mul_comm]
      exact Nat.div_add_mod n base

theorem fmt_head {base : Nat} (hb : 2 ≤ base) (hb' : base ≤ 16) (n : Nat) (h0 : n ≠ 0) : ∃ b r, fmt base n = b :: r ∧ b ≠ 48 := by
  induction n using Nat.strongRecOn with
  | ind n ih =>
    by_cases h : n < base
    · rw [fmt_lt h]; exact ⟨_, _, rfl, digitChar_ne_zero (by omega) h0⟩
    · rw [fmt_ge hb (by omega)]
      obtain ⟨b, r, h1, h2⟩ := ih (n / base) (Nat.div_lt_self (by omega) (by omega))
        (by have := Nat.div_pos (a := n) (b := base) (by omega) (by omega); omega)
      rw [h1]; exact ⟨b, r ++ _, rfl, h2⟩

theorem takeWhile_all {p : UInt8 → Bool} {l : Bytes} (h : ∀ b ∈ l, p b = true) (r : Bytes) (hr : ∀ b, r.head? = some b → p b = false) :
    (l ++ r).takeWhile p = l ∧ (l ++ r).dropWhile p = r := by
  induction l with
  | nil =>
    cases r with
    | nil => simp
    | cons b r => have := hr b rfl; simp [List.takeWhile, List.dropWhile, this]
  | cons a l ih =>
    have ha := h a (by simp)
    have := ih (fun b hb => h b (by simp [hb]))
    simp [List.takeWhile, List.dropWhile, ha, this]

theorem isDigit_not_space {base : Nat} {b : UInt8} (h : isDigit base b = true) : isSpace b = false ∧ isWs b = false ∧ b ≠ 45 ∧ b ≠ 43 := by
  have key : ∀ n : Fin 256, digitVal (UInt8.ofNat n.val) ≠ none →
      isSpace (UInt8.ofNat n.val) = false ∧ isWs (UInt8.ofNat n.val) = false ∧ UInt8.ofNat n.val ≠ 45 ∧ UInt8.ofNat n.val ≠ 43 := by
    decide +kernel
  have := key ⟨b.toNat, b.toNat_lt⟩
  simp only [UInt8.ofNat_toNat] at this
  apply this
  intro hn
  simp [isDigit, hn] at h

theorem selectBase_fmt {base : Nat} (hb : base = 10 ∨ base = 16) (n : Nat) (want : Nat) (hw : want = base ∨ (want = 0 ∧ base = 10))
    (r : Bytes) (hr : ∀ b, r.head? = some b → b ≠ 120 ∧ b ≠ 88) :
    selectBase want (fmt base n ++ r) = ((if want = 0 ∧ n = 0 then 8 else base), fmt base n ++ r) := by
  have hb2 : 2 ≤ base := by omega
  have hb16 : base ≤ 16 := by omega
  by_cases h0 : n = 0
  · subst h0
    rw [fmt_lt (by omega)]
    have hd : digitChar 0 = 48 := by decide
    rw [hd]
    match r, hr with
    | [], _ =>
      rcases hw with rfl | ⟨rfl, rfl⟩
      · rcases hb with rfl | rfl <;> rfl
      · rfl
    | [x], _ =>
      rcases hw with rfl | ⟨rfl, rfl⟩
      · rcases hb with rfl | rfl <;> rfl
      · rfl
    | x :: d :: r, hr =>
      have := hr x rfl
      have hx : (x == 120 || x == 88) = false := by simp [this]
      rcases hw with rfl | ⟨rfl, rfl⟩
      · rcases hb with rfl | rfl <;> simp [selectBase, hx]
      · simp [selectBase, hx]
  · obtain ⟨b, t, hbt, hne⟩ := fmt_head hb2 hb16 n h0
    rw [hbt]
    have : selectBase want (b :: t ++ r) = if want == 0 then (10, b :: t ++ r) else (want, b :: t ++ r) := by
      simp only [List.cons_append]
      unfold selectBase
      split
      · rename_i heq; injection heq with h1 _; exact absurd h1 hne
      · rename_i heq; injection heq with h1 _; exact absurd h1 hne
      · rfl
    rw [this]
    rcases hw with rfl | ⟨rfl, rfl⟩
    · rw [if_neg (by simp; omega), if_neg (by omega)]
    · simp [h0]

theorem strtoullDigits_fmt {base : Nat} (hb : base = 10 ∨ base = 16) {n : Nat} (hn : n < 2 ^ 64) (want : Nat)
    (hw : want = base ∨ (want = 0 ∧ base = 10)) (r : Bytes) (hr : ∀ b, r.head? = some b → isDigit base b = false ∧ b ≠ 120 ∧ b ≠ 88) :
    strtoullDigits false want (fmt base n ++ r) = some ⟨false, n, r⟩ := by
  have hb2 : 2 ≤ base := by omega
  have hb16 : base ≤ 16 := by omega
  unfold strtoullDigits
  rw [selectBase_fmt hb n want hw r (fun b h => (hr b h).2)]
  simp only
  by_cases h : want = 0 ∧ n = 0
  · rw [if_pos h]
    obtain ⟨rfl, rfl⟩ := h
    have hbase : base = 10 := by omega
    subst hbase
    have hd : fmt 10 0 = [48] := by rw [fmt_lt (by omega)]; decide
    rw [hd]
    have h8 : ∀ b, r.head? = some b → isDigit 8 b = false := by
      intro b hbb
      have h10 := (hr b hbb).1
      unfold isDigit at h10 ⊢
      cases hv : digitVal b with
      | none => rfl
      | some v => rw [hv] at h10; simp at h10 ⊢; omega
    have := takeWhile_all (p := isDigit 8) (l := [48]) (by decide) r h8
    rw [this.1, this.2]
    rfl
  · rw [if_neg h]
    have := takeWhile_all (fmt_digits hb2 hb16 n) r (fun b hbb => (hr b hbb).1)
    rw [this.1, this.2, digitsVal_fmt hb2 hb16]
    have hne := fmt_ne_nil base n
    have hlt : ¬ 2 ^ 64 ≤ n := by omega
    simp only [List.isEmpty_iff, hne, if_false]
    rw [if_neg hlt]
    simp [hlt]

theorem fmt_first {base : Nat} (hb2 : 2 ≤ base) (hb16 : base ≤ 16) (n : Nat) : ∃ b t, fmt base n = b :: t ∧ isDigit base b = true := by
  cases h : fmt base n with
  | nil => exact absurd h (fmt_ne_nil base n)
  | cons b t => exact ⟨b, t, rfl, fmt_digits hb2 hb16 n b (by rw [h]; simp)⟩

theorem strtoull_fmt {base : Nat} (hb : base = 10 ∨ base = 16) {n : Nat} (hn : n < 2 ^ 64) (want : Nat)
    (hw : want = base ∨ (want = 0 ∧ base = 10)) (r : Bytes) (hr : ∀ b, r.head? = some b → isDigit base b = false ∧ b ≠ 120 ∧ b ≠ 88) :
    strtoull want (fmt base n ++ r) = some ⟨false, n, r⟩ := by
  have key := strtoullDigits_fmt hb hn want hw r hr
  obtain ⟨b, t, hbt, hd⟩ := fmt_first (base := base) (by omega) (by omega) n
  have hs := isDigit_not_space hd
  rw [hbt] at key ⊢
  unfold strtoull
  have : (b :: t ++ r).dropWhile isSpace = b :: t ++ r := by simp [List.dropWhile, hs.1]
  rw [this]
  split
  · rename_i heq; cases heq; exact absurd rfl hs.2.2.1
  · rename_i heq; cases heq; exact absurd rfl hs.2.2.2
  · exact key

theorem safeAto_fmt {base : Nat} (hb : base = 10 ∨ base = 16) {n : Nat} (hn : n < 2 ^ 64) (want : Nat)
    (hw : want = base ∨ (want = 0 ∧ base = 10)) : safeAto want (fmt base n) = .ok n := by
  have key := strtoull_fmt hb hn want hw [] (by simp)
  rw [List.append_nil] at key
  obtain ⟨b, t, hbt, hd⟩ := fmt_first (base := base) (by omega) (by omega) n
  have hs := isDigit_not_space hd
  have h1 : (fmt base n).dropWhile isWs = fmt base n := by rw [hbt]; simp [List.dropWhile, hs.2.1]
  unfold safeAto
  simp only [h1, key]
  rw [hbt]
  simp [hs.2.2.1]

theorem atou64_dec {n : Nat} (hn : n < 2 ^ 64) : atou64 (dec n) = .ok n := safeAto_fmt (.inl rfl) hn 0 (.inr ⟨rfl, rfl⟩)
theorem atox64_hex {n : Nat} (hn : n < 2 ^ 64) : atox64 (hex n) = .ok n := safeAto_fmt (.inr rfl) hn 16 (.inl rfl)
theorem atou_dec {n : Nat} (hn : n < 2 ^ 32) : atou (dec n) = .ok n := by
  unfold atou
  rw [show safeAto 0 (dec n) = .ok n from atou64_dec (by omega)]
  simp [hn]

end Casync.Number
