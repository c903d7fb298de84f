import Verif.Spec.Listing
import Verif.Spec.Archive
import Verif.Lemmas.Number
import Verif.Lemmas.Meta
import Verif.Props.ChunkId
/-!
C59: listings tell what is in the archive.
-/
namespace Casync.Listing
open Casync Flags Archive

/-! ### Escaping -/

theorem escapeByte_cases (b : UInt8) : (escapeByte b = [b] ∧ b ≠ 92 ∧ Plain b) ∨
    ∃ x y z, escapeByte b = [92, x, y, z] ∧ UInt8.ofNat (octal x * 64 + octal y * 8 + octal z) = b ∧ Plain x ∧ Plain y ∧ Plain z := by
  unfold escapeByte
  split
  · refine .inr ⟨_, _, _, rfl, ?_⟩
    have : ∀ n : Fin 256, UInt8.ofNat (octal (octchar ((UInt8.ofNat n.1).toNat / 64)) * 64 + octal (octchar ((UInt8.ofNat n.1).toNat / 8 % 8)) * 8 +
        octal (octchar ((UInt8.ofNat n.1).toNat % 8))) = UInt8.ofNat n.1 := by decide +kernel
    have h1 := this ⟨b.toNat, b.toNat_lt⟩
    simp only [UInt8.ofNat_toNat] at h1
    have pl : ∀ n, Plain (octchar n) := by
      intro n
      have h8 : n % 8 < 8 := Nat.mod_lt _ (by omega)
      unfold octchar Plain
      have : ∀ k : Fin 8, (32 : UInt8) < UInt8.ofNat (48 + k.1) ∧ UInt8.ofNat (48 + k.1) < 127 ∧ UInt8.ofNat (48 + k.1) ≠ 35 := by decide +kernel
      exact this ⟨n % 8, h8⟩
    exact ⟨h1, pl _, pl _, pl _⟩
  · rename_i h
    refine .inl ⟨rfl, fun hb => h (.inr (.inr (.inl hb))), ?_, ?_, fun hb => h (.inr (.inr (.inr hb)))⟩
    · exact UInt8.not_le.1 fun hb => h (.inl hb)
    · exact UInt8.not_le.1 fun hb => h (.inr (.inl hb))

/-- **C59.** What is printed for a name, target or owner is plain text from which it can be read back. -/
theorem C59_escape_back (p : Bytes) : unescape (escape p) = p := by
  induction p with
  | nil => rfl
  | cons b p ih =>
    unfold escape at ih ⊢
    rw [List.flatMap_cons]
    rcases escapeByte_cases b with ⟨h, hb, _⟩ | ⟨x, y, z, h, hv, _⟩
    · rw [h]
      rw [List.cons_append, List.nil_append, unescape.eq_def]
      simp only
      rw [if_neg hb, ih]
    · rw [h]
      rw [List.cons_append, List.cons_append, List.cons_append, List.cons_append, List.nil_append, unescape, if_pos rfl]
      rw [hv, ih]

theorem C59_escape_plain (p : Bytes) : ∀ b ∈ escape p, Plain b := by
  intro b hb
  unfold escape at hb
  obtain ⟨a, _, hb⟩ := List.mem_flatMap.1 hb
  rcases escapeByte_cases a with ⟨h, _, hp⟩ | ⟨x, y, z, h, _, hx, hy, hz⟩
  · rw [h, List.mem_singleton] at hb; rw [hb]; exact hp
  · rw [h] at hb
    simp only [List.mem_cons, List.mem_nil_iff, or_false] at hb
    rcases hb with hb | hb | hb | hb
    · rw [hb]; exact ⟨by decide, by decide, by decide⟩
    · rw [hb]; exact hx
    · rw [hb]; exact hy
    · rw [hb]; exact hz

theorem escape_inj {p q : Bytes} (h : escape p = escape q) : p = q := by rw [← C59_escape_back p, h, C59_escape_back]

theorem emptyToDot_inj {p q : Bytes} (hp : p ≠ [46]) (hq : q ≠ [46]) (h : emptyToDot (escape p) = emptyToDot (escape q)) : p = q := by
  have dot : ∀ {p}, escape p = [46] → p = [46] := by
    intro p h
    apply escape_inj
    rw [h]; rfl
  unfold emptyToDot at h
  split at h
  · rename_i h1
    split at h
    · rename_i h2; exact escape_inj (h1.trans h2.symm)
    · exact absurd (dot h.symm) hq
  · split at h
    · exact absurd (dot h) hp
    · exact escape_inj h

/-! ### Cutting text -/

/-- Text without these bytes in front of one of them. -/
theorem cut {S : UInt8 → Prop} : ∀ {a a' : Bytes} {c c' : UInt8} {r r' : Bytes}, (∀ b ∈ a, ¬S b) → (∀ b ∈ a', ¬S b) → S c → S c' →
    a ++ c :: r = a' ++ c' :: r' → a = a' ∧ c = c' ∧ r = r' := by
  intro a
  induction a with
  | nil =>
    intro a' c c' r r' _ h' hc _ h
    cases a' with
    | nil => injection h with h1 h2; exact ⟨rfl, h1, h2⟩
    | cons x a' =>
      injection h with h1 h2
      exact absurd (h1 ▸ hc) (h' x List.mem_cons_self)
  | cons x a ih =>
    intro a' c c' r r' h1 h' hc hc' h
    cases a' with
    | nil =>
      injection h with h2 _
      exact absurd (h2 ▸ hc') (h1 x List.mem_cons_self)
    | cons y a' =>
      injection h with h2 h3
      obtain ⟨k1, k2, k3⟩ := ih (fun b hb => h1 b (List.mem_cons_of_mem _ hb)) (fun b hb => h' b (List.mem_cons_of_mem _ hb)) hc hc' h3
      exact ⟨by rw [h2, k1], k2, k3⟩

/-- A blank or the end of a line. -/
def Sep (b : UInt8) : Prop := b = 32 ∨ b = 10

theorem Plain.notSep {b : UInt8} (h : Plain b) : ¬Sep b := by
  rintro (h' | h') <;> subst h'
  · exact absurd h.1 (by decide)
  · exact absurd h.1 (by decide)

/-- The words of fields. -/
def wordList : List (Bytes × Option Bytes) → List Bytes
  | [] => []
  | (_, none) :: r => wordList r
  | (k, some v) :: r => (k ++ 61 :: v) :: wordList r

theorem words_eq (l : List (Bytes × Option Bytes)) : words l = (wordList l).flatMap (fun w => 32 :: w) := by
  induction l with
  | nil => rfl
  | cons x l ih =>
    obtain ⟨k, v⟩ := x
    cases v with
    | none => exact ih
    | some v => show 32 :: (k ++ 61 :: v) ++ words l = _; rw [wordList, List.flatMap_cons, ih]

/-- Lines can be told apart. -/
theorem line_cut : ∀ {ws ws' : List Bytes} {a a' r r' : Bytes}, (∀ b ∈ a, Plain b) → (∀ b ∈ a', Plain b) → (∀ w ∈ ws, ∀ b ∈ w, Plain b) →
    (∀ w ∈ ws', ∀ b ∈ w, Plain b) → a ++ (ws.flatMap (fun w => 32 :: w) ++ 10 :: r) = a' ++ (ws'.flatMap (fun w => 32 :: w) ++ 10 :: r') →
    a = a' ∧ ws = ws' ∧ r = r' := by
  intro ws
  induction ws with
  | nil =>
    intro ws' a a' r r' h1 h2 _ h4 h
    cases ws' with
    | nil =>
      obtain ⟨k1, _, k3⟩ := cut (S := Sep) (fun b hb => (h1 b hb).notSep) (fun b hb => (h2 b hb).notSep) (.inr rfl) (.inr rfl) h
      exact ⟨k1, rfl, k3⟩
    | cons w ws' =>
      rw [List.flatMap_cons, List.cons_append, List.cons_append] at h
      obtain ⟨_, k2, _⟩ := cut (S := Sep) (fun b hb => (h1 b hb).notSep) (fun b hb => (h2 b hb).notSep) (.inr rfl) (.inl rfl) h
      exact absurd k2 (by decide)
  | cons w ws ih =>
    intro ws' a a' r r' h1 h2 h3 h4 h
    cases ws' with
    | nil =>
      rw [List.flatMap_cons, List.cons_append, List.cons_append] at h
      obtain ⟨_, k2, _⟩ := cut (S := Sep) (fun b hb => (h1 b hb).notSep) (fun b hb => (h2 b hb).notSep) (.inl rfl) (.inr rfl) h
      exact absurd k2 (by decide)
    | cons w' ws' =>
      rw [List.flatMap_cons, List.flatMap_cons, List.cons_append, List.cons_append, List.cons_append, List.cons_append] at h
      obtain ⟨k1, _, k3⟩ := cut (S := Sep) (fun b hb => (h1 b hb).notSep) (fun b hb => (h2 b hb).notSep) (.inl rfl) (.inl rfl) h
      rw [List.append_assoc, List.append_assoc] at k3
      obtain ⟨m1, m2, m3⟩ := ih (h3 w List.mem_cons_self) (h4 w' List.mem_cons_self) (fun x hx => h3 x (List.mem_cons_of_mem _ hx))
        (fun x hx => h4 x (List.mem_cons_of_mem _ hx)) k3
      exact ⟨k1, by rw [m1, m2], m3⟩

theorem word_cut {k k' v v' : Bytes} (hk : 61 ∉ k) (hk' : 61 ∉ k') (h : k ++ 61 :: v = k' ++ 61 :: v') : k = k' ∧ v = v' := by
  obtain ⟨h1, _, h2⟩ := cut (S := fun b => b = 61) (fun b hb e => hk (e ▸ hb)) (fun b hb e => hk' (e ▸ hb)) rfl rfl h
  exact ⟨h1, h2⟩

theorem wordList_mem {l : List (Bytes × Option Bytes)} {w : Bytes} (h : w ∈ wordList l) : ∃ k v, (k, some v) ∈ l ∧ w = k ++ 61 :: v := by
  induction l with
  | nil => cases h
  | cons x l ih =>
    obtain ⟨k, v⟩ := x
    cases v with
    | none => obtain ⟨k', v', h1, h2⟩ := ih h; exact ⟨k', v', List.mem_cons_of_mem _ h1, h2⟩
    | some v =>
      rw [wordList] at h
      rcases List.mem_cons.1 h with h | h
      · exact ⟨k, v, List.mem_cons_self, h⟩
      · obtain ⟨k', v', h1, h2⟩ := ih h; exact ⟨k', v', List.mem_cons_of_mem _ h1, h2⟩

/-- The words tell the fields. -/
theorem fields_cut : ∀ {l l' : List (Bytes × Option Bytes)}, l.map (·.1) = l'.map (·.1) → (l.map (·.1)).Nodup → (∀ x ∈ l, (61 : UInt8) ∉ x.1) →
    wordList l = wordList l' → l = l' := by
  intro l
  induction l with
  | nil => intro l' h _ _ _; cases l' with | nil => rfl | cons x l' => cases h
  | cons x l ih =>
    intro l' h hn hk hw
    cases l' with
    | nil => cases h
    | cons x' l' =>
      obtain ⟨k, v⟩ := x
      obtain ⟨k', v'⟩ := x'
      rw [List.map_cons, List.map_cons] at h
      injection h with hkk hl
      simp only at hkk
      subst hkk
      rw [List.map_cons, List.nodup_cons] at hn
      have hk0 := hk _ List.mem_cons_self
      have hkr := fun x hx => hk x (List.mem_cons_of_mem _ hx)
      have absent : ∀ {v : Bytes} {m : List (Bytes × Option Bytes)}, m.map (·.1) = l.map (·.1) → (k ++ 61 :: v) ∈ wordList m → False := by
        intro v m hm hmem
        obtain ⟨k2, v2, h1, h2⟩ := wordList_mem hmem
        have hin : k2 ∈ l.map (·.1) := by rw [← hm]; exact List.mem_map_of_mem (f := (·.1)) h1
        obtain ⟨y, hy, hy2⟩ := List.mem_map.1 hin
        have := word_cut hk0 (hy2 ▸ hkr y hy) h2
        exact hn.1 (this.1 ▸ hin)
      cases v with
      | none =>
        cases v' with
        | none => rw [ih hl hn.2 hkr hw]
        | some v' => exact absurd (hw ▸ List.mem_cons_self : (k ++ 61 :: v') ∈ wordList ((k, none) :: l)) (fun h => absent rfl h)
      | some v =>
        cases v' with
        | none => exact absurd (hw ▸ List.mem_cons_self : (k ++ 61 :: v) ∈ wordList ((k, none) :: l')) (fun h => absent hl.symm h)
        | some v' =>
          rw [wordList, wordList] at hw
          injection hw with h1 h2
          rw [(word_cut hk0 hk0 h1).2, ih hl hn.2 hkr h2]

/-! ### Values -/

theorem dec_inj {n m : Nat} (h : Number.dec n = Number.dec m) : n = m := by
  have h1 := Number.digitsVal_fmt (base := 10) (by omega) (by omega) n
  have h2 := Number.digitsVal_fmt (base := 10) (by omega) (by omega) m
  unfold Number.dec at h
  rw [h] at h1
  exact h1.symm.trans h2

theorem digit_range {b : UInt8} (h : Number.isDigit 10 b = true) : 48 ≤ b ∧ b ≤ 57 := by
  have : ∀ n : Fin 256, Number.isDigit 10 (UInt8.ofNat n.1) = true → 48 ≤ UInt8.ofNat n.1 ∧ UInt8.ofNat n.1 ≤ 57 := by decide +kernel
  have h1 := this ⟨b.toNat, b.toNat_lt⟩
  simp only [UInt8.ofNat_toNat] at h1
  exact h1 h

theorem dec_digits (n : Nat) : ∀ b ∈ Number.dec n, 48 ≤ b ∧ b ≤ 57 :=
  fun b hb => digit_range (Number.fmt_digits (base := 10) (by omega) (by omega) n b hb)

theorem digits_plain {b : UInt8} (h : 48 ≤ b ∧ b ≤ 57) : Plain b ∧ b ≠ 44 ∧ b ≠ 46 ∧ b ≠ 61 := by
  have : ∀ n : Fin 256, (48 ≤ UInt8.ofNat n.1 ∧ UInt8.ofNat n.1 ≤ 57) → (32 < UInt8.ofNat n.1 ∧ UInt8.ofNat n.1 < 127 ∧ UInt8.ofNat n.1 ≠ 35) ∧
    UInt8.ofNat n.1 ≠ 44 ∧ UInt8.ofNat n.1 ≠ 46 ∧ UInt8.ofNat n.1 ≠ 61 := by decide +kernel
  have h1 := this ⟨b.toNat, b.toNat_lt⟩
  simp only [UInt8.ofNat_toNat] at h1
  exact h1 h

theorem dec_plain (n : Nat) : ∀ b ∈ Number.dec n, Plain b := fun b hb => (digits_plain (dec_digits n b hb)).1

theorem octchar_val (n : Nat) : (octchar n).toNat = 48 + n % 8 := by
  unfold octchar
  rw [UInt8.toNat_ofNat']
  have : n % 8 < 8 := Nat.mod_lt _ (by omega)
  omega

theorem octchar_plain (n : Nat) : Plain (octchar n) := by
  have h := octchar_val n
  have : n % 8 < 8 := Nat.mod_lt _ (by omega)
  refine ⟨UInt8.lt_iff_toNat_lt.2 ?_, UInt8.lt_iff_toNat_lt.2 ?_, fun hh => ?_⟩
  · rw [h]; show 32 < _; omega
  · rw [h]; show _ < 127; omega
  · rw [hh] at h; have : (35 : UInt8).toNat = 35 := rfl; omega

theorem octal4_inj {n m : Nat} (hn : n < 4096) (hm : m < 4096) (h : octal4 n = octal4 m) : n = m := by
  unfold octal4 at h
  injection h with h1 h
  injection h with h2 h
  injection h with h3 h
  injection h with h4 _
  have k1 := congrArg UInt8.toNat h1
  have k2 := congrArg UInt8.toNat h2
  have k3 := congrArg UInt8.toNat h3
  have k4 := congrArg UInt8.toNat h4
  rw [octchar_val, octchar_val] at k1 k2 k3 k4
  omega

theorem digitsVal_zeros (k : Nat) (l : Bytes) : Number.digitsVal 10 (List.replicate k 48 ++ l) = Number.digitsVal 10 l := by
  induction k with
  | zero => rfl
  | succ k ih =>
    rw [List.replicate_succ, List.cons_append]
    exact ih

theorem pad9_inj {n m : Nat} (h : pad9 n = pad9 m) : n = m := by
  have h1 := congrArg (Number.digitsVal 10) h
  unfold pad9 at h1
  rw [digitsVal_zeros, digitsVal_zeros] at h1
  unfold Number.dec at h1
  rw [Number.digitsVal_fmt (by omega) (by omega), Number.digitsVal_fmt (by omega) (by omega)] at h1
  exact h1

theorem pad9_plain (n : Nat) : ∀ b ∈ pad9 n, Plain b := by
  intro b hb
  unfold pad9 at hb
  rcases List.mem_append.1 hb with hb | hb
  · rw [(List.mem_replicate.1 hb).2]; exact ⟨by decide, by decide, by decide⟩
  · exact dec_plain _ b hb

theorem sep_inj {c : UInt8} : ∀ {l l' : List Bytes}, (∀ w ∈ l, c ∉ w) → (∀ w ∈ l', c ∉ w) → (∀ w ∈ l, w ≠ []) → (∀ w ∈ l', w ≠ []) → sepBy c l = sepBy c l' →
    l = l' := by
  have one : ∀ {a b : Bytes} {r : List Bytes} {d : Bytes}, c ∉ d → sepBy c (a :: b :: r) = d → False := by
    intro a b r d hd h
    rw [sepBy] at h
    exact hd (h ▸ by simp)
  intro l
  induction l with
  | nil =>
    intro l' _ _ _ h4 h
    cases l' with
    | nil => rfl
    | cons a r =>
      cases r with
      | nil => exact absurd h.symm (h4 a (by simp))
      | cons b r => rw [sepBy, sepBy] at h; exact absurd h.symm (by simp)
  | cons a r ih =>
    intro l' h1 h2 h3 h4 h
    cases l' with
    | nil =>
      cases r with
      | nil => exact absurd h (h3 a (by simp))
      | cons b r => rw [sepBy, sepBy] at h; exact absurd h (by simp)
    | cons a' r' =>
      cases r with
      | nil =>
        cases r' with
        | nil => rw [sepBy, sepBy] at h; rw [h]
        | cons b' r' => exact (one (h1 a List.mem_cons_self) h.symm).elim
      | cons b r =>
        cases r' with
        | nil => exact (one (h2 a' List.mem_cons_self) h).elim
        | cons b' r' =>
          rw [sepBy, sepBy] at h
          obtain ⟨k1, _, k3⟩ := cut (S := fun x => x = c) (fun x hx e => h1 a List.mem_cons_self (e ▸ hx)) (fun x hx e => h2 a' List.mem_cons_self (e ▸ hx))
            rfl rfl h
          rw [k1, ih (fun w hw => h1 w (List.mem_cons_of_mem _ hw)) (fun w hw => h2 w (List.mem_cons_of_mem _ hw))
            (fun w hw => h3 w (List.mem_cons_of_mem _ hw)) (fun w hw => h4 w (List.mem_cons_of_mem _ hw)) k3]

/-- All the flags that can be shown. -/
def allFlags : List (Bytes × Bool) := flagTable.flatMap fun x => [(x.2, false), (x.2, true)]

theorem shown_mem (f : Facts) : ∀ x ∈ shownFlags f, x ∈ allFlags := by
  intro x hx
  unfold shownFlags at hx
  obtain ⟨y, hy, rfl⟩ := List.mem_map.1 hx
  have := (List.mem_filter.1 hy).1
  unfold allFlags
  refine List.mem_flatMap.2 ⟨y, this, ?_⟩
  cases flagSet f y.1 <;> simp

theorem flagText_inj : ∀ x ∈ allFlags, ∀ y ∈ allFlags, flagText x = flagText y → x = y := by decide +kernel
theorem flagText_ok : ∀ x ∈ allFlags, flagText x ≠ [] ∧ 44 ∉ flagText x ∧ ∀ b ∈ flagText x, 32 < b ∧ b < 127 ∧ b ≠ 35 := by decide +kernel

theorem map_inj_on {α β : Type} {f : α → β} : ∀ {l l' : List α}, (∀ x ∈ l, ∀ y ∈ l', f x = f y → x = y) → l.map f = l'.map f → l = l' := by
  intro l
  induction l with
  | nil => intro l' _ h; cases l' with | nil => rfl | cons _ _ => cases h
  | cons x l ih =>
    intro l' hi h
    cases l' with
    | nil => cases h
    | cons y l' =>
      rw [List.map_cons, List.map_cons] at h
      injection h with h1 h2
      rw [hi x List.mem_cons_self y List.mem_cons_self h1, ih (fun a ha b hb => hi a (List.mem_cons_of_mem _ ha) b (List.mem_cons_of_mem _ hb)) h2]

theorem flags_inj {f g : Facts} (h : sepBy 44 ((shownFlags f).map flagText) = sepBy 44 ((shownFlags g).map flagText)) : shownFlags f = shownFlags g := by
  have ok : ∀ (f : Facts), ∀ w ∈ (shownFlags f).map flagText, w ≠ [] ∧ 44 ∉ w := by
    intro f w hw
    obtain ⟨x, hx, rfl⟩ := List.mem_map.1 hw
    have := flagText_ok x (shown_mem f x hx)
    exact ⟨this.1, this.2.1⟩
  have := sep_inj (fun w hw => (ok f w hw).2) (fun w hw => (ok g w hw).2) (fun w hw => (ok f w hw).1) (fun w hw => (ok g w hw).1) h
  exact map_inj_on (fun x hx y hy => flagText_inj x (shown_mem f x hx) y (shown_mem g y hy)) this

theorem sepBy_plain {l : List Bytes} (h : ∀ w ∈ l, ∀ b ∈ w, Plain b) : ∀ b ∈ sepBy 44 l, Plain b := by
  induction l with
  | nil => intro b hb; cases hb
  | cons a r ih =>
    cases r with
    | nil => exact h a List.mem_cons_self
    | cons b r =>
      intro x hx
      rw [sepBy] at hx
      rcases List.mem_append.1 hx with hx | hx
      · exact h a List.mem_cons_self x hx
      · rcases List.mem_cons.1 hx with hx | hx
        · rw [hx]; exact ⟨by decide, by decide, by decide⟩
        · exact ih (fun w hw => h w (List.mem_cons_of_mem _ hw)) x hx

theorem type_inj {m m' : Word} (hm : typeWord m = typeWord m') (h : isType m ifLnk ∨ isType m ifDir ∨ isType m ifReg ∨ isType m ifSock ∨ isType m ifChr ∨ isType m ifBlk ∨
    isType m ifFifo) (h' : isType m' ifLnk ∨ isType m' ifDir ∨ isType m' ifReg ∨ isType m' ifSock ∨ isType m' ifChr ∨ isType m' ifBlk ∨ isType m' ifFifo) :
    m &&& ifmt = m' &&& ifmt := by
  unfold typeWord at hm
  simp only [isType, beq_iff_eq] at hm h h'
  rcases h with h | h | h | h | h | h | h <;> rcases h' with h' | h' | h' | h' | h' | h' | h' <;> rw [h, h'] at hm ⊢ <;> revert hm <;> decide

theorem type_plain (m : Word) : ∀ w, typeWord m = some w → ∀ b ∈ w, 32 < b ∧ b < 127 ∧ b ≠ 35 := by
  intro w h
  unfold typeWord at h
  repeat' split at h
  all_goals first | (injection h with h; subst h; decide) | cases h

theorem hex_plain : ∀ (d : Bytes), ∀ b ∈ ChunkId.format d, Plain b := by
  intro d
  induction d with
  | nil => intro b hb; cases hb
  | cons a d ih =>
    intro b hb
    have enc : ∀ x : UInt8, Plain (ChunkId.encodeChar x) := by
      intro x
      have : ∀ n : Fin 256, 32 < ChunkId.encodeChar (UInt8.ofNat n.1) ∧ ChunkId.encodeChar (UInt8.ofNat n.1) < 127 ∧ ChunkId.encodeChar (UInt8.ofNat n.1) ≠ 35 := by
        decide +kernel
      have h1 := this ⟨x.toNat, x.toNat_lt⟩
      simp only [UInt8.ofNat_toNat] at h1
      exact h1
    rw [ChunkId.format] at hb
    simp only [List.mem_cons] at hb
    rcases hb with hb | hb | hb
    · rw [hb]; exact enc _
    · rw [hb]; exact enc _
    · exact ih b hb


/-! ### The lines -/

theorem keys_eq (sha512 : Bool) (d : Bytes) (f : Facts) : (fields (some (digestName sha512, d)) f).map (·.1) =
    [[116, 121, 112, 101], [109, 111, 100, 101], [115, 105, 122, 101], [108, 105, 110, 107], [100, 101, 118, 105, 99, 101], [117, 105, 100],
      [103, 105, 100], [117, 110, 97, 109, 101], [103, 110, 97, 109, 101], [102, 108, 97, 103, 115], [116, 105, 109, 101], digestName sha512] := rfl

theorem keys_ok (sha512 : Bool) : ([[116, 121, 112, 101], [109, 111, 100, 101], [115, 105, 122, 101], [108, 105, 110, 107], [100, 101, 118, 105, 99, 101],
      [117, 105, 100], [103, 105, 100], [117, 110, 97, 109, 101], [103, 110, 97, 109, 101], [102, 108, 97, 103, 115], [116, 105, 109, 101], digestName sha512] :
      List Bytes).Nodup ∧ ∀ k ∈ ([[116, 121, 112, 101], [109, 111, 100, 101], [115, 105, 122, 101], [108, 105, 110, 107], [100, 101, 118, 105, 99, 101],
      [117, 105, 100], [103, 105, 100], [117, 110, 97, 109, 101], [103, 110, 97, 109, 101], [102, 108, 97, 103, 115], [116, 105, 109, 101], digestName sha512] :
      List Bytes), (61 : UInt8) ∉ k ∧ ∀ b ∈ k, 32 < b ∧ b < 127 ∧ b ≠ 35 := by cases sha512 <;> decide +kernel

theorem value_plain (sha512 : Bool) (f : Facts) (d : Bytes) : ∀ k v, (k, some v) ∈ fields (some (digestName sha512, ChunkId.format d)) f → ∀ b ∈ v, Plain b := by
  intro k v h
  unfold fields at h
  simp only [List.mem_cons, Prod.mk.injEq, List.mem_nil_iff, or_false] at h
  rcases h with ⟨_, h⟩ | ⟨_, h⟩ | ⟨_, h⟩ | ⟨_, h⟩ | ⟨_, h⟩ | ⟨_, h⟩ | ⟨_, h⟩ | ⟨_, h⟩ | ⟨_, h⟩ | ⟨_, h⟩ | ⟨_, h⟩ | ⟨_, h⟩
  · exact type_plain _ _ h.symm
  · injection h with h
    subst h
    intro b hb
    unfold octal4 at hb
    simp only [List.mem_cons, List.mem_nil_iff, or_false] at hb
    rcases hb with hb | hb | hb | hb <;> rw [hb] <;> exact octchar_plain _
  · split at h
    · injection h with h; rw [h]; exact dec_plain _
    · cases h
  · cases hx : f.target with
    | none => rw [hx] at h; cases h
    | some x => rw [hx] at h; injection h with h; rw [h]; exact C59_escape_plain _
  · cases hx : f.rdev with
    | none => rw [hx] at h; cases h
    | some x =>
      rw [hx] at h
      injection h with h
      rw [h]
      intro b hb
      rcases List.mem_append.1 hb with hb | hb
      · have : ∀ b ∈ ([108, 105, 110, 117, 120, 44] : Bytes), 32 < b ∧ b < 127 ∧ b ≠ 35 := by decide
        exact this b hb
      · rcases List.mem_append.1 hb with hb | hb
        · exact dec_plain _ b hb
        · rcases List.mem_cons.1 hb with hb | hb
          · rw [hb]; exact ⟨by decide, by decide, by decide⟩
          · exact dec_plain _ b hb
  · split at h
    · injection h with h; rw [h]; exact dec_plain _
    · cases h
  · split at h
    · injection h with h; rw [h]; exact dec_plain _
    · cases h
  · cases hx : f.user with
    | none => rw [hx] at h; cases h
    | some x => rw [hx] at h; injection h with h; rw [h]; exact C59_escape_plain _
  · cases hx : f.group with
    | none => rw [hx] at h; cases h
    | some x => rw [hx] at h; injection h with h; rw [h]; exact C59_escape_plain _
  · split at h
    · injection h with h
      rw [h]
      refine sepBy_plain fun w hw => ?_
      obtain ⟨x, hx, rfl⟩ := List.mem_map.1 hw
      exact (flagText_ok x (shown_mem f x hx)).2.2
    · cases h
  · split at h
    · injection h with h
      rw [h]
      intro b hb
      rcases List.mem_append.1 hb with hb | hb
      · exact dec_plain _ b hb
      · rcases List.mem_cons.1 hb with hb | hb
        · rw [hb]; exact ⟨by decide, by decide, by decide⟩
        · exact pad9_plain _ b hb
    · cases h
  · split at h
    · injection h with h; rw [h]; exact hex_plain d
    · cases h

theorem words_plain (sha512 : Bool) (f : Facts) (d : Bytes) : ∀ w ∈ wordList (fields (some (digestName sha512, ChunkId.format d)) f), ∀ b ∈ w, Plain b := by
  intro w hw
  obtain ⟨k, v, h1, rfl⟩ := wordList_mem hw
  intro b hb
  rcases List.mem_append.1 hb with hb | hb
  · have hk : k ∈ (fields (some (digestName sha512, ChunkId.format d)) f).map (·.1) := List.mem_map_of_mem (f := (·.1)) h1
    rw [keys_eq] at hk
    exact ((keys_ok sha512).2 k hk).2 b hb
  · rcases List.mem_cons.1 hb with hb | hb
    · rw [hb]; exact ⟨by decide, by decide, by decide⟩
    · exact value_plain sha512 f d k v h1 b hb

theorem head_plain (p : Bytes) : ∀ b ∈ emptyToDot (escape p), Plain b := by
  unfold emptyToDot
  split
  · have : ∀ b ∈ ([46] : Bytes), 32 < b ∧ b < 127 ∧ b ≠ 35 := by decide
    exact this
  · exact C59_escape_plain p

/-- The fields tell what is visible. -/
theorem fields_visible {sha512 : Bool} {f g : Facts} {d d' : Bytes} (hf : Proper f) (hg : Proper g) (hpath : f.path = g.path)
    (h : fields (some (digestName sha512, ChunkId.format d)) f = fields (some (digestName sha512, ChunkId.format d')) g) : visible (f, d) = visible (g, d') := by
  unfold fields at h
  simp only [List.cons.injEq, Prod.mk.injEq, true_and, and_true] at h
  obtain ⟨h1, h2, h3, h4, h5, h6, h7, h8, h9, h10, h11, h12⟩ := h
  have hkind := type_inj h1 hf.2 hg.2
  have hperm : f.mode &&& 0xfff#64 = g.mode &&& 0xfff#64 := by
    injection h2 with h2
    have lt : ∀ m : Word, (m &&& 0xfff#64).toNat < 4096 := by
      intro m
      rw [BitVec.toNat_and]
      exact Nat.lt_of_le_of_lt Nat.and_le_right (by decide)
    exact BitVec.eq_of_toNat_eq (octal4_inj (lt _) (lt _) h2)
  have hreg : isType f.mode ifReg = isType g.mode ifReg := by unfold isType; rw [hkind]
  have opt : ∀ {p q : Prop} [Decidable p] [Decidable q] {x y : Nat}, (if p then some (Number.dec x) else none) = (if q then some (Number.dec y) else none) →
      (if p then some x else none) = (if q then some y else none) := by
    intro p q _ _ x y h
    split at h <;> split at h
    · rename_i hp hq; injection h with h; rw [if_pos hp, if_pos hq, dec_inj h]
    · cases h
    · cases h
    · rename_i hp hq; rw [if_neg hp, if_neg hq]
  have esc : ∀ {x y : Option Bytes}, x.map escape = y.map escape → x = y := by
    intro x y h
    cases x <;> cases y
    · rfl
    · cases h
    · cases h
    · injection h with h; rw [escape_inj h]
  have hdev : f.rdev = g.rdev := by
    cases hx : f.rdev <;> cases hy : g.rdev <;> rw [hx, hy] at h5
    · cases h5
    · cases h5
    · rename_i x y
      injection h5 with h5
      have := List.append_cancel_left h5
      have nc : ∀ n, ∀ b ∈ Number.dec n, ¬(b = 44) := fun n b hb => (digits_plain (dec_digits n b hb)).2.1
      obtain ⟨k1, _, k2⟩ := cut (S := fun b => b = 44) (nc _) (nc _) rfl rfl this
      rw [show x = y from Prod.ext (dec_inj k1) (dec_inj k2)]
  have hflags : shownFlags f = shownFlags g := by
    split at h10 <;> split at h10
    · injection h10 with h10; exact flags_inj h10
    · cases h10
    · cases h10
    · rename_i k1 k2
      rw [Classical.not_not.1 k1, Classical.not_not.1 k2]
  have htime : f.mtime = g.mtime := by
    split at h11 <;> split at h11
    · injection h11 with h11
      have nc : ∀ n, ∀ b ∈ Number.dec n, ¬(b = 46) := fun n b hb => (digits_plain (dec_digits n b hb)).2.2.1
      obtain ⟨k1, _, k2⟩ := cut (S := fun b => b = 46) (nc _) (nc _) rfl rfl h11
      have k1 := dec_inj k1
      have k2 := pad9_inj k2
      omega
    · cases h11
    · cases h11
    · rename_i k1 k2
      rw [Classical.not_not.1 k1, Classical.not_not.1 k2]
  have hsize : f.size = g.size := by
    have := opt h3
    split at this <;> split at this
    · injection this
    · cases this
    · cases this
    · rename_i k1 k2
      rw [Classical.not_not.1 k1, Classical.not_not.1 k2]
  have hdig : (if isType f.mode ifReg = true then some d else none) = if isType g.mode ifReg = true then some d' else none := by
    rw [hreg] at h12 ⊢
    split at h12
    · rename_i hr
      rw [if_pos hr, if_pos hr]
      have h12 := h12.2
      injection h12 with h12
      rw [ChunkId.format_inj h12]
    · rename_i hr
      rw [if_neg hr, if_neg hr]
  unfold visible
  simp only [Visible.mk.injEq]
  exact ⟨hpath, hkind, hperm, by rw [hsize], esc h4, hdev, opt h6, opt h7, esc h8, esc h9, hflags, by rw [htime], hdig⟩

/-- **C59.** From the output of `casync mtree` everything that it shows of every object can be read: two listings are the same only if they show the
same objects, in the same order, with the same paths, types, permissions, sizes, targets, devices, owners, flags, times and digests. -/
theorem C59_mtree (sha512 : Bool) : ∀ (l l' : List (Facts × Bytes)), (∀ x ∈ l, Proper x.1) → (∀ x ∈ l', Proper x.1) → mtree sha512 l = mtree sha512 l' →
    l.map visible = l'.map visible := by
  intro l
  induction l with
  | nil =>
    intro l' _ _ h
    cases l' with
    | nil => rfl
    | cons x l' => obtain ⟨g, d⟩ := x; exact absurd (congrArg List.length h) (by simp only [mtree, mtreeLine, List.length_append, List.length_cons, List.length_nil]; omega)
  | cons x l ih =>
    intro l' hl hl' h
    obtain ⟨f, d⟩ := x
    cases l' with
    | nil => exact absurd (congrArg List.length h) (by simp only [mtree, mtreeLine, List.length_append, List.length_cons, List.length_nil]; omega)
    | cons y l' =>
      obtain ⟨g, d'⟩ := y
      rw [mtree, mtree, mtreeLine, mtreeLine, words_eq, words_eq] at h
      simp only [List.append_assoc, List.cons_append, List.nil_append] at h
      obtain ⟨k1, k2, k3⟩ := line_cut (head_plain _) (head_plain _) (words_plain sha512 f d) (words_plain sha512 g d') h
      have hf := hl _ List.mem_cons_self
      have hg := hl' _ List.mem_cons_self
      have hp := emptyToDot_inj hf.1 hg.1 k1
      have hfields := fields_cut (by rw [keys_eq, keys_eq]) (by rw [keys_eq]; exact (keys_ok sha512).1)
        (fun x hx => ((keys_ok sha512).2 x.1 (by rw [← keys_eq sha512 (ChunkId.format d) f]; exact List.mem_map_of_mem (f := (·.1)) hx)).1) k2
      rw [List.map_cons, List.map_cons, fields_visible hf hg hp hfields,
        ih l' (fun x hx => hl x (List.mem_cons_of_mem _ hx)) (fun x hx => hl' x (List.mem_cons_of_mem _ hx)) k3]

/-- **C59.** A line of `casync mtree` has no bytes but printable ASCII, and no blank or "#" that is not a separator: nothing in a name, target or
owner can start another field, line or comment, or control a terminal. -/
theorem C59_line_plain (sha512 : Bool) (f : Facts) (d : Bytes) : ∃ ws : List Bytes, mtreeLine sha512 f d =
    emptyToDot (escape f.path) ++ (ws.flatMap (fun w => 32 :: w) ++ [10]) ∧ (∀ b ∈ emptyToDot (escape f.path), Plain b) ∧ ∀ w ∈ ws, ∀ b ∈ w, Plain b :=
  ⟨_, by rw [mtreeLine, words_eq], head_plain _, words_plain sha512 f d⟩


/-! ### `casync list` -/

theorem has_two {m : Word} {k : Nat} (hk : k < 64) : has m (BitVec.twoPow 64 k) = m.getLsbD k := has_bit m k hk

/-- The bits of the permissions. -/
theorem perm_bits {m m' : Word} (h : ∀ k, k < 12 → k ≠ 9 → m.getLsbD k = m'.getLsbD k) : m &&& 0xdff#64 = m' &&& 0xdff#64 := by
  refine BitVec.eq_of_getLsbD_eq fun i hi => ?_
  rw [BitVec.getLsbD_and, BitVec.getLsbD_and]
  have : ∀ i : Fin 64, (12 ≤ i.1 ∨ i.1 = 9) → (0xdff#64 : Word).getLsbD i.1 = false := by decide +kernel
  by_cases hb : 12 ≤ i ∨ i = 9
  · rw [this ⟨i, hi⟩ hb, Bool.and_false, Bool.and_false]
  · rw [h i (by omega) (by omega)]

theorem perm_all {m m' : Word} (h : ∀ k, k < 12 → m.getLsbD k = m'.getLsbD k) : m &&& 0xfff#64 = m' &&& 0xfff#64 := by
  refine BitVec.eq_of_getLsbD_eq fun i hi => ?_
  rw [BitVec.getLsbD_and, BitVec.getLsbD_and]
  have : ∀ i : Fin 64, 12 ≤ i.1 → (0xfff#64 : Word).getLsbD i.1 = false := by decide +kernel
  by_cases hb : 12 ≤ i
  · rw [this ⟨i, hi⟩ hb, Bool.and_false, Bool.and_false]
  · rw [h i (by omega)]

/-- Two permissions and a special bit as one character. -/
theorem triple {a b a' b' : Bool} {s t : UInt8} (h : s ≠ t) (hs : s ≠ 120 ∧ s ≠ 45) (ht : t ≠ 120 ∧ t ≠ 45)
    (he : (if a = true then (if b = true then s else t) else (if b = true then 120 else 45)) =
      (if a' = true then (if b' = true then s else t) else (if b' = true then (120 : UInt8) else 45))) : a = a' ∧ b = b' := by
  cases a <;> cases b <;> cases a' <;> cases b' <;> simp_all

theorem single {a a' : Bool} {s : UInt8} (h : s ≠ 45) (he : (if a = true then s else 45) = (if a' = true then s else 45)) : a = a' := by
  cases a <;> cases a' <;> simp_all

/-- The letter of a type. -/
def letter (m : Word) : Option UInt8 :=
  if m &&& ifmt = ifSock then some 115 else if m &&& ifmt = ifDir then some 100 else if m &&& ifmt = ifReg then some 45
  else if m &&& ifmt = ifBlk then some 98 else if m &&& ifmt = ifChr then some 99 else if m &&& ifmt = ifLnk then some 108
  else if m &&& ifmt = ifFifo then some 112 else none

theorem letter_some {m : Word} {k : UInt8} (h : letter m = some k) : m &&& ifmt =
    (if k = 115 then ifSock else if k = 100 then ifDir else if k = 45 then ifReg else if k = 98 then ifBlk else if k = 99 then ifChr else if k = 108 then ifLnk else ifFifo) ∧
    Plain k := by
  unfold letter at h
  repeat' split at h
  all_goals first | cases h; done | skip
  all_goals (rename_i hh; injection h with h; subst h; exact ⟨hh, by decide, by decide, by decide⟩)

/-- **C59.** The first column of `casync list` tells the type and the permissions, but the sticky bit only of directories. -/
theorem C59_ls_mode {m m' : Word} {s : Bytes} (h : lsMode m = some s) (h' : lsMode m' = some s) :
    m &&& ifmt = m' &&& ifmt ∧ m &&& 0xdff#64 = m' &&& 0xdff#64 ∧ (isType m ifDir = true → m &&& 0xfff#64 = m' &&& 0xfff#64) := by
  unfold lsMode at h h'
  simp only at h h'
  rw [show (if m &&& ifmt = ifSock then some 115 else if m &&& ifmt = ifDir then some 100 else if m &&& ifmt = ifReg then some 45
    else if m &&& ifmt = ifBlk then some 98 else if m &&& ifmt = ifChr then some 99 else if m &&& ifmt = ifLnk then some 108
    else if m &&& ifmt = ifFifo then some 112 else none) = letter m from rfl] at h
  rw [show (if m' &&& ifmt = ifSock then some 115 else if m' &&& ifmt = ifDir then some 100 else if m' &&& ifmt = ifReg then some 45
    else if m' &&& ifmt = ifBlk then some 98 else if m' &&& ifmt = ifChr then some 99 else if m' &&& ifmt = ifLnk then some 108
    else if m' &&& ifmt = ifFifo then some 112 else none) = letter m' from rfl] at h'
  cases hk : letter m with
  | none => rw [hk] at h; cases h
  | some k =>
    cases hk' : letter m' with
    | none => rw [hk'] at h'; cases h'
    | some k' =>
      rw [hk] at h
      rw [hk'] at h'
      simp only at h h'
      injection h with h
      injection h' with h'
      rw [← h'] at h
      injection h with h0 h
      have ht : m &&& ifmt = m' &&& ifmt := by rw [(letter_some hk).1, (letter_some hk').1, h0]
      have hdir : isType m ifDir = isType m' ifDir := by unfold isType; rw [ht]
      injection h with h1 h
      injection h with h2 h
      injection h with h3 h
      injection h with h4 h
      injection h with h5 h
      injection h with h6 h
      injection h with h7 h
      injection h with h8 h
      injection h with h9 _
      have b : ∀ k, k < 64 → ∀ w : Word, w = BitVec.twoPow 64 k → ∀ x : Word, has x w = x.getLsbD k := by
        intro k hk w hw x; rw [hw]; exact has_bit x k hk
      have e8 := single (by decide) h1
      have e7 := single (by decide) h2
      obtain ⟨e11, e6⟩ := triple (by decide) (by decide) (by decide) h3
      have e5 := single (by decide) h4
      have e4 := single (by decide) h5
      obtain ⟨e10, e3⟩ := triple (by decide) (by decide) (by decide) h6
      have e2 := single (by decide) h7
      have e1 := single (by decide) h8
      obtain ⟨e9, e0⟩ := triple (by decide) (by decide) (by decide) h9
      rw [b 8 (by omega) _ (by decide), b 8 (by omega) _ (by decide)] at e8
      rw [b 7 (by omega) _ (by decide), b 7 (by omega) _ (by decide)] at e7
      rw [b 11 (by omega) _ (by decide), b 11 (by omega) _ (by decide)] at e11
      rw [b 6 (by omega) _ (by decide), b 6 (by omega) _ (by decide)] at e6
      rw [b 5 (by omega) _ (by decide), b 5 (by omega) _ (by decide)] at e5
      rw [b 4 (by omega) _ (by decide), b 4 (by omega) _ (by decide)] at e4
      rw [b 10 (by omega) _ (by decide), b 10 (by omega) _ (by decide)] at e10
      rw [b 3 (by omega) _ (by decide), b 3 (by omega) _ (by decide)] at e3
      rw [b 2 (by omega) _ (by decide), b 2 (by omega) _ (by decide)] at e2
      rw [b 1 (by omega) _ (by decide), b 1 (by omega) _ (by decide)] at e1
      rw [b 0 (by omega) _ (by decide), b 0 (by omega) _ (by decide)] at e0
      rw [b 9 (by omega) _ (by decide), b 9 (by omega) _ (by decide)] at e9
      have all : ∀ k, k < 12 → k ≠ 9 → m.getLsbD k = m'.getLsbD k := by
        intro k hk h9
        have : k = 0 ∨ k = 1 ∨ k = 2 ∨ k = 3 ∨ k = 4 ∨ k = 5 ∨ k = 6 ∨ k = 7 ∨ k = 8 ∨ k = 10 ∨ k = 11 := by omega
        rcases this with rfl | rfl | rfl | rfl | rfl | rfl | rfl | rfl | rfl | rfl | rfl <;> assumption
      refine ⟨ht, perm_bits all, fun hd => perm_all fun k hk => ?_⟩
      by_cases h9 : k = 9
      · subst h9
        rw [hd, ← hdir, hd, Bool.true_and, Bool.true_and] at e9
        exact e9
      · exact all k hk h9

theorem lsMode_shape {m : Word} {s : Bytes} (h : lsMode m = some s) : s.length = 10 := by
  unfold lsMode at h
  simp only at h
  split at h
  · cases h
  · injection h with h; rw [← h]; rfl

/-- **C59.** From the output of `casync list` the path, the type and the permissions, without the sticky bit, of every object can be read. -/
theorem C59_list : ∀ (l l' : List Facts) (s : Bytes), (∀ x ∈ l, Proper x) → (∀ x ∈ l', Proper x) → list l = some s → list l' = some s →
    l.map (fun f => (f.path, f.mode &&& ifmt, f.mode &&& 0xdff#64)) = l'.map (fun f => (f.path, f.mode &&& ifmt, f.mode &&& 0xdff#64)) := by
  have nonempty : ∀ {f : Facts} {r : List Facts}, list (f :: r) = some [] → False := by
    intro f r h
    rw [list] at h
    split at h
    · rename_i x y hx _
      injection h with h
      unfold listLine at hx
      split at hx
      · cases hx
      · injection hx with hx
        rw [← hx] at h
        exact absurd (congrArg List.length h) (by simp only [List.length_append, List.length_cons, List.length_nil]; omega)
    · cases h
  intro l
  induction l with
  | nil =>
    intro l' s _ _ h h'
    injection h with h
    subst h
    cases l' with
    | nil => rfl
    | cons g l' => exact (nonempty h').elim
  | cons f l ih =>
    intro l' s hl hl' h h'
    cases l' with
    | nil => injection h' with h'; subst h'; exact (nonempty h).elim
    | cons g l' =>
      rw [list] at h h'
      split at h
      · rename_i x y hx hy
        split at h'
        · rename_i x' y' hx' hy'
          injection h with h
          injection h' with h'
          rw [← h'] at h
          unfold listLine at hx hx'
          split at hx
          · cases hx
          rename_i mf hmf
          split at hx'
          · cases hx'
          rename_i mg hmg
          injection hx with hx
          injection hx' with hx'
          rw [← hx, ← hx'] at h
          rw [List.append_assoc, List.append_assoc] at h
          obtain ⟨k1, k2⟩ := List.append_inj h ((lsMode_shape hmf).trans (lsMode_shape hmg).symm)
          simp only [List.cons_append, List.append_assoc, List.nil_append, List.cons.injEq, true_and] at k2
          obtain ⟨m1, _, m2⟩ := cut (S := Sep) (fun b hb => (head_plain _ b hb).notSep) (fun b hb => (head_plain _ b hb).notSep) (.inr rfl) (.inr rfl) k2
          have hf := hl _ List.mem_cons_self
          have hg := hl' _ List.mem_cons_self
          subst k1
          obtain ⟨n1, n2, _⟩ := C59_ls_mode hmf hmg
          rw [List.map_cons, List.map_cons, emptyToDot_inj hf.1 hg.1 m1, n1, n2,
            ih l' y (fun x hx => hl x (List.mem_cons_of_mem _ hx)) (fun x hx => hl' x (List.mem_cons_of_mem _ hx)) hy (m2 ▸ hy')]
        · cases h'
      · cases h

/-! ### What the archive records -/

/-- **C59.** Of a file or directory a flag is shown as set if the archive records it, and flags that the archive does not record are not shown. -/
theorem C59_flags {c : Meta.RCfg} {path : Bytes} {e : Entry} {a : Attrs} {s : Shown} (ht : isType e.mode ifReg = true ∨ isType e.mode ifDir = true) (name : Bytes) (b : Bool) :
    (name, b) ∈ shownFlags (facts c path e a s) ↔ ∃ flag, (flag, name) ∈ flagTable ∧ has e.ff flag = true ∧ b = has (e.flags &&& c.replay) flag := by
  have hset : ∀ x ∈ flagTable, flagSet (facts c path e a s) x.1 = has (e.flags &&& c.replay) x.1 := by
    have ht : (isType e.mode ifReg || isType e.mode ifDir) = true := by rcases ht with ht | ht <;> rw [ht] <;> simp
    intro x hx
    have bit : ∀ (map : List (Word × Word)) (w : Word) (k : Nat), k < 64 → has (Meta.toMap map w) (BitVec.twoPow 64 k) = map.any (fun x => has w x.1 && x.2.getLsbD k) := by
      intro map w k hk
      rw [has_bit _ _ hk, Meta.toMap_bits]
    unfold flagSet facts
    simp only [ht, if_true]
    generalize e.flags &&& c.replay = w
    simp only [flagTable, List.mem_cons, List.mem_nil_iff, or_false] at hx
    rcases hx with rfl | rfl | rfl | rfl | rfl | rfl
    · rw [if_pos (by decide), show Meta.toMap Meta.fatMap withFlagHidden = BitVec.twoPow 64 1 from by decide, bit _ _ _ (by omega)]
      simp [Meta.fatMap]
    · rw [if_pos (by decide), show Meta.toMap Meta.fatMap withFlagSystem = BitVec.twoPow 64 2 from by decide, bit _ _ _ (by omega)]
      simp [Meta.fatMap]
    · rw [if_pos (by decide), show Meta.toMap Meta.fatMap withFlagArchive = BitVec.twoPow 64 5 from by decide, bit _ _ _ (by omega)]
      simp [Meta.fatMap]
    · rw [if_neg (by decide), show Meta.toMap Meta.chattrMap withFlagAppend = BitVec.twoPow 64 5 from by decide, bit _ _ _ (by omega)]
      simp [Meta.chattrMap]
    · rw [if_neg (by decide), show Meta.toMap Meta.chattrMap withFlagNodump = BitVec.twoPow 64 6 from by decide, bit _ _ _ (by omega)]
      simp [Meta.chattrMap]
    · rw [if_neg (by decide), show Meta.toMap Meta.chattrMap withFlagImmutable = BitVec.twoPow 64 4 from by decide, bit _ _ _ (by omega)]
      simp [Meta.chattrMap]
  unfold shownFlags
  constructor
  · intro h
    obtain ⟨x, hx, he⟩ := List.mem_map.1 h
    obtain ⟨h1, h2⟩ := List.mem_filter.1 hx
    injection he with he1 he2
    exact ⟨x.1, by rw [← he1]; exact h1, h2, by rw [← he2]; exact hset x h1⟩
  · rintro ⟨flag, h1, h2, h3⟩
    exact List.mem_map.2 ⟨(flag, name), List.mem_filter.2 ⟨h1, h2⟩, by rw [h3, hset _ h1]⟩

/-- **C59, violated.** Of symbolic links, device nodes, FIFOs and sockets, which have no flags, `casync mtree` says that all flags are set. -/
theorem C59_flags_violated (c : Meta.RCfg) (path : Bytes) (e : Entry) (a : Attrs) (s : Shown) (h1 : isType e.mode ifReg = false) (h2 : isType e.mode ifDir = false) :
    shownFlags (facts c path e a s) = (flagTable.filter fun x => has e.ff x.1).map fun x => (x.2, true) := by
  unfold shownFlags
  apply List.map_congr_left
  intro x hx
  have hx := (List.mem_filter.1 hx).1
  have : flagSet (facts c path e a s) x.1 = true := by
    unfold flagSet facts
    simp only [h1, h2, Bool.or_false, Bool.false_eq_true, if_false]
    simp only [flagTable, List.mem_cons, List.mem_nil_iff, or_false] at hx
    rcases hx with rfl | rfl | rfl | rfl | rfl | rfl <;> decide
  rw [this]

/-- **C59, violated.** The sticky bit of a file is not to be seen in `casync list`. -/
theorem C59_sticky_violated : lsMode 0x83a4#64 = lsMode 0x81a4#64 := by decide +kernel

/-- **C59.** Two objects of archives with the same flags that have the same line have the same ENTRY record, as far as it is recorded at all but for
the flags not shown, and the same size, target and device. -/
theorem C59_records {sha512 : Bool} {c : Meta.RCfg} {ff : Word} (hrep : c.replay = ff) {path path' : Bytes} {e e' : Entry} {a a' : Attrs} {s s' : Shown} {d d' : Bytes}
    (he : EntryOK ff e) (he' : EntryOK ff e') (hp : Proper (facts c path e a s)) (hp' : Proper (facts c path' e' a' s'))
    (h : mtreeLine sha512 (facts c path e a s) d = mtreeLine sha512 (facts c path' e' a' s') d') :
    path = path' ∧ e.mode = e'.mode ∧ e.uid = e'.uid ∧ e.gid = e'.gid ∧ e.mtime = e'.mtime ∧
      (isType e.mode ifReg = true → sizeOf s = sizeOf s' ∧ d = d') ∧ (isType e.mode ifLnk = true → targetOf s = targetOf s') ∧
      (isType e.mode ifChr = true ∨ isType e.mode ifBlk = true → rdevOf s = rdevOf s') := by
  have hv := C59_mtree sha512 [(facts c path e a s, d)] [(facts c path' e' a' s', d')] (by intro x hx; rw [List.mem_singleton] at hx; subst hx; exact hp)
    (by intro x hx; rw [List.mem_singleton] at hx; subst hx; exact hp') (by rw [mtree, mtree, mtree, mtree, h])
  rw [List.map_cons, List.map_cons] at hv
  injection hv with hv _
  unfold visible at hv
  simp only [Visible.mk.injEq] at hv
  obtain ⟨v1, v2, v3, v4, v5, v6, v7, v8, _, _, _, v9, v10⟩ := hv
  have v1 : path = path' := v1
  have v2 : e.mode &&& ifmt = e'.mode &&& ifmt := v2
  have v3 : e.mode &&& 0xfff#64 = e'.mode &&& 0xfff#64 := v3
  have hmode : e.mode = e'.mode := by
    have split : ∀ {m : Word}, m &&& ~~~(0xffff#64) = 0#64 → m = (m &&& ifmt) ||| (m &&& 0xfff#64) := by
      intro m hm
      refine BitVec.eq_of_getLsbD_eq fun i hi => ?_
      have h1 := congrArg (fun z => z.getLsbD i) hm
      simp only [BitVec.getLsbD_and, BitVec.getLsbD_or, BitVec.getLsbD_not, BitVec.getLsbD_zero] at h1 ⊢
      have : ∀ i : Fin 64, ((0xffff#64 : Word).getLsbD i.1 = ((ifmt : Word).getLsbD i.1 || (0xfff#64 : Word).getLsbD i.1)) := by decide +kernel
      have h2 := this ⟨i, hi⟩
      simp only at h2
      rw [h2] at h1
      revert h1
      cases m.getLsbD i <;> cases (ifmt : Word).getLsbD i <;> cases (0xfff#64 : Word).getLsbD i <;> simp [hi]
    rw [split he.bits, split he'.bits, v2, v3]
  have hids : ∀ {u u' : Nat}, IdOK ff u → IdOK ff u' →
      (if Meta.uidValid (if has c.replay Meta.withIds = true then u % 2 ^ 32 else Meta.uidInvalid) = true then
        some (if has c.replay Meta.withIds = true then u % 2 ^ 32 else Meta.uidInvalid) else none) =
      (if Meta.uidValid (if has c.replay Meta.withIds = true then u' % 2 ^ 32 else Meta.uidInvalid) = true then
        some (if has c.replay Meta.withIds = true then u' % 2 ^ 32 else Meta.uidInvalid) else none) → u = u' := by
    intro u u' hu hu' h
    have hw : has c.replay Meta.withIds = (has ff with16BitUids || has ff with32BitUids) := by rw [hrep]; exact has_or _ _ _
    rw [hw] at h
    unfold IdOK at hu hu'
    have ok : ∀ {u : Nat}, u < 4294967295 ∧ u ≠ 65535 → u % 2 ^ 32 = u ∧ Meta.uidValid u = true := by
      intro u hu
      refine ⟨Nat.mod_eq_of_lt (by omega), Meta.uidValid_iff.2 ⟨by omega, by omega⟩⟩
    by_cases h16 : has ff with16BitUids = true
    · rw [if_pos h16] at hu hu'
      have k := ok (u := u) ⟨by omega, by omega⟩
      have k' := ok (u := u') ⟨by omega, by omega⟩
      rw [h16, Bool.true_or] at h
      simp only [if_true] at h
      rw [k.1, k'.1, k.2, k'.2] at h
      simpa using h
    · rw [if_neg h16] at hu hu'
      by_cases h32 : has ff with32BitUids = true
      · rw [if_pos h32] at hu hu'
        have k := ok hu
        have k' := ok hu'
        rw [h32, Bool.or_true] at h
        simp only [if_true] at h
        rw [k.1, k'.1, k.2, k'.2] at h
        simpa using h
      · rw [if_neg h32] at hu hu'
        rw [hu, hu']
  have htime : e.mtime = e'.mtime := by
    have hw : has c.replay withTime = (((has ff withNsecTime || has ff withUsecTime) || has ff withSecTime) || has ff with2SecTime) := by
      rw [hrep, has_or, has_or, has_or]
    have v9 : (if (if has c.replay withTime = true then e.mtime else u64max) = u64max then none else some (if has c.replay withTime = true then e.mtime else u64max)) =
      (if (if has c.replay withTime = true then e'.mtime else u64max) = u64max then none else some (if has c.replay withTime = true then e'.mtime else u64max)) := v9
    have t1 := he.time
    have t2 := he'.time
    unfold TimeOK at t1 t2
    by_cases hh : has c.replay withTime = true
    · rw [if_pos hh, if_pos hh, if_neg (by omega), if_neg (by omega)] at v9
      injection v9
    · rw [hw] at hh
      simp only [Bool.or_eq_true, not_or, Bool.not_eq_true] at hh
      obtain ⟨⟨⟨a1, a2⟩, a3⟩, a4⟩ := hh
      rw [a1, a2, a3, a4] at t1 t2
      simp only [Bool.false_eq_true, if_false] at t1 t2
      rw [t1.2, t2.2]
  refine ⟨v1, hmode, hids he.uid he'.uid v7, hids he.gid he'.gid v8, htime, ?_, ?_, ?_⟩
  · intro hr
    have hr' : isType e'.mode ifReg = true := by rw [← hmode]; exact hr
    unfold facts at v4 v10
    simp only [hr, hr', if_true] at v4 v10
    refine ⟨?_, by simpa using v10⟩
    split at v4 <;> split at v4
    · rename_i k1 k2; rw [k1, k2]
    · cases v4
    · cases v4
    · injection v4
  · intro hr
    have hr' : isType e'.mode ifLnk = true := by rw [← hmode]; exact hr
    unfold facts at v5
    simp only [hr, hr', if_true] at v5
    exact v5
  · intro hr
    have ho : (isType e.mode ifChr || isType e.mode ifBlk) = true := by rcases hr with hr | hr <;> rw [hr] <;> simp
    have ho' : (isType e'.mode ifChr || isType e'.mode ifBlk) = true := by rw [← hmode]; exact ho
    unfold facts at v6
    simp only [ho, ho', if_true] at v6
    exact v6

/-! ### Concrete cases -/

/-- A regular file "a b" of 5 bytes. -/
def exFile : Facts := { path := [97, 32, 98], mode := 0x81a4#64, size := 5, mtime := 1000000007, uid := 0, gid := 7, user := some [114, 35], features := withFlagNodump, chattr := 0x40#64 }

/-- A device. -/
def exDev : Facts := { path := [100], mode := 0x2180#64, rdev := some (1, 3), features := 0#64 }

example : Proper exFile ∧ Proper exDev := by unfold Proper; decide +kernel

/-- `a\040b mode=0644 …` shows the blank escaped, and is read back. -/
example : escape exFile.path = [97, 92, 48, 52, 48, 98] ∧ unescape [97, 92, 48, 52, 48, 98] = exFile.path := by decide +kernel

/-- The first words of the lines, and the flag. -/
example : (words (fields none exFile)).take 29 = [32, 116, 121, 112, 101, 61, 102, 105, 108, 101, 32, 109, 111, 100, 101, 61, 48, 54, 52, 52, 32, 115, 105, 122, 101, 61, 53, 32, 117] ∧
    shownFlags exFile = [([110, 111, 100, 117, 109, 112], true)] := by decide +kernel

example : visible (exFile, [9]) ≠ visible (exDev, [9]) ∧ mtree true [(exFile, [9]), (exDev, [])] ≠ mtree true [(exDev, []), (exFile, [9])] := by decide +kernel

/-- `-rw-r--r-- a\040b`. -/
example : list [exFile, exDev] = some ([45, 114, 119, 45, 114, 45, 45, 114, 45, 45, 32, 97, 92, 48, 52, 48, 98, 10] ++
    [99, 114, 119, 45, 45, 45, 45, 45, 45, 45, 32, 100, 10]) := by decide +kernel

/-- An ENTRY of a regular file with 32 bit owners and times. -/
def exFlags : Word := with32BitUids ||| withNsecTime ||| withPermissions ||| withFlagNodump

example : EntryOK exFlags { ff := exFlags, mode := 0x81a4#64, flags := withFlagNodump, uid := 3, gid := 4, mtime := 77 } := by
  constructor <;> first | decide +kernel | (unfold IdOK; decide +kernel) | (unfold TimeOK; decide +kernel) | (unfold PermOK; decide +kernel)

example : Proper (facts { replay := exFlags, shift := 0, range := 0 } [97] { ff := exFlags, mode := 0x81a4#64, flags := withFlagNodump, uid := 3, gid := 4, mtime := 77 } {} (.file 5)) ∧
    (facts { replay := exFlags, shift := 0, range := 0 } [97] { ff := exFlags, mode := 0x81a4#64, flags := withFlagNodump, uid := 3, gid := 4, mtime := 77 } {} (.file 5)).uid = 3 := by unfold Proper; decide +kernel

/-- A named pipe in an archive that records NODUMP is listed with "nodump". -/
example : shownFlags (facts { replay := exFlags, shift := 0, range := 0 } [97] { ff := exFlags, mode := 0x11a4#64, flags := 0, uid := 3, gid := 4, mtime := 77 } {} .nothing) =
    [([110, 111, 100, 117, 109, 112], true)] := by decide +kernel

end Casync.Listing
