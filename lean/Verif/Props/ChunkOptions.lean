import Verif.Spec.ChunkOptions
import Verif.Props.Chunker
import Verif.Props.Number
/-!
C63: the chunk sizes given on the command line are the ones used.
-/
namespace Casync.ChunkOptions
open Casync Casync.Chunker

theorem dropWhile_colon {p rest : Bytes} (hp : ∀ b ∈ p, b ≠ 58) :
    (p ++ 58 :: rest).dropWhile (· ≠ 58) = 58 :: rest ∧ (p ++ 58 :: rest).takeWhile (· ≠ 58) = p := by
  induction p with
  | nil => constructor <;> simp
  | cons b p ih =>
    have ih := ih (fun x hx => hp x (List.mem_cons_of_mem _ hx))
    have hb : decide (b ≠ 58) = true := by simp [hp b List.mem_cons_self]
    constructor
    · rw [List.cons_append, List.dropWhile_cons, if_pos hb]; exact ih.1
    · rw [List.cons_append, List.takeWhile_cons, if_pos hb, ih.2]

theorem cut_colon {p rest : Bytes} (hp : ∀ b ∈ p, b ≠ 58) : cut (p ++ 58 :: rest) = some (p, rest) := by
  obtain ⟨h1, h2⟩ := dropWhile_colon (rest := rest) hp
  unfold cut
  rw [h1, h2]

theorem cut_none {t : Bytes} (h : ∀ b ∈ t, b ≠ 58) : cut t = none := by
  have : t.dropWhile (· ≠ 58) = [] := by
    induction t with
    | nil => rfl
    | cons b t ih =>
      rw [List.dropWhile_cons, if_pos (by simp [h b List.mem_cons_self])]
      exact ih (fun x hx => h x (List.mem_cons_of_mem _ hx))
  unfold cut
  rw [this]

theorem split_at (t : Bytes) : (∀ b ∈ t, b ≠ 58) ∨ ∃ p r, t = p ++ 58 :: r ∧ ∀ b ∈ p, b ≠ 58 := by
  induction t with
  | nil => exact .inl (fun b hb => by cases hb)
  | cons b t ih =>
    by_cases hb : b = 58
    · exact .inr ⟨[], t, by rw [hb]; rfl, fun x hx => by cases hx⟩
    · rcases ih with h | ⟨p, r, e, hp⟩
      · refine .inl (fun x hx => ?_)
        rcases List.mem_cons.1 hx with rfl | hx
        · exact hb
        · exact h x hx
      · refine .inr ⟨b :: p, r, by rw [e]; rfl, fun x hx => ?_⟩
        rcases List.mem_cons.1 hx with rfl | hx
        · exact hb
        · exact hp x hx

theorem parseTriple_iff (fm : Bytes → Nat → Option Nat) (p q r : Bytes) (s : Sizes) : parseTriple fm p q r = .ok s ↔
    Number.parseSize fm p = .ok s.min ∧ Number.parseSize fm q = .ok s.avg ∧ Number.parseSize fm r = .ok s.max ∧
      1 ≤ s.min ∧ s.min ≤ s.avg ∧ s.avg ≤ s.max ∧ s.max ≤ 134217728 := by
  have hmax : limitMax = 134217728 := rfl
  have hmin : limitMin = 1 := rfl
  unfold parseTriple
  match hp : Number.parseSize fm p with
  | .err e => simp
  | .ub => simp
  | .ok a =>
    simp only
    by_cases h1 : a < limitMin
    · rw [if_pos h1]
      refine iff_of_false (fun h => by cases h) (fun h => ?_)
      have : a = s.min := by simpa using h.1
      omega
    rw [if_neg h1]
    match hq : Number.parseSize fm q with
    | .err e => simp
    | .ub => simp
    | .ok b =>
      simp only
      by_cases h2 : b < a
      · rw [if_pos h2]
        refine iff_of_false (fun h => by cases h) (fun h => ?_)
        have e1 : a = s.min := by simpa using h.1
        have e2 : b = s.avg := by simpa using h.2.1
        omega
      rw [if_neg h2]
      match hr : Number.parseSize fm r with
      | .err e => simp
      | .ub => simp
      | .ok c =>
        simp only
        by_cases h3 : c < b
        · rw [if_pos h3]
          refine iff_of_false (fun h => by cases h) (fun h => ?_)
          have e2 : b = s.avg := by simpa using h.2.1
          have e3 : c = s.max := by simpa using h.2.2.1
          omega
        rw [if_neg h3]
        by_cases h4 : c > limitMax
        · rw [if_pos h4]
          refine iff_of_false (fun h => by cases h) (fun h => ?_)
          have e3 : c = s.max := by simpa using h.2.2.1
          omega
        rw [if_neg h4]
        constructor
        · intro h
          injection h with h
          subst h
          exact ⟨rfl, rfl, rfl, by show 1 ≤ a; omega, by show a ≤ b; omega, by show b ≤ c; omega, by show c ≤ 134217728; omega⟩
        · rintro ⟨h, h', h'', _⟩
          injection h with h
          injection h' with h'
          injection h'' with h''
          rw [h, h', h'']

theorem parseSingle_iff (fm : Bytes → Nat → Option Nat) (t : Bytes) (s : Sizes) : parseSingle fm t = .ok s ↔
    Number.parseSize fm t = .ok s.avg ∧ s.min = 0 ∧ s.max = 0 ∧ 1 ≤ s.avg ∧ s.avg ≤ 134217728 := by
  have hmax : limitMax = 134217728 := rfl
  have hmin : limitMin = 1 := rfl
  unfold parseSingle
  match hp : Number.parseSize fm t with
  | .err e => simp
  | .ub => simp
  | .ok b =>
    simp only
    by_cases h1 : b < limitMin
    · rw [if_pos h1]
      refine iff_of_false (fun h => by cases h) (fun h => ?_)
      have : b = s.avg := by simpa using h.1
      omega
    rw [if_neg h1]
    by_cases h2 : b > limitMax
    · rw [if_pos h2]
      refine iff_of_false (fun h => by cases h) (fun h => ?_)
      have : b = s.avg := by simpa using h.1
      omega
    rw [if_neg h2]
    constructor
    · intro h
      injection h with h
      subst h
      exact ⟨rfl, rfl, rfl, by show 1 ≤ b; omega, by show b ≤ 134217728; omega⟩
    · rintro ⟨h, h', h'', _⟩
      injection h with h
      rw [h]
      cases s
      simp_all

/-- C63. What `--chunk-size=` accepts, and what it takes it for: `auto`; one size, the average, up to 128 MiB; or three sizes between
colons that are in order and up to 128 MiB. Each size is read as every size is (C44). Everything else is refused. -/
theorem C63_accepted (fm : Bytes → Nat → Option Nat) (t : Bytes) (s : Sizes) : parse fm t = .ok s ↔
    (t = [97, 117, 116, 111] ∧ s = { min := 0, avg := 0, max := 0 }) ∨
    (t ≠ [97, 117, 116, 111] ∧ (∀ b ∈ t, b ≠ 58) ∧ Number.parseSize fm t = .ok s.avg ∧ s.min = 0 ∧ s.max = 0 ∧ 1 ≤ s.avg ∧
      s.avg ≤ 134217728) ∨
    (∃ p q r, t = p ++ 58 :: (q ++ 58 :: r) ∧ (∀ b ∈ p, b ≠ 58) ∧ (∀ b ∈ q, b ≠ 58) ∧ Number.parseSize fm p = .ok s.min ∧
      Number.parseSize fm q = .ok s.avg ∧ Number.parseSize fm r = .ok s.max ∧ 1 ≤ s.min ∧ s.min ≤ s.avg ∧ s.avg ≤ s.max ∧
      s.max ≤ 134217728) := by
  have colon : ∀ p r : Bytes, p ++ 58 :: r ≠ [97, 117, 116, 111] := by
    intro p r h
    have : (58 : UInt8) ∈ ([97, 117, 116, 111] : Bytes) := by rw [← h]; simp
    revert this
    decide
  have free : ∀ {p r : Bytes}, ¬ ∀ b ∈ p ++ 58 :: r, b ≠ 58 := fun h => h 58 (by simp) rfl
  unfold parse
  by_cases ha : t = [97, 117, 116, 111]
  · rw [if_pos ha]
    constructor
    · intro h; injection h with h; exact .inl ⟨ha, h.symm⟩
    · rintro (⟨_, h⟩ | ⟨h, _⟩ | ⟨p, q, r, e, _⟩)
      · rw [h]
      · exact absurd ha h
      · exact absurd (e ▸ ha) (colon _ _)
  · rw [if_neg ha]
    rcases split_at t with hc | ⟨p, rest, rfl, hp⟩
    · rw [cut_none hc]
      simp only
      rw [parseSingle_iff]
      constructor
      · intro h; exact .inr (.inl ⟨ha, hc, h⟩)
      · rintro (⟨h, _⟩ | ⟨_, _, h⟩ | ⟨p, q, r, e, _⟩)
        · exact absurd h ha
        · exact h
        · exact absurd (e ▸ hc) free
    · rw [cut_colon hp]
      simp only
      rcases split_at rest with hc | ⟨q, r, rfl, hq⟩
      · rw [cut_none hc]
        simp only
        refine iff_of_false (fun h => by cases h) ?_
        rintro (⟨h, _⟩ | ⟨_, h, _⟩ | ⟨p', q', r', e, hp', _⟩)
        · exact absurd h ha
        · exact free h
        · have h1 := cut_colon (rest := rest) hp
          rw [e, cut_colon hp'] at h1
          injection h1 with h1
          injection h1 with h1 h2
          exact free (h2 ▸ hc)
      · rw [cut_colon hq]
        simp only
        rw [parseTriple_iff]
        constructor
        · intro h; exact .inr (.inr ⟨p, q, r, rfl, hp, hq, h⟩)
        · rintro (⟨h, _⟩ | ⟨_, h, _⟩ | ⟨p', q', r', e, hp', hq', h⟩)
          · exact absurd h ha
          · exact absurd h free
          · have h1 := cut_colon (rest := q ++ 58 :: r) hp
            rw [e, cut_colon hp'] at h1
            injection h1 with h1
            injection h1 with h1 h2
            have h3 := cut_colon (rest := r) hq
            rw [← h2, cut_colon hq'] at h3
            injection h3 with h3
            injection h3 with h3 h4
            subst h1 h3 h4
            exact h

theorem setSize_sizes {fpu : Fpu} {c : Chunker} {mn av mx : Nat} (hw : c.wsize = 0) (hd : (fpu.discr av).isSome) (hav : av ≠ 0)
    (h1 : av ≤ 134217728) (h2 : mn = 0 ∨ mn ≤ av) (h3 : mx = 0 ∨ (av ≤ mx ∧ mx ≤ 134217728)) :
    ∃ c', setSize fpu c mn av mx = .ok c' ∧ c'.avg = av ∧ c'.min = (if mn = 0 then Nat.max 1 (av / 4) else mn) ∧
      c'.max = (if mx = 0 then Nat.min 134217728 (av * 4) else mx) ∧ c'.wsize = 0 ∧ c'.h = c.h ∧ c'.csize = c.csize ∧
      c'.window = c.window := by
  obtain ⟨d, hd⟩ := Option.isSome_iff_exists.1 hd
  have hmin : pickMin mn av = .ok (if mn = 0 then Nat.max 1 (av / 4) else mn) := by
    unfold pickMin limitMin
    by_cases h0 : mn = 0
    · rw [if_pos h0, if_pos h0]
      have hmx : Nat.max 1 (av / 4) = if av / 4 < 1 then 1 else av / 4 := by
        show max 1 (av / 4) = _
        split <;> omega
      rw [hmx]
    · rw [if_neg h0, if_neg h0, if_neg (by omega), if_neg (by omega)]
  have hmax : pickMax mx av = .ok (if mx = 0 then Nat.min 134217728 (av * 4) else mx) := by
    unfold pickMax limitMax
    have hwrap : wrap64 (av * 4) = av * 4 := by
      unfold wrap64; apply Nat.mod_eq_of_lt; omega
    by_cases h0 : mx = 0
    · rw [if_pos h0, if_pos h0, hwrap]
      have hmx : Nat.min 134217728 (av * 4) = if av * 4 > 128 * 1024 * 1024 then 128 * 1024 * 1024 else av * 4 := by
        show min 134217728 (av * 4) = _
        split <;> omega
      rw [hmx]
    · rw [if_neg h0, if_neg h0, if_neg (by omega), if_neg (by omega)]
  have hb : 1 ≤ (if mn = 0 then Nat.max 1 (av / 4) else mn) ∧ (if mn = 0 then Nat.max 1 (av / 4) else mn) ≤ av := by
    have : Nat.max 1 (av / 4) = max 1 (av / 4) := rfl
    split <;> omega
  have hx : av ≤ (if mx = 0 then Nat.min 134217728 (av * 4) else mx) ∧ (if mx = 0 then Nat.min 134217728 (av * 4) else mx) ≤ 134217728 := by
    have : Nat.min 134217728 (av * 4) = min 134217728 (av * 4) := rfl
    split <;> omega
  unfold setSize
  rw [if_neg (by omega), pickAvg_given hav h1]
  simp only [Res.bind_ok]
  rw [hmin]
  simp only [Res.bind_ok]
  rw [hmax]
  simp only [Res.bind_ok]
  generalize (if mn = 0 then Nat.max 1 (av / 4) else mn) = m at *
  generalize (if mx = 0 then Nat.min 134217728 (av * 4) else mx) = x at *
  simp only [Res.assert, limitMin, limitMax, hb.1, hb.2, hx.1, hx.2, decide_true, if_true, hd, Res.bind_ok]
  exact ⟨_, rfl, rfl, rfl, rfl, hw, rfl, rfl, rfl⟩

/-- C63. Sizes that are accepted are used: handing them over one by one to a new synchronizer succeeds, and the chunker then has exactly
these sizes, with a quarter of and four times the average for what was not given. (The conversion of the discriminator must be defined for
the average that was asked for, which it is below 9324557 bytes, see `discr_defined`; where it is not, see `C63_large_violated`.) -/
theorem C63_used (fm : Bytes → Nat → Option Nat) (fpu : Fpu) (t : Bytes) (s : Sizes) (h : parse fm t = .ok s)
    (hd : s.avg ≠ 0 → (fpu.discr s.avg).isSome) :
    ∃ s', load fpu s { chunker := init } = .ok s' ∧ Used s s'.chunker.min s'.chunker.avg s'.chunker.max ∧ Spec.Fresh s'.chunker := by
  have hinit : init.wsize = 0 ∧ init.h = 0 ∧ init.csize = 0 ∧ init.window.length = 48 := by
    refine ⟨rfl, rfl, rfl, ?_⟩
    show (List.replicate windowSize (0 : UInt8)).length = 48
    rw [List.length_replicate]
  have fresh : ∀ {c : Chunker} {mn av mx : Nat} {c' : Chunker}, setSize fpu c mn av mx = .ok c' → c.h = 0 → c.csize = 0 →
      c.window.length = 48 → Spec.Fresh c' := by
    intro c mn av mx c' hs h1 h2 h3
    obtain ⟨v, _, _, _, _, w, e1, e2, e3⟩ := C06_set_size_ok fpu c c' mn av mx hs
    exact ⟨v, by rw [e2, h1], w, by rw [e1, h2], by rw [e3, h3]⟩
  rcases (C63_accepted fm t s).1 h with ⟨_, rfl⟩ | ⟨_, _, _, h0, h0', h1, h2⟩ | ⟨p, q, r, _, _, _, _, _, _, h1, h2, h3, h4⟩
  · exact ⟨{ chunker := init }, rfl, ⟨rfl, by decide, by decide⟩, by decide +kernel⟩
  · obtain ⟨c1, e1, a1, m1, x1, w1, rest⟩ := setSize_sizes (fpu := fpu) (c := init) (mn := 0) (mx := 0) hinit.1 (hd (by omega))
      (show s.avg ≠ 0 by omega) h2 (.inl rfl) (.inl rfl)
    refine ⟨{ chunker := c1, asked := { avg := s.avg } }, ?_, ⟨?_, ?_, ?_⟩, fresh e1 hinit.2.1 hinit.2.2.1 hinit.2.2.2⟩
    · unfold load
      rw [if_pos (show s.avg ≠ 0 by omega), h0, h0']
      unfold setAvg
      simp only [e1, Res.bind_ok, ne_eq, not_true, if_false]
    · rw [if_neg (show ¬ s.avg = 0 by omega)]; exact a1
    · rw [if_pos h0, a1]; exact m1
    · rw [if_pos h0', a1]; exact x1
  · obtain ⟨c1, e1, a1, m1, x1, w1, r1⟩ := setSize_sizes (fpu := fpu) (c := init) (mn := 0) (mx := 0) hinit.1 (hd (by omega))
      (show s.avg ≠ 0 by omega) (by omega) (.inl rfl) (.inl rfl)
    obtain ⟨c2, e2, a2, m2, x2, w2, r2⟩ := setSize_sizes (fpu := fpu) (c := c1) (mn := s.min) (mx := 0) w1 (hd (by omega))
      (show s.avg ≠ 0 by omega) (by omega) (.inr h2) (.inl rfl)
    obtain ⟨c3, e3, a3, m3, x3, w3, r3⟩ := setSize_sizes (fpu := fpu) (c := c2) (mn := s.min) (mx := s.max) w2 (hd (by omega))
      (show s.avg ≠ 0 by omega) (by omega) (.inr h2) (.inr ⟨h3, h4⟩)
    refine ⟨{ chunker := c3, asked := { min := s.min, avg := s.avg, max := s.max } }, ?_, ⟨?_, ?_, ?_⟩,
      fresh e3 (by rw [r2.1, r1.1]; rfl) (by rw [r2.2.1, r1.2.1]; rfl) (by rw [r2.2.2, r1.2.2]; exact hinit.2.2.2)⟩
    · unfold load
      rw [if_pos (show s.avg ≠ 0 by omega)]
      unfold setAvg
      simp only [e1, Res.bind_ok]
      rw [if_pos (show s.min ≠ 0 by omega)]
      unfold setMin
      simp only [e2, Res.bind_ok]
      rw [if_pos (show s.max ≠ 0 by omega)]
      unfold setMax
      simp only [e3, Res.bind_ok]
    · rw [if_neg (show ¬ s.avg = 0 by omega)]; exact a3
    · rw [m3, a3]
    · rw [x3, a3]

/-- The conversion is defined for averages below 9324557 bytes. -/
theorem discr_defined {avg : Nat} (h : avg < 9324557) : (discrExact avg).isSome := by
  unfold discrExact
  rw [if_pos (by omega)]
  rfl

theorem size_plain (n : Nat) {u f : Nat} {sfx : Bytes} (hu : SizeSpec.Unit' u sfx f) : ∀ b ∈ Number.dec n ++ sfx, b ≠ 58 := by
  intro b hb e
  rcases List.mem_append.1 hb with h | h
  · have := Number.fmt_digits (base := 10) (by decide) (by decide) n b h
    rw [e] at this
    revert this
    decide
  · rw [e] at h
    cases hu <;> revert h <;> decide

/-- C63, from the text to the chunker: `MIN:AVG:MAX`, numbers with units. -/
theorem C63_text (fm : Bytes → Nat → Option Nat) (fpu : Fpu) (n₁ n₂ n₃ u₁ u₂ u₃ f₁ f₂ f₃ : Nat) (s₁ s₂ s₃ : Bytes)
    (h₁ : SizeSpec.Unit' u₁ s₁ f₁) (h₂ : SizeSpec.Unit' u₂ s₂ f₂) (h₃ : SizeSpec.Unit' u₃ s₃ f₃) (hd : (fpu.discr (n₂ * f₂)).isSome)
    (l₁ : 1 ≤ n₁ * f₁) (l₂ : n₁ * f₁ ≤ n₂ * f₂) (l₃ : n₂ * f₂ ≤ n₃ * f₃) (l₄ : n₃ * f₃ ≤ 134217728) :
    ∃ s s', parse fm ((Number.dec n₁ ++ s₁) ++ 58 :: ((Number.dec n₂ ++ s₂) ++ 58 :: (Number.dec n₃ ++ s₃))) = .ok s ∧
      load fpu s { chunker := init } = .ok s' ∧ s'.chunker.min = n₁ * f₁ ∧ s'.chunker.avg = n₂ * f₂ ∧ s'.chunker.max = n₃ * f₃ := by
  have size : ∀ {n u f : Nat} {sfx : Bytes}, SizeSpec.Unit' u sfx f → n * f ≤ 134217728 →
      Number.parseSize fm (Number.dec n ++ sfx) = .ok (n * f) := by
    intro n u f sfx hu hl
    have hf := Number.unit_pos hu
    have hn : n ≤ n * f := Nat.le_mul_of_pos_right n hf
    rw [Number.C44_size_unit fm n u f (by omega) sfx hu, if_pos (by omega)]
  have hp : parse fm ((Number.dec n₁ ++ s₁) ++ 58 :: ((Number.dec n₂ ++ s₂) ++ 58 :: (Number.dec n₃ ++ s₃))) =
      .ok { min := n₁ * f₁, avg := n₂ * f₂, max := n₃ * f₃ } := by
    refine (C63_accepted fm _ _).2 (.inr (.inr ⟨_, _, _, rfl, size_plain n₁ h₁, size_plain n₂ h₂, size h₁ (by omega), size h₂ (by omega), size h₃ l₄, ?_⟩))
    exact ⟨l₁, l₂, l₃, l₄⟩
  obtain ⟨s', e, u, _⟩ := C63_used fm fpu _ _ hp (fun _ => hd)
  refine ⟨_, s', hp, e, ?_, ?_, ?_⟩
  · rw [u.min, if_neg (show ¬ n₁ * f₁ = 0 by omega)]
  · rw [u.avg, if_neg (show ¬ n₂ * f₂ = 0 by omega)]
  · rw [u.max, if_neg (show ¬ n₃ * f₃ = 0 by omega)]

/-- `--chunk-size=16M` is accepted, and the conversion of the discriminator for this average is undefined (cf.
`C06_discriminator_undefined`): so it is for every average from 9324557 bytes on. -/
theorem C63_large_violated (fm : Bytes → Nat → Option Nat) (n : Nat) (hn : 9 ≤ n) (hn' : n ≤ 128) :
    parse fm (Number.dec n ++ [77]) = .ok { min := 0, avg := n * 2 ^ 20, max := 0 } ∧
    load { geo := fun _ _ => 0, discr := discrExact } { min := 0, avg := n * 2 ^ 20, max := 0 } { chunker := init } = .ub := by
  have hs : Number.parseSize fm (Number.dec n ++ [77]) = .ok (n * 2 ^ 20) := by
    rw [Number.C44_size_unit fm n 4 (2 ^ 20) (by omega) [77] .M, if_pos (by omega)]
  have hplain : ∀ m : Fin 129, (∀ b ∈ Number.dec m.1 ++ [77], b ≠ 58) ∧ Number.dec m.1 ++ [77] ≠ [97, 117, 116, 111] := by
    decide +kernel
  obtain ⟨p1, p2⟩ := hplain ⟨n, by omega⟩
  refine ⟨(C63_accepted fm _ _).2 (.inr (.inl ⟨p2, p1, hs, rfl, rfl, ?_, ?_⟩)), ?_⟩
  · show 1 ≤ n * 2 ^ 20; omega
  · show n * 2 ^ 20 ≤ 134217728; omega
  · have hav : n * 2 ^ 20 ≠ 0 := by omega
    have hle : n * 2 ^ 20 ≤ 134217728 := by omega
    have hge : 9324557 ≤ n * 2 ^ 20 := by omega
    unfold load
    generalize n * 2 ^ 20 = av at *
    simp only
    rw [if_pos hav]
    unfold setAvg setSize
    rw [if_neg (show ¬ init.wsize ≠ 0 from fun h => h rfl), pickAvg_given hav hle]
    simp only [Res.bind_ok]
    obtain ⟨m, e1, m1, m2⟩ := pickMin_ok (mn := 0) hav (.inl rfl)
    obtain ⟨x, e2, x1, x2⟩ := pickMax_ok (mx := 0) hle (.inl rfl)
    rw [e1]
    simp only [Res.bind_ok]
    rw [e2]
    simp only [Res.bind_ok, Res.assert, limitMin, limitMax, m1, m2, x1, x2, decide_true, if_true,
      C06_discriminator_undefined _ hge]
    rfl

/-! ### The hypotheses are met -/

/-- `--chunk-size=16K:64K:256K` -/
example (fm : Bytes → Nat → Option Nat) :
    parse fm ((Number.dec 16 ++ [75]) ++ 58 :: ((Number.dec 64 ++ [75]) ++ 58 :: (Number.dec 256 ++ [75]))) =
      .ok { min := 16384, avg := 65536, max := 262144 } := by
  obtain ⟨s, s', h, _⟩ := C63_text fm { geo := fun _ _ => 0, discr := discrExact } 16 64 256 5 5 5 1024 1024 1024 [75] [75] [75] .K .K .K
    rfl (by decide) (by decide) (by decide) (by decide)
  have := (C63_accepted fm _ s).1 h
  rw [h]
  rcases this with ⟨e, _⟩ | ⟨_, e, _⟩ | ⟨p, q, r, _⟩
  · exact absurd e (by decide +kernel)
  · exact absurd (e 58 (by decide +kernel)) (fun h => h rfl)
  · exact h ▸ (C63_accepted fm _ _).2 (.inr (.inr ⟨_, _, _, rfl, by decide +kernel, by decide +kernel,
      Number.C44_size_unit fm 16 5 1024 (by decide) [75] .K, Number.C44_size_unit fm 64 5 1024 (by decide) [75] .K,
      Number.C44_size_unit fm 256 5 1024 (by decide) [75] .K, by decide, by decide, by decide, by decide⟩))

/-- `auto` -/
example (fm : Bytes → Nat → Option Nat) : parse fm [97, 117, 116, 111] = .ok {} := rfl

/-- `16K:64K` is refused. -/
example (fm : Bytes → Nat → Option Nat) : parse fm [49, 54, 75, 58, 54, 52, 75] = .err .EINVAL := rfl

end Casync.ChunkOptions
