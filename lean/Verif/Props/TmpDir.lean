import Verif.Model.TmpDir
import Verif.Spec.TmpDir
/-!
C67: where temporary files go.
-/
namespace Casync.TmpDir
open Casync Spec

theorem startsWith_iff (p x : Bytes) : startsWith p x = true ↔ ∃ b, p = x ++ b := by
  unfold startsWith
  rw [decide_eq_true_eq]
  constructor
  · intro h; exact ⟨p.drop x.length, by conv => lhs; rw [← List.take_append_drop x.length p, h]⟩
  · rintro ⟨b, rfl⟩; simp

theorem endsWith_iff (p x : Bytes) : Locator.endsWith p x = true ↔ ∃ a, p = a ++ x := by
  unfold Locator.endsWith
  rw [Bool.and_eq_true, decide_eq_true_eq, decide_eq_true_eq]
  constructor
  · rintro ⟨_, h⟩; exact ⟨p.take (p.length - x.length), by conv => lhs; rw [← List.take_append_drop (p.length - x.length) p, h]⟩
  · rintro ⟨a, rfl⟩
    refine ⟨by rw [List.length_append]; omega, ?_⟩
    rw [List.length_append, Nat.add_sub_cancel]; simp

theorem strstr_iff (x : Bytes) : ∀ p : Bytes, strstr p x = true ↔ ∃ a b, p = a ++ x ++ b := by
  intro p
  induction p with
  | nil =>
    rw [strstr, decide_eq_true_eq]
    constructor
    · rintro rfl; exact ⟨[], [], rfl⟩
    · rintro ⟨a, b, h⟩
      have := h.symm
      simp only [List.append_eq_nil_iff] at this
      exact this.1.2
  | cons c p ih =>
    rw [strstr, Bool.or_eq_true, startsWith_iff, ih]
    constructor
    · rintro (⟨b, h⟩ | ⟨a, b, h⟩)
      · exact ⟨[], b, h⟩
      · exact ⟨c :: a, b, by rw [h]; rfl⟩
    · rintro ⟨a, b, h⟩
      cases a with
      | nil => exact .inl ⟨b, h⟩
      | cons d a =>
        injection h with h1 h2
        exact .inr ⟨a, b, h2⟩

theorem dotOrDotDot_iff (p : Bytes) : TempName.dotOrDotDot p = true ↔ p = [46] ∨ p = [46, 46] := by
  match p with
  | [] => simp [TempName.dotOrDotDot]
  | [a] => simp [TempName.dotOrDotDot]
  | [a, b] => simp [TempName.dotOrDotDot]
  | _ :: _ :: _ :: _ => simp [TempName.dotOrDotDot]

theorem hasDotDot_iff (p : Bytes) : HasDotDot p ↔ p = [46, 46] ∨ (∃ b, p = [46, 46, 47] ++ b) ∨ (∃ a, p = a ++ [47, 46, 46]) ∨
    ∃ a b, p = a ++ [47, 46, 46, 47] ++ b := by
  constructor
  · rintro ⟨a, b, rfl, ha, hb⟩
    have hb' : b = [] ∨ ∃ c, b = 47 :: c := by
      rcases hb with h | h
      · exact .inl h
      · cases b with
        | nil => cases h
        | cons x c => injection h with h; exact .inr ⟨c, by rw [h]⟩
    have ha' : a = [] ∨ ∃ c, a = c ++ [47] := by
      rcases ha with h | h
      · exact .inl h
      · obtain ⟨c, hc⟩ := List.getLast?_eq_some_iff.1 h
        exact .inr ⟨c, hc⟩
    rcases ha' with rfl | ⟨c, rfl⟩ <;> rcases hb' with rfl | ⟨d, rfl⟩
    · exact .inl rfl
    · exact .inr (.inl ⟨d, rfl⟩)
    · exact .inr (.inr (.inl ⟨c, by simp⟩))
    · exact .inr (.inr (.inr ⟨c, d, by simp⟩))
  · rintro (rfl | ⟨b, rfl⟩ | ⟨a, rfl⟩ | ⟨a, b, rfl⟩)
    · exact ⟨[], [], rfl, .inl rfl, .inl rfl⟩
    · exact ⟨[], 47 :: b, rfl, .inl rfl, .inr rfl⟩
    · exact ⟨a ++ [47], [], by simp, .inr (by simp), .inl rfl⟩
    · exact ⟨a ++ [47], 47 :: b, by simp, .inr (by simp), .inr rfl⟩

/-- **C67.** A path is taken for safe exactly if it is not empty, not `.`, short enough and none of its parts is `..`. -/
theorem C67_safe (p : Bytes) : pathIsSafe p = true ↔ p ≠ [] ∧ p ≠ [46] ∧ ¬ HasDotDot p ∧ p.length < 4096 := by
  rw [hasDotDot_iff]
  unfold pathIsSafe
  by_cases h1 : p = []
  · rw [if_pos h1]; simp [h1]
  rw [if_neg h1]
  by_cases h2 : TempName.dotOrDotDot p = true
  · rw [if_pos h2]
    rcases (dotOrDotDot_iff p).1 h2 with h | h
    · simp [h]
    · simp [h]
  rw [if_neg h2]
  rw [dotOrDotDot_iff] at h2
  by_cases h3 : (startsWith p [46, 46, 47] || Locator.endsWith p [47, 46, 46] || strstr p [47, 46, 46, 47]) = true
  · rw [if_pos h3]
    simp only [Bool.or_eq_true, startsWith_iff, endsWith_iff, strstr_iff] at h3
    constructor
    · intro h; cases h
    · rintro ⟨_, _, h4, _⟩
      exfalso
      apply h4
      rcases h3 with (h3 | h3) | h3
      · exact .inr (.inl h3)
      · exact .inr (.inr (.inl h3))
      · exact .inr (.inr (.inr h3))
  rw [if_neg h3]
  simp only [Bool.or_eq_true, startsWith_iff, endsWith_iff, strstr_iff] at h3
  by_cases h4 : p.length + 1 > 4096
  · rw [if_pos h4]
    constructor
    · intro h; cases h
    · rintro ⟨_, _, _, h⟩; omega
  · rw [if_neg h4]
    refine ⟨fun _ => ⟨h1, fun h => h2 (.inl h), ?_, by omega⟩, fun _ => rfl⟩
    rintro (h | h | h | h)
    · exact h2 (.inr h)
    · exact h3 (.inl (.inl h))
    · exact h3 (.inl (.inr h))
    · exact h3 (.inr h)

/-- The paths that are directories, through symlinks. -/
def IsDir (stat : Stat) (p : Bytes) : Prop := stat p = .ok true

theorem usable_iff (stat : Stat) (p : Bytes) : usable stat p = .ok () ↔ Fit (IsDir stat) p := by
  unfold usable
  constructor
  · intro h
    by_cases h1 : (!pathIsAbsolute p) = true
    · rw [if_pos h1] at h; cases h
    rw [if_neg h1] at h
    by_cases h2 : (!pathIsSafe p) = true
    · rw [if_pos h2] at h; cases h
    rw [if_neg h2] at h
    have h1 : p.head? = some 47 := by simpa [pathIsAbsolute] using h1
    obtain ⟨_, _, h3, h4⟩ := (C67_safe p).1 (by simpa using h2)
    refine ⟨h1, h3, h4, ?_⟩
    show stat p = .ok true
    cases hs : stat p with
    | error x => rw [hs] at h; cases h
    | ok b =>
      cases b with
      | false => rw [hs] at h; cases h
      | true => rfl
  · rintro ⟨h1, h2, h3, h4⟩
    have e1 : pathIsAbsolute p = true := by simp [pathIsAbsolute, h1]
    have e2 : pathIsSafe p = true := (C67_safe p).2 ⟨(by rintro rfl; cases h1), (by rintro rfl; simp at h1), h2, h3⟩
    rw [if_neg (by simp [e1]), if_neg (by simp [e2])]
    have : stat p = .ok true := h4
    rw [this]

theorem getenvLoop_found (stat : Stat) (q : Bytes) : ∀ (vs : List (Option Bytes)) (ret : Option Errno),
    getenvLoop stat vs ret = .ok (some q) ↔ First (IsDir stat) vs q := by
  intro vs
  induction vs with
  | nil => intro ret; cases ret <;> exact ⟨(fun h => (by cases h)), (fun h => (by cases h))⟩
  | cons v vs ih =>
    intro ret
    cases v with
    | none =>
      rw [getenvLoop, ih]
      constructor
      · exact fun h => .later (fun _ h => by cases h) h
      · intro h; cases h with | later _ h => exact h
    | some e =>
      rw [getenvLoop]
      cases hu : usable stat e with
      | ok u =>
        have hf := (usable_iff stat e).1 hu
        simp only
        constructor
        · intro h; injection h with h; injection h with h; subst h; exact .here hf
        · intro h
          cases h with
          | here _ => rfl
          | later hn _ => exact absurd hf (hn e rfl)
      | error r =>
        have hf : ¬ Fit (IsDir stat) e := fun h => by rw [(usable_iff stat e).2 h] at hu; cases hu
        simp only
        rw [ih]
        constructor
        · exact fun h => .later (fun p hp => by injection hp with hp; rw [← hp]; exact hf) h
        · intro h
          cases h with
          | here hg => exact absurd hg hf
          | later _ h => exact h

theorem getenvLoop_none (stat : Stat) : ∀ (vs : List (Option Bytes)) (ret : Option Errno),
    (∀ q, getenvLoop stat vs ret ≠ .ok (some q)) ↔ ∀ p, some p ∈ vs → ¬ Fit (IsDir stat) p := by
  intro vs
  induction vs with
  | nil => intro ret; refine ⟨fun _ p h => (by cases h), fun _ q => ?_⟩; cases ret <;> simp [getenvLoop]
  | cons v vs ih =>
    intro ret
    cases v with
    | none =>
      rw [getenvLoop, ih]
      simp
    | some e =>
      rw [getenvLoop]
      cases hu : usable stat e with
      | ok u =>
        have hf := (usable_iff stat e).1 hu
        exact ⟨fun h => absurd rfl (h e), fun h => absurd hf (h e (by simp))⟩
      | error r =>
        have hf : ¬ Fit (IsDir stat) e := fun h => by rw [(usable_iff stat e).2 h] at hu; cases hu
        simp only
        rw [ih]
        constructor
        · intro h p hp
          rcases List.mem_cons.1 hp with h1 | h1
          · injection h1 with h1; rw [h1]; exact hf
          · exact h p h1
        · exact fun h p hp => h p (List.mem_cons_of_mem _ hp)

/-- **C67.** The directory that is chosen is the first fit value of TMPDIR, TEMP and TMP; if there is none, it is the default, if this is a
directory. Nothing else is ever chosen. -/
theorem C67_chosen (stat : Stat) (env : Env) (dflt d : Bytes) : tmpDirInternal stat env dflt = .ok d ↔
    First (IsDir stat) [env.tmpdir, env.temp, env.tmp] d ∨
      (∀ p, some p ∈ [env.tmpdir, env.temp, env.tmp] → ¬ Fit (IsDir stat) p) ∧ IsDir stat dflt ∧ d = dflt := by
  have h1 := getenvLoop_found stat d [env.tmpdir, env.temp, env.tmp] none
  have h2 := getenvLoop_none stat [env.tmpdir, env.temp, env.tmp] none
  rw [← h1, ← h2]
  unfold tmpDirInternal
  have e : getenvTmpDir stat env = getenvLoop stat [env.tmpdir, env.temp, env.tmp] none := rfl
  rw [e]
  generalize getenvLoop stat [env.tmpdir, env.temp, env.tmp] none = r
  unfold IsDir
  cases r with
  | error x =>
    cases hs : stat dflt with
    | error y => simp
    | ok b => cases b <;> simp [eq_comm]
  | ok o =>
    cases o with
    | some q => simp
    | none =>
      cases hs : stat dflt with
      | error y => simp
      | ok b => cases b <;> simp [eq_comm]

/-- **C67.** It fails only if nothing is fit and the default is no directory. -/
theorem C67_fails (stat : Stat) (env : Env) (dflt : Bytes) : (∃ x, tmpDirInternal stat env dflt = .error x) ↔
    (∀ p, some p ∈ [env.tmpdir, env.temp, env.tmp] → ¬ Fit (IsDir stat) p) ∧ ¬ IsDir stat dflt := by
  have h2 := getenvLoop_none stat [env.tmpdir, env.temp, env.tmp] none
  rw [← h2]
  unfold tmpDirInternal
  have e : getenvTmpDir stat env = getenvLoop stat [env.tmpdir, env.temp, env.tmp] none := rfl
  rw [e]
  generalize getenvLoop stat [env.tmpdir, env.temp, env.tmp] none = r
  unfold IsDir
  cases r with
  | error x =>
    cases hs : stat dflt with
    | error y => simp
    | ok b => cases b <;> simp
  | ok o =>
    cases o with
    | some q => simp
    | none =>
      cases hs : stat dflt with
      | error y => simp
      | ok b => cases b <;> simp

/-- **C67.** Large temporary files: `/var/tmp` unless a variable says otherwise; in any case an absolute path to a directory without `..`. -/
theorem C67_var (stat : Stat) (env : Env) (d : Bytes) (h0 : varTmpDir stat env = .ok d) : Fit (IsDir stat) d := by
  rcases (C67_chosen stat env _ d).1 h0 with h | ⟨_, h1, h2⟩
  · clear h0
    generalize [env.tmpdir, env.temp, env.tmp] = vs at h
    induction h with
    | here h => exact h
    | later _ _ ih => exact ih
  · subst h2
    refine ⟨rfl, fun hd => ?_, by decide, h1⟩
    have := (C67_safe [47, 118, 97, 114, 47, 116, 109, 112]).1 (by decide)
    exact this.2.2.1 hd

/-- **C67.** Small ones: `/tmp`. -/
theorem C67_small (stat : Stat) (env : Env) (d : Bytes) (h0 : tmpDir stat env = .ok d) : Fit (IsDir stat) d := by
  rcases (C67_chosen stat env _ d).1 h0 with h | ⟨_, h1, h2⟩
  · clear h0
    generalize [env.tmpdir, env.temp, env.tmp] = vs at h
    induction h with
    | here h => exact h
    | later _ _ ih => exact ih
  · subst h2
    refine ⟨rfl, fun hd => ?_, by decide, h1⟩
    have := (C67_safe [47, 116, 109, 112]).1 (by decide)
    exact this.2.2.1 hd

/-- TMPDIR is `/a/../b` and TEMP is `c`: neither is fit; TMP is `/x..`, which is. -/
example : tmpDir (fun _ => .ok true) ⟨some [47, 97, 47, 46, 46, 47, 98], some [99], some [47, 120, 46, 46]⟩ = .ok [47, 120, 46, 46] := rfl

/-- Nothing is set and `/tmp` is a file. -/
example : tmpDir (fun _ => .ok false) ⟨none, none, none⟩ = .error .ENOTDIR := rfl

end Casync.TmpDir
