import Verif.Model.Locator
import Verif.Spec.Locator
/-!
C40: the classification of locators.
-/
namespace Casync.Locator
open Casync Casync.LocatorSpec

theorem isLower_iff (b : UInt8) : isLower b = true ↔ Lower b := by simp [isLower, Lower]
theorem isProto_iff (b : UInt8) : isProto b = true ↔ ProtoChar b := by
  simp [isProto, isLower, isDigit, ProtoChar, Lower, Digit, or_assoc]
theorem isHost_iff (b : UInt8) : isHost b = true ↔ HostChar b := by
  simp [isHost, isLower, isUpper, isDigit, HostChar, Lower, Upper, Digit, or_assoc]
theorem isUrlHost_iff (b : UInt8) : isUrlHost b = true ↔ UrlHostChar b := by
  simp [isUrlHost, isHost_iff, UrlHostChar, or_assoc]

/-- Splitting a string after the longest run of certain characters. -/
theorem span_unique {p : UInt8 → Bool} {a b : Bytes} (ha : ∀ x ∈ a, p x = true) (hb : ∀ x r, b = x :: r → p x = false) :
    (a ++ b).takeWhile p = a ∧ (a ++ b).dropWhile p = b := by
  induction a with
  | nil =>
    cases b with
    | nil => simp
    | cons x r => simp [hb x r rfl]
  | cons y ys ih =>
    have hy := ha y (List.mem_cons_self ..)
    have := ih fun x hx => ha x (List.mem_cons_of_mem _ hx)
    simp [hy, this.1, this.2]

theorem takeWhile_all {p : UInt8 → Bool} : ∀ (l : Bytes) x, x ∈ l.takeWhile p → p x = true
  | [], x, h => by simp at h
  | b :: bs, x, h => by
    by_cases hb : p b = true
    · rw [List.takeWhile_cons_of_pos hb] at h
      rcases List.mem_cons.mp h with rfl | h
      · exact hb
      · exact takeWhile_all bs x h
    · rw [List.takeWhile_cons_of_neg hb] at h; cases h

theorem dropWhile_head {p : UInt8 → Bool} {l : Bytes} {x : UInt8} {r : Bytes} (h : l.dropWhile p = x :: r) : p x = false := by
  have := List.head?_dropWhile_not p l
  rw [h] at this
  simpa using this

theorem lower_not_path {s : Bytes} {c : UInt8} {r : Bytes} (hs : s = c :: r) (hc : Lower c) : isDefinitelyPath s = false := by
  subst hs
  obtain ⟨h1, h2⟩ := hc
  unfold isDefinitelyPath
  split
  · rename_i heq; injection heq with h _; subst h; simp at h1
  · rename_i heq; injection heq with h _; subst h; simp at h1
  · rename_i heq; injection heq with h _; subst h; simp at h1
  · rename_i heq; injection heq with h _; subst h; simp at h1
  · rfl

/-- The test for URLs recognizes exactly the URLs. -/
theorem isUrl_iff {s : Bytes} (hs : s ≠ []) : ∃ b, isUrl s = .ok b ∧ (b = true ↔ IsUrl s) := by
  cases s with
  | nil => exact absurd rfl hs
  | cons c s' =>
    by_cases hl : isLower c = true
    · rw [isUrl, if_neg (by rw [lower_not_path rfl ((isLower_iff c).mp hl)]; simp)]
      simp only [hl, Bool.not_true, Bool.false_eq_true, if_false]
      have happ : s'.takeWhile isProto ++ s'.dropWhile isProto = s' := List.takeWhile_append_dropWhile
      by_cases hu : IsUrl (c :: s')
      · -- a URL is accepted
        obtain ⟨c', proto, host, rest, he, hc, hp, hhne, hh, hr⟩ := hu
        simp only [List.cons_append, List.append_assoc] at he
        injection he with h1 h2
        subst h1
        have h2 : s' = proto ++ ([58, 47, 47] ++ (host ++ rest)) := h2
        have hp' := span_unique (p := isProto) (a := proto) (b := [58, 47, 47] ++ (host ++ rest)) (fun x hx => (isProto_iff x).mpr (hp x hx))
          (by intro x r h; injection h with h _; subst h; decide)
        rw [← h2] at hp'
        rw [hp'.2]
        simp only [List.cons_append, List.nil_append]
        have hh' := span_unique (p := isUrlHost) (a := host) (b := rest) (fun x hx => (isUrlHost_iff x).mpr (hh x hx)) (by
          intro x r h
          rcases hr with hr | ⟨y, r', hr, hy⟩
          · rw [hr] at h; cases h
          · rw [hr] at h; injection h with h _; subst h
            rcases hy with rfl | rfl | rfl <;> decide)
        rw [hh'.1, hh'.2, if_neg (by have := List.length_pos_iff.mpr hhne; omega)]
        have : IsUrl (c :: s') := ⟨c, proto, host, rest, by rw [h2]; simp, hc, hp, hhne, hh, hr⟩
        rcases hr with hr | ⟨y, r', hr, hy⟩
        · rw [hr]; exact ⟨true, rfl, by simp [this]⟩
        · rw [hr]
          refine ⟨_, rfl, ?_⟩
          rcases hy with rfl | rfl | rfl <;> simp [this]
      · -- anything else is not
        split
        · rename_i e heq
          split
          · exact ⟨false, rfl, by simp [hu]⟩
          · rename_i hk
            have hparts : c :: s' = c :: s'.takeWhile isProto ++ [58, 47, 47] ++ e.takeWhile isUrlHost ++ e.dropWhile isUrlHost := by
              conv => lhs; rw [← happ, heq]
              simp [List.takeWhile_append_dropWhile]
            have hne : e.takeWhile isUrlHost ≠ [] := by intro h; rw [h] at hk; simp at hk
            have hmk : (e.dropWhile isUrlHost = [] ∨ ∃ x r, e.dropWhile isUrlHost = x :: r ∧ (x = 47 ∨ x = 59 ∨ x = 63)) → IsUrl (c :: s') :=
              fun h => ⟨c, _, _, _, hparts, (isLower_iff c).mp hl, fun b hb => (isProto_iff b).mp (takeWhile_all _ b hb), hne,
                fun b hb => (isUrlHost_iff b).mp (takeWhile_all _ b hb), h⟩
            split
            · rename_i hd; exact absurd (hmk (.inl hd)) hu
            · rename_i x r hd
              refine ⟨_, rfl, ?_⟩
              simp only [hu, iff_false]
              intro hx
              apply hu
              apply hmk
              refine .inr ⟨x, r, hd, ?_⟩
              simpa [or_assoc] using hx
        · exact ⟨false, rfl, by simp [hu]⟩
    · have hu : ¬ IsUrl (c :: s') := by
        rintro ⟨c', proto, host, rest, he, hc, _⟩
        simp only [List.cons_append] at he
        injection he with h1 _
        subst h1
        exact hl ((isLower_iff _).mpr hc)
      unfold isUrl
      split
      · exact ⟨false, rfl, by simp [hu]⟩
      · simp only [hl]
        exact ⟨false, by simp, by simp [hu]⟩

theorem host_not_path {s : Bytes} (h : IsSsh s) : isDefinitelyPath s = false := by
  obtain ⟨target, path, rfl, hp, ht⟩ := h
  have hchars : ∃ c r, target = c :: r ∧ HostChar c ∧ (∀ b ∈ target, HostChar b ∨ b = 64) := by
    rcases ht with ⟨hne, hall⟩ | ⟨user, host, rfl, hu, hh, hau, hah⟩
    · cases target with
      | nil => exact absurd rfl hne
      | cons c r => exact ⟨c, r, rfl, hall c (List.mem_cons_self ..), fun b hb => .inl (hall b hb)⟩
    · cases user with
      | nil => exact absurd rfl hu
      | cons c r =>
        refine ⟨c, r ++ [64] ++ host, rfl, hau c (List.mem_cons_self ..), ?_⟩
        intro b hb
        simp only [List.mem_append, List.mem_singleton] at hb
        rcases hb with (hb | hb) | hb
        · exact .inl (hau b hb)
        · exact .inr hb
        · exact .inl (hah b hb)
  obtain ⟨c, r, rfl, hc, hall⟩ := hchars
  unfold isDefinitelyPath
  split
  · rename_i heq; injection heq with h _; subst h
    exact absurd ((isHost_iff _).mpr hc) (by decide)
  · rename_i heq; simp only [List.cons_append] at heq; injection heq with _ h; simp at h
  · rename_i heq; simp only [List.cons_append] at heq; injection heq with _ h
    cases r with
    | nil => simp at h
    | cons y ys =>
      simp only [List.cons_append] at h
      injection h with h _; subst h
      rcases hall 47 (by simp) with h | h
      · exact absurd ((isHost_iff _).mpr h) (by decide)
      · exact absurd h (by decide)
  · rename_i heq; simp only [List.cons_append] at heq; injection heq with _ h
    have := congrArg List.length h
    have hpl := List.length_pos_iff.mpr hp
    simp at this; omega
  · rfl

/-- The parts of an SSH target. -/
theorem ssh_split (s : Bytes) : IsSsh s ↔
    (s.takeWhile isHost ≠ [] ∧ ∃ rest, s.dropWhile isHost = 58 :: rest ∧ rest ≠ []) ∨
    (s.takeWhile isHost ≠ [] ∧ ∃ t rest, s.dropWhile isHost = 64 :: t ∧ t.takeWhile isHost ≠ [] ∧ t.dropWhile isHost = 58 :: rest ∧ rest ≠ []) := by
  constructor
  · rintro ⟨target, path, rfl, hp, ⟨hne, hall⟩ | ⟨user, host, rfl, hu, hh, hau, hah⟩⟩
    · left
      have h := span_unique (p := isHost) (a := target) (b := 58 :: path) (fun x hx => (isHost_iff x).mpr (hall x hx))
        (by intro x r h; injection h with h _; subst h; decide)
      have e : target ++ [58] ++ path = target ++ 58 :: path := by simp
      rw [e, h.1, h.2]
      exact ⟨hne, path, rfl, hp⟩
    · right
      have h := span_unique (p := isHost) (a := user) (b := 64 :: (host ++ 58 :: path)) (fun x hx => (isHost_iff x).mpr (hau x hx))
        (by intro x r h; injection h with h _; subst h; decide)
      have h' := span_unique (p := isHost) (a := host) (b := 58 :: path) (fun x hx => (isHost_iff x).mpr (hah x hx))
        (by intro x r h; injection h with h _; subst h; decide)
      have e : user ++ [64] ++ host ++ [58] ++ path = user ++ 64 :: (host ++ 58 :: path) := by simp
      rw [e, h.1, h.2]
      exact ⟨hu, _, path, rfl, by rw [h'.1]; exact hh, h'.2, hp⟩
  · have happ : s.takeWhile isHost ++ s.dropWhile isHost = s := List.takeWhile_append_dropWhile
    rintro (⟨hne, rest, hd, hr⟩ | ⟨hne, t, rest, hd, ht, htd, hr⟩)
    · exact ⟨s.takeWhile isHost, rest, by conv => lhs; rw [← happ, hd]
                                          simp, hr, .inl ⟨hne, fun b hb => (isHost_iff b).mp (takeWhile_all _ b hb)⟩⟩
    · have happ' : t.takeWhile isHost ++ t.dropWhile isHost = t := List.takeWhile_append_dropWhile
      refine ⟨s.takeWhile isHost ++ [64] ++ t.takeWhile isHost, rest, ?_, hr, .inr ⟨_, _, rfl, hne, ht,
        fun b hb => (isHost_iff b).mp (takeWhile_all _ b hb), fun b hb => (isHost_iff b).mp (takeWhile_all _ b hb)⟩⟩
      conv => lhs; rw [← happ, hd, ← happ', htd]
      simp

theorem isSsh_iff (s : Bytes) : isSsh s = true ↔ IsSsh s := by
  have key : (if (s.takeWhile isHost).length ≤ 0 then false
      else match s.dropWhile isHost with
        | 64 :: t =>
          if (t.takeWhile isHost).length ≤ 0 then false
          else match t.dropWhile isHost with
            | 58 :: rest => !rest.isEmpty
            | _ => false
        | 58 :: rest => !rest.isEmpty
        | _ => false) = true ↔ IsSsh s := by
    rw [ssh_split]
    by_cases h0 : s.takeWhile isHost = []
    · simp [h0]
    · rw [if_neg (by have := List.length_pos_iff.mpr h0; omega)]
      split
      · rename_i t heq
        by_cases h1 : t.takeWhile isHost = []
        · simp [h1, heq]
        · rw [if_neg (by have := List.length_pos_iff.mpr h1; omega)]
          split
          · rename_i rest heq'
            simp [h0, heq, h1, heq']
          · rename_i hno
            simp only [Bool.false_eq_true, false_iff]
            rintro (⟨_, rest, h, _⟩ | ⟨_, t', rest, h, _, h', _⟩)
            · rw [heq] at h; injection h with h _; exact absurd h (by decide)
            · rw [heq] at h; injection h with _ h; subst h; exact hno rest h'
      · rename_i rest heq
        simp [h0, heq]
      · rename_i h64 h58
        simp only [Bool.false_eq_true, false_iff]
        rintro (⟨_, rest, h, _⟩ | ⟨_, t', rest, h, _, h', _⟩)
        · exact h58 rest h
        · exact h64 t' h
  unfold isSsh
  by_cases hd : isDefinitelyPath s = true
  · rw [if_pos hd]
    simp only [Bool.false_eq_true, false_iff]
    intro h
    rw [host_not_path h] at hd; cases hd
  · rw [if_neg hd]; exact key

/-- **C40** (exactly one class).  Classification never fails; a locator is invalid exactly if it is empty, a URL exactly if it looks like one,
an SSH target exactly if it looks like one and not like a URL, and a path otherwise. -/
theorem C40_classify (s : Bytes) : ∃ r, classify s = .ok r ∧
    (r = none ↔ s = []) ∧ (r = some .url ↔ IsUrl s) ∧ (r = some .ssh ↔ IsSsh s ∧ ¬ IsUrl s) ∧
    (r = some .path ↔ s ≠ [] ∧ ¬ IsUrl s ∧ ¬ IsSsh s) := by
  unfold classify
  by_cases hs : s = []
  · subst hs
    have hu : ¬ IsUrl [] := by rintro ⟨c, p, h, r, he, _⟩; simp at he
    have hh : ¬ IsSsh [] := by rintro ⟨t, p, he, _⟩; simp at he
    exact ⟨none, by simp, by simp, by simp [hu], by simp [hh], by simp⟩
  · rw [if_neg hs]
    obtain ⟨b, hb, hi⟩ := isUrl_iff hs
    rw [hb]
    cases b with
    | true =>
      have hu := hi.mp rfl
      exact ⟨some .url, rfl, by simp [hs], by simp [hu], by simp [hu], by simp [hu]⟩
    | false =>
      have hu : ¬ IsUrl s := fun h => by have := hi.mpr h; cases this
      have hh := isSsh_iff s
      cases hssh : isSsh s with
      | true =>
        have h := hh.mp hssh
        exact ⟨some .ssh, by simp, by simp [hs], by simp [hu], by simp [hu, h], by simp [h]⟩
      | false =>
        have h : ¬ IsSsh s := fun h => by have := hh.mpr h; rw [hssh] at this; cases this
        exact ⟨some .path, by simp, by simp [hs], by simp [hu], by simp [h], by simp [hs, hu, h]⟩

/-- **C40** (local paths).  What starts with a slash or with `./`, and `.` and `..`, is a path, whatever follows. -/
theorem C40_local (s : Bytes) (h : (∃ r, s = 47 :: r) ∨ (∃ r, s = 46 :: 47 :: r) ∨ s = [46] ∨ s = [46, 46]) :
    classify s = .ok (some .path) := by
  have hd : isDefinitelyPath s = true := by
    rcases h with ⟨r, rfl⟩ | ⟨r, rfl⟩ | rfl | rfl <;> rfl
  have hne : s ≠ [] := by rcases h with ⟨r, rfl⟩ | ⟨r, rfl⟩ | rfl | rfl <;> simp
  have h1 : isUrl s = .ok false := by unfold isUrl; rw [if_pos hd]
  have h2 : isSsh s = false := by unfold isSsh; rw [if_pos hd]
  rw [classify, if_neg hne, h1, h2]
  rfl

/-! ### Suffixes -/

theorem endsWith_iff (p suffix : Bytes) : endsWith p suffix = true ↔ ∃ stem, p = stem ++ suffix := by
  unfold endsWith
  simp only [Bool.and_eq_true, decide_eq_true_eq]
  constructor
  · rintro ⟨hl, h⟩
    refine ⟨p.take (p.length - suffix.length), ?_⟩
    conv => lhs; rw [← List.take_append_drop (p.length - suffix.length) p, h]
  · rintro ⟨stem, rfl⟩
    refine ⟨by simp, ?_⟩
    simp

/-- `strrchr()` finds the last occurrence. -/
theorem strrchr_spec (c : UInt8) (p : Bytes) :
    (strrchr c p = none ↔ c ∉ p) ∧ ∀ e, strrchr c p = some e ↔ ∃ a b, p = a ++ [c] ++ b ∧ c ∉ b ∧ e = a.length := by
  unfold strrchr
  by_cases h : c ∈ p
  · have hc : p.contains c = true := by simpa using h
    rw [if_pos hc]
    obtain ⟨a, b, hp, hb⟩ : ∃ a b, p = a ++ [c] ++ b ∧ c ∉ b := by
      clear hc
      induction p with
      | nil => cases h
      | cons x xs ih =>
        by_cases hx : c ∈ xs
        · obtain ⟨a, b, rfl, hb⟩ := ih hx
          exact ⟨x :: a, b, rfl, hb⟩
        · rcases List.mem_cons.mp h with rfl | h
          · exact ⟨[], xs, rfl, hx⟩
          · exact absurd h hx
    have hlen : p.length - 1 - (p.reverse.takeWhile (· ≠ c)).length = a.length := by
      have hr : p.reverse = b.reverse ++ c :: a.reverse := by rw [hp]; simp
      have := (span_unique (p := fun x => decide (x ≠ c)) (a := b.reverse) (b := c :: a.reverse) (by
        intro x hx
        simp only [ne_eq, decide_not, Bool.not_eq_true', decide_eq_false_iff_not]
        rintro rfl
        exact hb (by simpa using hx)) (by intro x r h; injection h with h _; subst h; simp)).1
      rw [hr, this, hp]
      simp
    refine ⟨by simp [h], fun e => ?_⟩
    rw [hlen]
    constructor
    · intro he; injection he with he; exact ⟨a, b, hp, hb, he.symm⟩
    · rintro ⟨a', b', hp', hb', rfl⟩
      congr 1
      -- the last occurrence is unique
      have hh : a ++ [c] ++ b = a' ++ [c] ++ b' := hp.symm.trans hp'
      have key : ∀ (a a' b b' : Bytes), a ++ [c] ++ b = a' ++ [c] ++ b' → c ∉ b' → a.length ≤ a'.length := by
        intro a a' b b' h hb
        refine Nat.le_of_not_lt fun hlt => hb ?_
        simp only [List.append_assoc, List.singleton_append] at h
        have h1 := congrArg (List.drop (a'.length + 1)) h
        have e1 : List.drop (a'.length + 1) (a' ++ c :: b') = b' := by
          rw [List.drop_append, List.drop_eq_nil_of_le (by omega)]; simp
        rw [e1] at h1
        rw [← h1, List.drop_append_of_le_length (by omega)]
        simp
      exact Nat.le_antisymm (key a a' b b' hh hb') (key a' a b' b hh.symm hb)
  · have hc : p.contains c = false := by simpa using h
    rw [hc]
    refine ⟨by simp [h], fun e => ?_⟩
    simp only [Bool.false_eq_true, if_false]
    constructor
    · intro h; cases h
    · rintro ⟨a, b, rfl, _⟩; exact absurd (by simp) h

/-- **C40** (suffixes of paths and SSH targets).  A locator that is no URL has a suffix exactly if its last component is something followed
by the suffix: nothing before the last slash matters. -/
theorem C40_suffix_path (p suffix : Bytes) (hp : p ≠ []) (hs : suffix ≠ []) (hu : ¬ IsUrl p) :
    ∃ b, hasSuffix p suffix = .ok b ∧
      (b = true ↔ ∃ last stem, IsLastComponent p last ∧ last = stem ++ suffix ∧ stem ≠ []) := by
  obtain ⟨b, hb, hi⟩ := isUrl_iff hp
  have hbf : b = false := by cases b with
    | false => rfl
    | true => exact absurd (hi.mp rfl) hu
  subst hbf
  unfold hasSuffix
  rw [if_neg hs, if_neg hp, hb]
  simp only
  refine ⟨_, rfl, ?_⟩
  -- the last component
  have hlast : ∃ last, IsLastComponent p last ∧ (match strrchr 47 p with | some e => p.drop (e + 1) | none => p) = last ∧
      ∀ l', IsLastComponent p l' → l' = last := by
    have hspec := strrchr_spec 47 p
    cases hc : strrchr 47 p with
    | none =>
      have hnot := hspec.1.mp hc
      refine ⟨p, ⟨hnot, .inl rfl⟩, rfl, ?_⟩
      rintro l' ⟨_, h | ⟨dir, h⟩⟩
      · exact h.symm
      · exact absurd (by rw [h]; simp) hnot
    | some e =>
      obtain ⟨a, b, hpab, hb', he⟩ := (hspec.2 e).mp hc
      have hd : p.drop (e + 1) = b := by
        rw [hpab, he, show a ++ [47] ++ b = (a ++ [47]) ++ b from rfl, List.drop_append_of_le_length (by simp)]
        simp
      refine ⟨b, ⟨hb', .inr ⟨a, hpab⟩⟩, hd, ?_⟩
      rintro l' ⟨hl, h | ⟨dir, h⟩⟩
      · exact absurd (by rw [← h, hpab]; simp) hl
      · have h2 := (hspec.2 dir.length).mpr ⟨dir, l', h, hl, rfl⟩
        rw [hc] at h2
        injection h2 with h2
        have : p.drop (dir.length + 1) = l' := by
          rw [h, show dir ++ [47] ++ l' = (dir ++ [47]) ++ l' from rfl, List.drop_append_of_le_length (by simp)]
          simp
        rw [← this, ← h2, hd]
  obtain ⟨last, hl, hm, huniq⟩ := hlast
  have key : ∀ x, x = last → ((endsWith x suffix && decide (x.length ≠ suffix.length)) = true ↔
      ∃ last stem, IsLastComponent p last ∧ last = stem ++ suffix ∧ stem ≠ []) := by
    rintro x rfl
    simp only [Bool.and_eq_true, endsWith_iff, decide_eq_true_eq]
    constructor
    · rintro ⟨⟨stem, hst⟩, hne⟩
      refine ⟨_, stem, hl, hst, ?_⟩
      rintro rfl
      rw [hst] at hne
      simp at hne
    · rintro ⟨l', stem, hl', hst, hne⟩
      have := huniq _ hl'
      subst this
      refine ⟨⟨stem, hst⟩, ?_⟩
      rw [hst]
      have := List.length_pos_iff.mpr hne
      simp only [List.length_append]
      omega
  exact key _ hm

/-- The part of a URL in front of its last `?`, or its last `;` if there is no `?`. -/
def IsUrlBody (p body : Bytes) : Prop :=
  (∃ args, p = body ++ [63] ++ args ∧ 63 ∉ args) ∨ (63 ∉ p ∧ ∃ args, p = body ++ [59] ++ args ∧ 59 ∉ args) ∨ (63 ∉ p ∧ 59 ∉ p ∧ p = body)

/-- **C40** (suffixes of URLs).  A URL has a suffix exactly if the part in front of the last `?` (else of the last `;`, else all) ends with it. -/
theorem C40_suffix_url (p suffix body : Bytes) (hs : suffix ≠ []) (hu : IsUrl p) (hb : IsUrlBody p body) :
    ∃ b, hasSuffix p suffix = .ok b ∧ (b = true ↔ ∃ stem, body = stem ++ suffix) := by
  have hp : p ≠ [] := by rintro rfl; obtain ⟨c, q, h, r, he, _⟩ := hu; simp at he
  obtain ⟨b, hbb, hi⟩ := isUrl_iff hp
  have hbt : b = true := hi.mpr hu
  subst hbt
  unfold hasSuffix
  rw [if_neg hs, if_neg hp, hbb]
  simp only
  have he : (match strrchr 63 p with | some e => e | none => match strrchr 59 p with | some e => e | none => p.length) = body.length ∧
      ∃ rest, p = body ++ rest := by
    rcases hb with ⟨args, h, hn⟩ | ⟨h1, args, h, hn⟩ | ⟨h1, h2, h⟩
    · rw [((strrchr_spec 63 p).2 body.length).mpr ⟨body, args, h, hn, rfl⟩]
      exact ⟨rfl, [63] ++ args, by rw [h]; simp⟩
    · rw [(strrchr_spec 63 p).1.mpr h1, ((strrchr_spec 59 p).2 body.length).mpr ⟨body, args, h, hn, rfl⟩]
      exact ⟨rfl, [59] ++ args, by rw [h]; simp⟩
    · rw [(strrchr_spec 63 p).1.mpr h1, (strrchr_spec 59 p).1.mpr h2]
      exact ⟨by rw [h], [], by simp [h]⟩
  obtain ⟨he, rest, hrest⟩ := he
  have key : ∀ e, e = body.length → ∃ b, (if e < suffix.length then (Res.ok false : Res Bool)
      else .ok ((p.drop (e - suffix.length)).take suffix.length = suffix)) = .ok b ∧ (b = true ↔ ∃ stem, body = stem ++ suffix) := by
    rintro e rfl
    by_cases hl : body.length < suffix.length
    · rw [if_pos hl]
      refine ⟨false, rfl, ?_⟩
      simp only [Bool.false_eq_true, false_iff]
      rintro ⟨stem, h⟩
      rw [h] at hl
      simp at hl
      omega
    · rw [if_neg hl]
      refine ⟨_, rfl, ?_⟩
      simp only [decide_eq_true_eq]
      have hd : (p.drop (body.length - suffix.length)).take suffix.length = body.drop (body.length - suffix.length) := by
        rw [hrest, List.drop_append_of_le_length (by omega), List.take_append_of_le_length (by simp; omega)]
        rw [List.take_of_length_le (by simp; omega)]
      rw [hd]
      constructor
      · intro h
        exact ⟨body.take (body.length - suffix.length), by conv => lhs; rw [← List.take_append_drop (body.length - suffix.length) body, h]⟩
      · rintro ⟨stem, h⟩; rw [h]; simp
  exact key _ he

/-! ### File URLs -/

theorem unhex_digit {x : UInt8} {i : Nat} (h : HexDigit x i) : unhex x = some i := by
  unfold unhex
  rcases h with ⟨h1, h2⟩ | ⟨h1, h2, h3 | h3⟩
  · rw [if_pos (by omega), h2]; congr 1; omega
  · rw [if_neg (by omega), if_pos (by omega), h3]; congr 1; omega
  · rw [if_neg (by omega), if_neg (by omega), if_pos (by omega), h3]; congr 1; omega

theorem unescape_cons {a : UInt8} (h : a ≠ 37) (r : Bytes) : unescape (a :: r) = a :: unescape r := by
  match r with
  | [] => rfl
  | [b] => rfl
  | b :: c :: rest => rw [unescape]; simp [h]

theorem unescape_encodes {e p : Bytes} (h : Encodes e p) : unescape e = p := by
  induction h with
  | nil => rfl
  | lit b hb _ ih => rw [unescape_cons hb, ih]
  | esc x y b i j hx hy hbv _ ih =>
    rw [unescape, if_pos rfl, unhex_digit hx, unhex_digit hy]
    simp only [ih]
    congr 1
    apply UInt8.toNat_inj.mp
    rw [hbv]
    have := b.toNat_lt
    simp
    omega

theorem takeWhile_zero {p : Bytes} (h : 0 ∉ p) : p.takeWhile (· ≠ 0) = p := by
  have := (span_unique (p := fun x : UInt8 => decide (x ≠ 0)) (a := p) (b := []) (by
    intro x hx
    simp only [ne_eq, decide_not, Bool.not_eq_true', decide_eq_false_iff_not]
    rintro rfl; exact h hx) (by simp)).1
  simpa using this

/-- **C40** (file URLs).  For every absolute path and every percent encoding of it, `file://` (with or without `localhost`) followed by the
encoding stands for exactly that path, which is then classified as a path. -/
theorem C40_file_url (e p : Bytes) (he : Encodes e p) (hs : ∃ r, e = 47 :: r) (h0 : 0 ∉ p) :
    stripFileUrl ([102, 105, 108, 101, 58, 47, 47] ++ e) = p ∧
    stripFileUrl ([102, 105, 108, 101, 58, 47, 47, 108, 111, 99, 97, 108, 104, 111, 115, 116] ++ e) = p ∧
    classify p = .ok (some .path) := by
  obtain ⟨r, rfl⟩ := hs
  have hu := unescape_encodes he
  have hp : ∃ q, p = 47 :: q := by
    cases he with
    | lit b hb h => exact ⟨_, rfl⟩
  refine ⟨?_, ?_, C40_local p (.inl hp)⟩
  · simp only [List.cons_append, List.nil_append, stripFileUrl]
    rw [hu, takeWhile_zero h0]
  · simp only [List.cons_append, List.nil_append, stripFileUrl]
    rw [hu, takeWhile_zero h0]

/-- **C40** (other locators are left alone). -/
theorem C40_not_file_url (p : Bytes) (h : ∀ e, p ≠ [102, 105, 108, 101, 58, 47, 47] ++ e) : stripFileUrl p = p := by
  unfold stripFileUrl
  split
  · exact absurd rfl (h _)
  · rfl

/-! ### What the remote does -/

theorem ssh_start (s : Bytes) (target path : Bytes) (hs : s = target ++ [58] ++ path)
    (ht : (target ≠ [] ∧ ∀ b ∈ target, HostChar b) ∨
     ∃ user host, target = user ++ [64] ++ host ∧ user ≠ [] ∧ host ≠ [] ∧ (∀ b ∈ user, HostChar b) ∧ (∀ b ∈ host, HostChar b))
    (hp : path ≠ []) : sshPrefixInstall s = .ok ⟨none, target ++ [58]⟩ := by
  have hdef := host_not_path (s := s) ⟨target, path, hs, hp, ht⟩
  unfold sshPrefixInstall
  split
  · simp [isDefinitelyPath] at hdef
  · simp [isDefinitelyPath] at hdef
  · rcases ht with ⟨hne, hall⟩ | ⟨user, host, rfl, hu, hh, hau, hah⟩
    · have h := span_unique (p := isHost) (a := target) (b := 58 :: path) (fun x hx => (isHost_iff x).mpr (hall x hx))
        (by intro x r h; injection h with h _; subst h; decide)
      have e : s = target ++ 58 :: path := by rw [hs]; simp
      rw [e, h.1, h.2, if_neg (by have := List.length_pos_iff.mpr hne; omega)]
      simp only
      rw [show target ++ 58 :: path = (target ++ [58]) ++ path by simp, List.take_append_of_le_length (by simp), List.take_of_length_le (by simp)]
    · have h := span_unique (p := isHost) (a := user) (b := 64 :: (host ++ 58 :: path)) (fun x hx => (isHost_iff x).mpr (hau x hx))
        (by intro x r h; injection h with h _; subst h; decide)
      have h' := span_unique (p := isHost) (a := host) (b := 58 :: path) (fun x hx => (isHost_iff x).mpr (hah x hx))
        (by intro x r h; injection h with h _; subst h; decide)
      have e : s = user ++ 64 :: (host ++ 58 :: path) := by rw [hs]; simp
      rw [e, h.1, h.2, if_neg (by have := List.length_pos_iff.mpr hu; omega)]
      simp only
      rw [h'.1, h'.2, if_neg (by have := List.length_pos_iff.mpr hh; omega)]
      simp only
      rw [show user ++ 64 :: (host ++ 58 :: path) = (user ++ [64] ++ host ++ [58]) ++ path by simp,
        List.take_append_of_le_length (by simp; omega), List.take_of_length_le (by simp; omega)]

/-- A URL with a plain end of the host part, taken apart. -/
theorem url_start (c : UInt8) (proto host rest : Bytes) (hc : Lower c) (hp : ∀ b ∈ proto, ProtoChar b) (hne : host ≠ [])
    (hh : ∀ b ∈ host, UrlHostChar b) (hr : rest = [] ∨ ∃ r, rest = 47 :: r) :
    urlPrefixInstall (c :: proto ++ [58, 47, 47] ++ host ++ rest) = .ok ⟨some (c :: proto), c :: proto ++ [58, 47, 47] ++ host⟩ := by
  have hp' := span_unique (p := isProto) (a := proto) (b := [58, 47, 47] ++ (host ++ rest)) (fun x hx => (isProto_iff x).mpr (hp x hx))
    (by intro x r h; injection h with h _; subst h; decide)
  have hh' := span_unique (p := isUrlHost) (a := host) (b := rest) (fun x hx => (isUrlHost_iff x).mpr (hh x hx)) (by
    intro x r h
    rcases hr with hr | ⟨r', hr⟩
    · rw [hr] at h; cases h
    · rw [hr] at h; injection h with h _; subst h; decide)
  have e : c :: proto ++ [58, 47, 47] ++ host ++ rest = c :: (proto ++ ([58, 47, 47] ++ (host ++ rest))) := by simp
  have hl := (isLower_iff c).mpr hc
  rw [e]
  have htake1 : List.take (1 + proto.length) (c :: (proto ++ ([58, 47, 47] ++ (host ++ rest)))) = c :: proto := by
    rw [Nat.add_comm, List.take_succ_cons, List.take_append_of_le_length (Nat.le_refl _), List.take_of_length_le (Nat.le_refl _)]
  have htake2 : List.take (1 + proto.length + 3 + host.length) (c :: (proto ++ ([58, 47, 47] ++ (host ++ rest)))) =
      c :: proto ++ [58, 47, 47] ++ host := by
    rw [← e, List.take_append_of_le_length (by simp; omega), List.take_of_length_le (by simp; omega)]
  unfold urlPrefixInstall
  split
  · rename_i heq; injection heq with h _; subst h; exact absurd hl (by decide)
  · rename_i heq; injection heq with h _; subst h; exact absurd hl (by decide)
  · rename_i heq; cases heq
  · rename_i b s' _ _ heq
    injection heq with h1 h2
    subst h1 h2
    simp only [hl, Bool.not_true, Bool.false_eq_true, if_false]
    rw [hp'.2, hp'.1]
    simp only [List.cons_append, List.nil_append] at htake1 htake2 ⊢
    rw [hh'.1, hh'.2, if_neg (by have := List.length_pos_iff.mpr hne; omega)]
    rcases hr with hr | ⟨r, hr⟩
    · rw [hr]; rw [hr] at htake1 htake2; simp only [htake1, htake2]
    · rw [hr]; rw [hr] at htake1 htake2; simp [htake1, htake2]

theorem urlInstall_is_url {s : Bytes} {st : Start} (h : urlPrefixInstall s = .ok st) : IsUrl s := by
  unfold urlPrefixInstall at h
  split at h
  · cases h
  · cases h
  · cases h
  · rename_i b s' _ _
    split at h
    · cases h
    · rename_i hl
      have hl : isLower b = true := by simpa using hl
      split at h
      · rename_i e heq
        simp only at h
        by_cases hk : (e.takeWhile isUrlHost).length ≤ 0
        · rw [if_pos hk] at h; cases h
        · rw [if_neg hk] at h
          have happ : s'.takeWhile isProto ++ s'.dropWhile isProto = s' := List.takeWhile_append_dropWhile
          have hne : e.takeWhile isUrlHost ≠ [] := by intro h; rw [h] at hk; simp at hk
          refine ⟨b, _, _, e.dropWhile isUrlHost, ?_, (isLower_iff b).mp hl, fun x hx => (isProto_iff x).mp (takeWhile_all s' x hx), hne,
            fun x hx => (isUrlHost_iff x).mp (takeWhile_all e x hx), ?_⟩
          · conv => lhs; rw [← happ, heq]
            simp [List.takeWhile_append_dropWhile]
          · split at h
            · rename_i hd; exact .inl hd
            · rename_i x r hd
              split at h
              · cases h
              · rename_i hx; exact .inr ⟨x, r, hd, .inl (by simpa using hx)⟩
      · cases h

/-- What installing a URL prefix can return. -/
theorem urlInstall_cases (s : Bytes) (hs : s ≠ []) : (∃ st, urlPrefixInstall s = .ok st) ∨ urlPrefixInstall s = .err .EINVAL := by
  unfold urlPrefixInstall
  split
  · exact .inr rfl
  · exact .inr rfl
  · exact absurd rfl hs
  · split
    · exact .inr rfl
    · split
      · rename_i e _
        simp only
        by_cases hk : (e.takeWhile isUrlHost).length ≤ 0
        · rw [if_pos hk]; exact .inr rfl
        · rw [if_neg hk]
          split
          · exact .inl ⟨_, rfl⟩
          · split
            · exact .inr rfl
            · exact .inl ⟨_, rfl⟩
      · exact .inr rfl

/-- **C40** (SSH targets).  For what is classified as SSH target, the remote runs `ssh` with exactly the part in front of the colon as host. -/
theorem C40_remote_ssh (s : Bytes) (h : classify s = .ok (some .ssh)) :
    ∃ target path st, s = target ++ [58] ++ path ∧ 58 ∉ target ∧ anyPrefixInstall s = .ok st ∧
      command st = [[115, 115, 104], target] := by
  obtain ⟨r, hr, _, hu, hh, _⟩ := C40_classify s
  rw [h] at hr
  injection hr with hr
  subst hr
  obtain ⟨hssh, hnu⟩ := hh.mp rfl
  obtain ⟨target, path, hs, hp, ht⟩ := hssh
  have hst := ssh_start s target path hs ht hp
  have hne : s ≠ [] := by rw [hs]; simp
  refine ⟨target, path, ⟨none, target ++ [58]⟩, hs, ?_, ?_, ?_⟩
  · intro hm
    have hno : ¬ HostChar 58 := fun h => absurd ((isHost_iff _).mpr h) (by decide)
    rcases ht with ⟨_, hall⟩ | ⟨user, host, rfl, _, _, hau, hah⟩
    · exact hno (hall _ hm)
    · simp only [List.mem_append, List.mem_singleton] at hm
      rcases hm with (hm | hm) | hm
      · exact hno (hau _ hm)
      · exact absurd hm (by decide)
      · exact hno (hah _ hm)
  · unfold anyPrefixInstall
    rcases urlInstall_cases s hne with ⟨st, h'⟩ | h'
    · exact absurd (urlInstall_is_url h') hnu
    · rw [h']; exact hst
  · simp [command]

/-- **C40** (URLs).  For a URL with a path, or with nothing after the host, the remote runs the helper for exactly its protocol; the name of
the helper contains no slash. -/
theorem C40_remote_url (c : UInt8) (proto host rest : Bytes) (hc : Lower c) (hp : ∀ b ∈ proto, ProtoChar b) (hne : host ≠ [])
    (hh : ∀ b ∈ host, UrlHostChar b) (hr : rest = [] ∨ ∃ r, rest = 47 :: r) :
    ∃ st, anyPrefixInstall (c :: proto ++ [58, 47, 47] ++ host ++ rest) = .ok st ∧
      command st = [[99, 97, 115, 121, 110, 99, 45] ++ (c :: proto)] ∧ 47 ∉ [99, 97, 115, 121, 110, 99, 45] ++ (c :: proto) := by
  refine ⟨_, by unfold anyPrefixInstall; rw [url_start c proto host rest hc hp hne hh hr], rfl, ?_⟩
  intro hm
  rcases List.mem_append.mp hm with hm | hm
  · exact absurd hm (by decide)
  · rcases List.mem_cons.mp hm with h | h
    · subst h; obtain ⟨h1, h2⟩ := hc; simp at h1
    · exact absurd ((isProto_iff _).mpr (hp _ h)) (by decide)

/-- **C40** (violated).  A URL whose host is directly followed by `?` or `;` is classified as URL, but the remote runs `ssh`, with the protocol as
host name: `http://x?y` makes it connect to a host called `http`. -/
theorem C40_url_runs_ssh_violated : ∃ s st, classify s = .ok (some .url) ∧ anyPrefixInstall s = .ok st ∧
    command st = [[115, 115, 104], [104, 116, 116, 112]] :=
  ⟨[104, 116, 116, 112, 58, 47, 47, 120, 63, 121], ⟨none, [104, 116, 116, 112, 58]⟩, by decide, by decide, by decide⟩

/-- **C40** (violated, an option for `ssh`).  `-Fx:y` is an SSH target whose host is `-Fx`, which `ssh` takes for an option. -/
theorem C40_ssh_option_violated : ∃ s st, classify s = .ok (some .ssh) ∧ anyPrefixInstall s = .ok st ∧
    command st = [[115, 115, 104], [45, 70, 120]] :=
  ⟨[45, 70, 120, 58, 121], ⟨none, [45, 70, 120, 58]⟩, by decide, by decide, by decide⟩

/-! ### The default store -/

/-- **C40** (the default store is on the same host).  Replacing the last component of an SSH target keeps user and host; of a URL, protocol
and host, and the path up to its last slash. -/
theorem C40_patch_ssh (dirname : Bytes → Bytes) (target path last : Bytes) (h : classify (target ++ [58] ++ path) = .ok (some .ssh))
    (h58 : 58 ∉ target) : ∃ rest, patchLast dirname (target ++ [58] ++ path) last = .ok (target ++ [58] ++ rest) ∧
      (47 ∉ path → rest = last) := by
  have hsp := span_unique (p := fun x : UInt8 => decide (x ≠ 58)) (a := target) (b := 58 :: path) (by
    intro x hx
    simp only [ne_eq, decide_not, Bool.not_eq_true', decide_eq_false_iff_not]
    rintro rfl; exact h58 hx) (by intro x r h; injection h with h _; subst h; decide)
  have e : target ++ [58] ++ path = target ++ 58 :: path := by simp
  unfold patchLast
  rw [h]
  simp only
  rw [e, hsp.1, hsp.2]
  simp only [List.drop_succ_cons, List.drop_zero]
  split
  · rename_i hc
    refine ⟨_, rfl, fun hn => ?_⟩
    exact absurd (by simpa using hc) hn
  · exact ⟨_, rfl, fun _ => rfl⟩

theorem C40_patch_url (dirname : Bytes → Bytes) (c : UInt8) (proto host dir file args last : Bytes) (hc : Lower c)
    (hp : ∀ b ∈ proto, ProtoChar b) (hne : host ≠ []) (hh : ∀ b ∈ host, UrlHostChar b)
    (hd : ∀ b ∈ dir ++ file, b ≠ 59 ∧ b ≠ 63) (hf : 47 ∉ file) (hdir : ∃ d, dir = 47 :: d) (hslash : dir.getLast? = some 47)
    (hargs : args = [] ∨ ∃ x r, args = x :: r ∧ (x = 59 ∨ x = 63)) :
    patchLast dirname (c :: proto ++ [58, 47, 47] ++ host ++ (dir ++ file ++ args)) last =
      .ok (c :: proto ++ [58, 47, 47] ++ host ++ dir ++ last) := by
  have hurl : IsUrl (c :: proto ++ [58, 47, 47] ++ host ++ (dir ++ file ++ args)) := by
    refine ⟨c, proto, host, _, rfl, hc, hp, hne, hh, .inr ?_⟩
    obtain ⟨d, rfl⟩ := hdir
    exact ⟨47, _, rfl, .inl rfl⟩
  obtain ⟨r, hr, _, hu, _, _⟩ := C40_classify (c :: proto ++ [58, 47, 47] ++ host ++ (dir ++ file ++ args))
  have hru := hu.mpr hurl
  subst hru
  unfold patchLast
  rw [hr]
  simp only
  have h58 : ∀ x ∈ c :: proto, x ≠ 58 := by
    rintro x hx rfl
    rcases List.mem_cons.mp hx with h | h
    · subst h; obtain ⟨h1, h2⟩ := hc; simp at h1
    · exact absurd ((isProto_iff _).mpr (hp _ h)) (by decide)
  have s1 := span_unique (p := fun x : UInt8 => decide (x ≠ 58)) (a := c :: proto) (b := 58 :: 47 :: 47 :: (host ++ (dir ++ file ++ args)))
    (by intro x hx; simpa using h58 x hx) (by intro x r h; injection h with h _; subst h; decide)
  have e1 : c :: proto ++ [58, 47, 47] ++ host ++ (dir ++ file ++ args) = c :: proto ++ 58 :: 47 :: 47 :: (host ++ (dir ++ file ++ args)) := by simp
  rw [e1, s1.1, s1.2]
  simp only [List.drop_succ_cons, List.drop_zero]
  have s2 := span_unique (p := fun b : UInt8 => !(decide (b = 47) || decide (b = 59) || decide (b = 63))) (a := host) (b := dir ++ file ++ args)
    (by
      intro x hx
      have := hh x hx
      have h1 : x ≠ 47 := by rintro rfl; exact absurd ((isUrlHost_iff _).mpr this) (by decide)
      have h2 : x ≠ 59 := by rintro rfl; exact absurd ((isUrlHost_iff _).mpr this) (by decide)
      have h3 : x ≠ 63 := by rintro rfl; exact absurd ((isUrlHost_iff _).mpr this) (by decide)
      simp [h1, h2, h3])
    (by intro x r h; obtain ⟨d, rfl⟩ := hdir; injection h with h _; subst h; decide)
  rw [s2.1, s2.2]
  have s3 := span_unique (p := fun b : UInt8 => !(decide (b = 59) || decide (b = 63))) (a := dir ++ file) (b := args)
    (by intro x hx; have := hd x hx; simp [this.1, this.2])
    (by
      intro x r h
      rcases hargs with ha | ⟨y, r', ha, hy⟩
      · rw [ha] at h; cases h
      · rw [ha] at h; injection h with h _; subst h; rcases hy with rfl | rfl <;> decide)
  rw [s3.1]
  obtain ⟨d, hd', hdl⟩ : ∃ d, dir = d ++ [47] ∧ True := by
    obtain ⟨d, h⟩ := List.getLast?_eq_some_iff.mp hslash
    exact ⟨d, h, trivial⟩
  have s4 := span_unique (p := fun x : UInt8 => decide (x ≠ 47)) (a := file.reverse) (b := 47 :: d.reverse)
    (by
      intro x hx
      simp only [ne_eq, decide_not, Bool.not_eq_true', decide_eq_false_iff_not]
      rintro rfl; exact hf (by simpa using hx))
    (by intro x r h; injection h with h _; subst h; decide)
  have e2 : (dir ++ file).reverse = file.reverse ++ 47 :: d.reverse := by rw [hd']; simp
  rw [e2, s4.2]
  have e3 : (47 :: d.reverse).reverse = dir := by rw [hd']; simp
  rw [e3]
  have hend : endsWith (c :: proto ++ [58, 47, 47] ++ host ++ dir) [47] = true :=
    (endsWith_iff _ _).mpr ⟨c :: proto ++ [58, 47, 47] ++ host ++ d, by rw [hd']; simp⟩
  rw [if_pos hend]

/-! ### Extended attribute names -/

/-- The extended attributes that are stored: `user.` or `trusted.` and a non-empty rest, at most 255 bytes. -/
theorem xattr_store_iff (s : Bytes) : xattrNameStore s = true ↔
    s.length ≤ 255 ∧ ∃ rest, rest ≠ [] ∧ (s = [117, 115, 101, 114, 46] ++ rest ∨ s = [116, 114, 117, 115, 116, 101, 100, 46] ++ rest) := by
  have key : ∀ (n rest : Bytes), 46 ∉ n → n ≠ [] → xattrNameValid (n ++ [46] ++ rest) =
      (decide (rest ≠ []) && decide ((n ++ [46] ++ rest).length ≤ 255)) := by
    intro n rest hn hne
    have hsp := span_unique (p := fun x : UInt8 => decide (x ≠ 46)) (a := n) (b := 46 :: rest) (by
      intro x hx
      simp only [ne_eq, decide_not, Bool.not_eq_true', decide_eq_false_iff_not]
      rintro rfl; exact hn hx) (by intro x r h; injection h with h _; subst h; decide)
    have e : n ++ [46] ++ rest = n ++ 46 :: rest := by simp
    unfold xattrNameValid
    rw [if_neg (by simp), e, hsp.1, hsp.2]
    simp only
    rw [if_neg (by have := List.length_pos_iff.mpr hne; omega)]
    by_cases hr : rest = []
    · simp [hr]
    · simp [hr]
  unfold xattrNameStore
  simp only [Bool.and_eq_true, Bool.or_eq_true, List.isPrefixOf_iff_prefix]
  constructor
  · rintro ⟨hv, ⟨rest, h⟩ | ⟨rest, h⟩⟩
    · rw [← h, show [117, 115, 101, 114, 46] ++ rest = [117, 115, 101, 114] ++ [46] ++ rest from rfl, key _ _ (by decide) (by decide)] at hv
      simp only [Bool.and_eq_true, decide_eq_true_eq] at hv
      exact ⟨by rw [← h]; exact hv.2, rest, hv.1, .inl h.symm⟩
    · rw [← h, show [116, 114, 117, 115, 116, 101, 100, 46] ++ rest = [116, 114, 117, 115, 116, 101, 100] ++ [46] ++ rest from rfl,
        key _ _ (by decide) (by decide)] at hv
      simp only [Bool.and_eq_true, decide_eq_true_eq] at hv
      exact ⟨by rw [← h]; exact hv.2, rest, hv.1, .inr h.symm⟩
  · rintro ⟨hl, rest, hr, h | h⟩
    · refine ⟨?_, .inl ⟨rest, h.symm⟩⟩
      rw [h] at hl ⊢
      rw [show [117, 115, 101, 114, 46] ++ rest = [117, 115, 101, 114] ++ [46] ++ rest from rfl] at hl ⊢
      rw [key _ _ (by decide) (by decide)]
      simp only [Bool.and_eq_true, decide_eq_true_eq]
      exact ⟨hr, hl⟩
    · refine ⟨?_, .inr ⟨rest, h.symm⟩⟩
      rw [h] at hl ⊢
      rw [show [116, 114, 117, 115, 116, 101, 100, 46] ++ rest = [116, 114, 117, 115, 116, 101, 100] ++ [46] ++ rest from rfl] at hl ⊢
      rw [key _ _ (by decide) (by decide)]
      simp only [Bool.and_eq_true, decide_eq_true_eq]
      exact ⟨hr, hl⟩

/-! ### The hypotheses are met -/

/-- "http://h/x.caidx", "me@h:x" and "x.caidx". -/
example : classify [104, 116, 116, 112, 58, 47, 47, 104, 47, 120, 46, 99, 97, 105, 100, 120] = .ok (some .url) := by decide
example : classify [109, 101, 64, 104, 58, 120] = .ok (some .ssh) := by decide
example : classify [120, 46, 99, 97, 105, 100, 120] = .ok (some .path) := by decide
example : hasSuffix [97, 47, 120, 46, 99] [46, 99] = .ok true := by decide
example : hasSuffix [97, 47, 46, 99] [46, 99] = .ok false := by decide
/-- "/a%20" -/
example : Encodes [47, 97, 37, 50, 48] [47, 97, 32] :=
  .lit 47 (by decide) (.lit 97 (by decide) (.esc 50 48 32 2 0 (.inl (by decide)) (.inl (by decide)) (by decide) .nil))
example : patchLast id ([104, 116, 116, 112, 58, 47, 47, 104, 47, 120]) [100] = .ok [104, 116, 116, 112, 58, 47, 47, 104, 47, 100] := by decide

end Casync.Locator
