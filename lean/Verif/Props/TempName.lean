import Verif.Spec.TempName
import Verif.Model.TempName
import Verif.Props.Locator
/-!
C64: the names of temporary files.
-/
namespace Casync.TempName
open Casync

theorem hexchar_hex (x : Nat) : IsHex (hexchar x) := by
  have h : ∀ d : Fin 16, IsHex (hexchar d.val) := by unfold IsHex; decide
  have := h ⟨x % 16, Nat.mod_lt _ (by omega)⟩
  have e : hexchar (x % 16) = hexchar x := by
    have : x % 16 % 16 = x % 16 := Nat.mod_mod _ _
    unfold hexchar; rw [this]
  rwa [e] at this

theorem hexchar_inj {x y : Nat} (hx : x < 16) (hy : y < 16) (h : hexchar x = hexchar y) : x = y := by
  have h' : ∀ a b : Fin 16, hexchar a.val = hexchar b.val → a = b := by decide
  exact congrArg Fin.val (h' ⟨x, hx⟩ ⟨y, hy⟩ h)

theorem digits_length : ∀ n u, (digits n u).length = n := by
  intro n
  induction n with
  | zero => intro u; rfl
  | succ n ih => intro u; simp [digits, ih]

theorem digits_hex : ∀ n u, ∀ b ∈ digits n u, IsHex b := by
  intro n
  induction n with
  | zero => intro u b hb; cases hb
  | succ n ih =>
    intro u b hb
    rcases List.mem_cons.1 hb with rfl | hb
    · exact hexchar_hex _
    · exact ih _ b hb

theorem digits_inj : ∀ n u v, u < 16 ^ n → v < 16 ^ n → digits n u = digits n v → u = v := by
  intro n
  induction n with
  | zero => intro u v hu hv _; simp at hu hv; omega
  | succ n ih =>
    intro u v hu hv h
    have hc := List.cons.inj h
    have h1 := hexchar_inj (Nat.mod_lt u (by omega)) (Nat.mod_lt v (by omega)) hc.1
    rw [Nat.pow_succ] at hu hv
    have h2 := ih (u / 16) (v / 16) (by omega) (by omega) hc.2
    omega

theorem valid_iff (f : Bytes) :
    filenameIsValid f = true ↔ 1 ≤ f.length ∧ f.length ≤ 4096 ∧ (47 : UInt8) ∉ f ∧ f ≠ [46] ∧ f ≠ [46, 46] := by
  have hd : dotOrDotDot f = true ↔ f = [46] ∨ f = [46, 46] := by
    match f with
    | [] => simp [dotOrDotDot]
    | [a] => simp [dotOrDotDot]
    | [a, b] => simp [dotOrDotDot]
    | a :: b :: c :: r => simp [dotOrDotDot]
  unfold filenameIsValid
  by_cases h0 : f = []
  · rw [if_pos h0, h0]; simp
  have hl : 1 ≤ f.length := List.length_pos_iff.2 h0
  rw [if_neg h0]
  by_cases h1 : dotOrDotDot f = true
  · rw [if_pos h1]
    rcases hd.1 h1 with h | h <;> simp [h]
  rw [if_neg h1]
  have hn : ¬ (f = [46] ∨ f = [46, 46]) := fun h => h1 (hd.2 h)
  by_cases h2 : (47 : UInt8) ∈ f
  · rw [if_pos (by simpa using h2)]; simp [h2]
  rw [if_neg (by simpa using h2)]
  by_cases h3 : f.length > 4096
  · rw [if_pos h3]; simp; omega
  · rw [if_neg h3]
    simp only [true_iff]
    exact ⟨hl, by omega, h2, fun h => hn (.inl h), fun h => hn (.inr h)⟩

theorem cut_entry {p d f : Bytes} (h : Entry p d f) : cut p = d.length := by
  have hs := Locator.strrchr_spec 47 p
  unfold cut
  rcases h.dir with hd | ⟨e, hd⟩
  · rw [hs.1.2 (by rw [h.path, hd]; simpa using h.name), hd]; rfl
  · rw [(hs.2 e.length).2 ⟨e, f, by rw [h.path, hd], h.name, rfl⟩, hd]; simp

/-- The code cuts a path at its last slash. -/
theorem tempfn_entry {p d f : Bytes} (h : Entry p d f) (u : Nat) :
    tempfn p u = if filenameIsValid f then .ok (d ++ [46, 35] ++ f ++ digits 16 u) else .err .EINVAL := by
  have h1 := cut_entry h
  unfold tempfn
  simp only
  rw [h1, h.path, List.drop_left, List.take_left]

/-- Every path is that of exactly one entry. -/
theorem entry_exists (p : Bytes) : ∃ d f, Entry p d f := by
  have hs := Locator.strrchr_spec 47 p
  cases hc : Locator.strrchr 47 p with
  | none => exact ⟨[], p, rfl, .inl rfl, hs.1.1 hc⟩
  | some e =>
    obtain ⟨a, b, h1, h2, _⟩ := (hs.2 e).1 hc
    exact ⟨a ++ [47], b, h1, .inr ⟨a, rfl⟩, h2⟩

theorem tempfn_ok {p d f t : Bytes} {u : Nat} (h : Entry p d f) (ht : tempfn p u = .ok t) :
    filenameIsValid f = true ∧ t = d ++ [46, 35] ++ f ++ digits 16 u := by
  rw [tempfn_entry h] at ht
  by_cases hv : filenameIsValid f = true
  · rw [if_pos hv] at ht
    injection ht with ht
    exact ⟨hv, ht.symm⟩
  · rw [if_neg hv] at ht; cases ht

theorem hex_ne {b : UInt8} (h : IsHex b) : b ≠ 47 := by
  rintro rfl
  have : (47 : UInt8).toNat = 47 := rfl
  unfold IsHex at h
  omega

/-- **C64.** Which paths get a temporary name: those whose last part is neither empty nor `.` nor `..` and has at most 4096 bytes; for all
others the outcome is EINVAL. -/
theorem C64_accepted {p d f : Bytes} (h : Entry p d f) (u : Nat) :
    ((∃ t, tempfn p u = .ok t) ↔ 1 ≤ f.length ∧ f.length ≤ 4096 ∧ f ≠ [46] ∧ f ≠ [46, 46]) ∧
      ((∃ t, tempfn p u = .ok t) ∨ tempfn p u = .err .EINVAL) := by
  rw [tempfn_entry h]
  have hv := valid_iff f
  by_cases hf : filenameIsValid f = true
  · rw [if_pos hf]
    obtain ⟨h1, h2, _, h4, h5⟩ := hv.1 hf
    exact ⟨⟨fun _ => ⟨h1, h2, h4, h5⟩, fun _ => ⟨_, rfl⟩⟩, .inl ⟨_, rfl⟩⟩
  · rw [if_neg hf]
    refine ⟨⟨fun ⟨t, ht⟩ => (by cases ht), fun ⟨h1, h2, h3, h4⟩ => ?_⟩, .inr rfl⟩
    exact absurd (hv.2 ⟨h1, h2, h.name, h3, h4⟩) hf

/-- **C64.** The temporary name is an entry of the same directory, so that the final `rename()` never crosses file systems; it is hidden,
and it is neither `.` nor `..` nor the final name. -/
theorem C64_same_directory {p d f t : Bytes} {u : Nat} (h : Entry p d f) (ht : tempfn p u = .ok t) :
    (∃ g, Entry t d g ∧ [46, 35] <+: g ∧ g ≠ [46] ∧ g ≠ [46, 46]) ∧ t ≠ p := by
  obtain ⟨hv, rfl⟩ := tempfn_ok h ht
  refine ⟨⟨[46, 35] ++ f ++ digits 16 u, ⟨by simp, h.dir, ?_⟩, ⟨f ++ digits 16 u, by simp⟩, ?_, ?_⟩, ?_⟩
  · intro hm
    rcases List.mem_append.1 hm with hm | hm
    · rcases List.mem_append.1 hm with hm | hm
      · revert hm; decide
      · exact h.name hm
    · exact hex_ne (digits_hex _ _ _ hm) rfl
  · intro e
    have := congrArg List.length e
    simp [digits_length] at this
  · intro e
    have := congrArg List.length e
    simp [digits_length] at this
  · intro e
    rw [h.path] at e
    have := congrArg List.length e
    simp [digits_length] at this
    omega

/-- **C64.** Different outputs never share a temporary name, and neither do two attempts at one output that drew different numbers. -/
theorem C64_distinct {p q t : Bytes} {u v : Nat} (hu : u < 2 ^ 64) (hv : v < 2 ^ 64) (h1 : tempfn p u = .ok t) (h2 : tempfn q v = .ok t) :
    p = q ∧ u = v := by
  obtain ⟨d, f, hp⟩ := entry_exists p
  obtain ⟨e, g, hq⟩ := entry_exists q
  obtain ⟨-, e1⟩ := tempfn_ok hp h1
  obtain ⟨-, e2⟩ := tempfn_ok hq h2
  rw [e1] at e2
  have hl : (digits 16 u).length = (digits 16 v).length := by rw [digits_length, digits_length]
  obtain ⟨h3, h4⟩ := List.append_inj' e2 hl
  refine ⟨?_, digits_inj 16 u v (by omega) (by omega) h4⟩
  -- the directories are what comes before the last slash
  have hf : (47 : UInt8) ∉ [46, 35] ++ f := by simpa using hp.name
  have hg : (47 : UInt8) ∉ [46, 35] ++ g := by simpa using hq.name
  have hp' : Entry (d ++ ([46, 35] ++ f)) d ([46, 35] ++ f) := ⟨rfl, hp.dir, hf⟩
  rw [List.append_assoc, List.append_assoc] at h3
  have hdl : d.length = e.length := by
    rw [← cut_entry hp', ← cut_entry ⟨h3, hq.dir, hg⟩]
  obtain ⟨h5, h6⟩ := List.append_inj h3 hdl
  rw [hp.path, hq.path, h5, List.append_cancel_left h6]

/-- **C64.** A temporary file is never taken for a finished one: its name ends with a hexadecimal digit, so it has no suffix that ends
otherwise, such as that of a chunk. -/
theorem C64_suffix {p t s : Bytes} {c : UInt8} {u : Nat} (ht : tempfn p u = .ok t) (hc : ¬ IsHex c) : ¬ (s ++ [c]) <:+ t := by
  obtain ⟨d, f, hp⟩ := entry_exists p
  obtain ⟨-, rfl⟩ := tempfn_ok hp ht
  rintro ⟨a, ha⟩
  have hne : digits 16 u ≠ [] := by
    intro e
    have := congrArg List.length e
    rw [digits_length] at this
    cases this
  have h1 : (a ++ (s ++ [c])).getLast? = some c := by rw [← List.append_assoc]; simp
  rw [ha, List.getLast?_append, List.getLast?_eq_some_getLast hne, Option.some_or] at h1
  injection h1 with h1
  exact hc (h1 ▸ digits_hex _ _ _ (List.getLast_mem hne))

/-- The suffix of chunk files, `.cacnk`: no temporary file is a chunk. -/
theorem C64_no_chunk {p t : Bytes} {u : Nat} (ht : tempfn p u = .ok t) : ¬ ([46, 99, 97, 99, 110, 107] : Bytes) <:+ t :=
  C64_suffix (s := [46, 99, 97, 99, 110]) ht (by unfold IsHex; decide)

/-- **C64, what holds of the length.** A name that leaves room for the 18 additional bytes has a temporary name the system accepts. -/
theorem C64_fits_partial {p d f t : Bytes} {u : Nat} (h : Entry p d f) (ht : tempfn p u = .ok t) (hf : f.length ≤ 237) :
    ∃ g, Entry t d g ∧ Nameable g := by
  obtain ⟨⟨g, hg, _, h1, h2⟩, _⟩ := C64_same_directory h ht
  obtain ⟨hv, rfl⟩ := tempfn_ok h ht
  have e : g = [46, 35] ++ f ++ digits 16 u := by
    have := hg.path
    rw [List.append_assoc, List.append_assoc] at this
    rw [List.append_assoc]
    exact (List.append_cancel_left this).symm
  have hl : g.length = f.length + 18 := by rw [e]; simp [digits_length]
  exact ⟨g, hg, by omega, by omega, hg.name, h1, h2⟩

/-- **C64 does not hold of the code.** Every name of 238 to 255 bytes, which the system accepts, gets a temporary name the system does not
accept: a file with such a name cannot be extracted, nor an index or archive of such a name be created. -/
theorem C64_long_violated {p d f : Bytes} (h : Entry p d f) (hn : Nameable f) (hl : 238 ≤ f.length) (u : Nat) :
    ∃ t g, tempfn p u = .ok t ∧ Entry t d g ∧ ¬ Nameable g := by
  have hv : filenameIsValid f = true := (valid_iff f).2 ⟨hn.some, by have := hn.short; omega, hn.slash, hn.dot, hn.dots⟩
  have ht : tempfn p u = .ok (d ++ [46, 35] ++ f ++ digits 16 u) := by rw [tempfn_entry h, if_pos hv]
  obtain ⟨⟨g, hg, _⟩, _⟩ := C64_same_directory h ht
  refine ⟨_, g, ht, hg, fun hG => ?_⟩
  have e : g = [46, 35] ++ f ++ digits 16 u := by
    have := hg.path
    rw [List.append_assoc, List.append_assoc] at this
    rw [List.append_assoc]
    exact (List.append_cancel_left this).symm
  have : g.length = f.length + 18 := by rw [e]; simp [digits_length]
  have := hG.short
  omega

/-- `/foo/bar/waldo` becomes `/foo/bar/.#waldobaa2a261115984a9` for the number 0x9a489511162a2aab. -/
example : tempfn "/foo/bar/waldo".toUTF8.toList 0x9a489511162a2aab = .ok "/foo/bar/.#waldobaa2a261115984a9".toUTF8.toList := by decide +kernel

example : Entry "a/b".toUTF8.toList [97, 47] [98] := ⟨by decide +kernel, .inr ⟨[97], rfl⟩, by decide⟩

/-- The hypotheses of `C64_long_violated` can be met: 255 times `a`. -/
example : Entry (List.replicate 255 97) [] (List.replicate 255 97) ∧ Nameable (List.replicate 255 97) :=
  ⟨⟨rfl, .inl rfl, by decide +kernel⟩, by decide +kernel, by decide +kernel, by decide +kernel, by decide +kernel, by decide +kernel⟩

end Casync.TempName
