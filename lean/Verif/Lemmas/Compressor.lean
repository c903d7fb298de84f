import Verif.Spec.Compressor
/-!
Lemmas for C61.
-/
namespace Casync.Stream
open Casync

theorem magic_eq (k : Kind) : Magic k = signature k := by cases k <;> rfl

theorem detect_of_magic (k : Kind) (x : Bytes) (h : Magic k <+: x) : detect x = .ok k := by
  obtain ⟨t, rfl⟩ := h
  cases k <;> simp [detect, hasSignature, signature, Magic]

theorem has_iff (b : Bytes) (k : Kind) : hasSignature b k = true ↔ Magic k <+: b := by
  unfold hasSignature
  rw [magic_eq, Bool.and_eq_true, decide_eq_true_eq, decide_eq_true_eq, List.prefix_iff_eq_take]
  constructor
  · rintro ⟨_, h⟩; exact h.symm
  · intro h
    refine ⟨?_, h.symm⟩
    have := congrArg List.length h
    rw [List.length_take] at this
    omega

theorem detect_ok (b : Bytes) (k : Kind) (h : detect b = .ok k) : Magic k <+: b := by
  unfold detect at h
  split at h
  · rename_i h1; injection h with h; subst h; exact (has_iff _ _).1 h1
  split at h
  · rename_i h1; injection h with h; subst h; exact (has_iff _ _).1 h1
  split at h
  · rename_i h1; injection h with h; subst h; exact (has_iff _ _).1 h1
  split at h <;> cases h

theorem detect_cases (b : Bytes) : (∃ k, detect b = .ok k ∧ Magic k <+: b) ∨
    (detect b = .err .EAGAIN ∧ b.length < 6 ∧ ∀ k, ¬ Magic k <+: b) ∨ (detect b = .err .EBADMSG ∧ 6 ≤ b.length ∧ ∀ k, ¬ Magic k <+: b) := by
  by_cases hx : hasSignature b .xz = true
  · exact .inl ⟨.xz, by simp [detect, hx], (has_iff _ _).1 hx⟩
  by_cases hg : hasSignature b .gzip = true
  · exact .inl ⟨.gzip, by simp [detect, hx, hg], (has_iff _ _).1 hg⟩
  by_cases hz : hasSignature b .zstd = true
  · exact .inl ⟨.zstd, by simp [detect, hx, hg, hz], (has_iff _ _).1 hz⟩
  have hn : ∀ k, ¬ Magic k <+: b := by
    intro k hk
    cases k
    · exact hx ((has_iff _ _).2 hk)
    · exact hg ((has_iff _ _).2 hk)
    · exact hz ((has_iff _ _).2 hk)
  by_cases hl : b.length < 6
  · exact .inr (.inl ⟨by simp [detect, hx, hg, hz, hl], hl, hn⟩)
  · exact .inr (.inr ⟨by simp [detect, hx, hg, hz, hl], by omega, hn⟩)

theorem detect_short (k : Kind) (x z : Bytes) (hz : Magic k <+: z) (hc : Comparable x z) :
    (detect x = .ok k ∧ Magic k <+: x) ∨ (detect x = .err .EAGAIN ∧ x <+: Magic k ∧ x.length < (Magic k).length) := by
  have hcm : Comparable x (Magic k) := by
    rcases hc with h | h
    · rcases List.prefix_or_prefix_of_prefix h hz with h' | h'
      · exact .inl h'
      · exact .inr h'
    · exact .inr (hz.trans h)
  by_cases hm : Magic k <+: x
  · exact .inl ⟨detect_of_magic _ _ hm, hm⟩
  · have hp : x <+: Magic k := hcm.resolve_right hm
    have hl : x.length < (Magic k).length := by
      rcases Nat.lt_or_ge x.length (Magic k).length with h | h
      · exact h
      · exact absurd (hp.eq_of_length_le h ▸ List.prefix_refl _) hm
    refine .inr ⟨?_, hp, hl⟩
    have hx := List.prefix_iff_eq_take.1 hp
    have : ∀ k : Kind, ∀ j : Fin 6, j.1 < (Magic k).length → detect ((Magic k).take j.1) = .err .EAGAIN := by
      intro k; cases k <;> decide
    have h6 : (Magic k).length ≤ 6 := by cases k <;> decide
    rw [hx]
    exact this k ⟨x.length, by omega⟩ hl

section
variable {σ : Type} {L : Lib σ} {fmt : Format} {At : Kind → σ → Bytes → Bytes → Prop}

/-- What one call of `compressor_decode` comes to. -/
theorem decode_cases (hL : Decodes L fmt At) (c : Ctx σ) (k : Kind) (z d : Bytes) (ha : At k c.state z d) (hi : c.pending ≠ []) :
    (∃ e, decode L c = .err e) ∨
    (∃ out c', decode L c = .ok (.eof, out, c') ∧ fmt k (z ++ c.pending) (d ++ out)) ∨
    (∃ out c' m, decode L c = .ok (.more, out, c') ∧ c'.pending ≠ [] ∧ c'.pending = c.pending.drop m ∧
      At k c'.state (z ++ c.pending.take m) (d ++ out) ∧ (0 < m ∨ out ≠ [])) ∨
    (∃ out c', decode L c = .ok (.good, out, c') ∧ At k c'.state (z ++ c.pending) (d ++ out)) := by
  have hl : c.pending.length > 0 := List.length_pos_iff.2 hi
  have hb := hL.bounds k c.state z d c.pending BLOCK ha hi (by decide)
  have hm := hL.more k c.state z d c.pending BLOCK ha hi (by decide)
  have hf := hL.fin k c.state z d c.pending BLOCK ha hi (by decide)
  unfold decode
  rw [if_pos hl]
  simp only
  have hall : ¬ (c.pending.drop (L.decode c.state c.pending BLOCK).used).length > 0 →
      c.pending.take (L.decode c.state c.pending BLOCK).used = c.pending := by
    intro h
    rw [List.length_drop] at h
    exact List.take_of_length_le (by omega)
  generalize L.decode c.state c.pending BLOCK = s at *
  cases hs : s.answer with
  | bad => exact .inl ⟨_, rfl⟩
  | fin =>
    simp only
    by_cases hr : (c.pending.drop s.used).length > 0
    · rw [if_pos hr]; exact .inl ⟨_, rfl⟩
    · rw [if_neg hr]
      refine .inr (.inl ⟨_, _, rfl, ?_⟩)
      have := hf hs
      rwa [hall hr] at this
  | more =>
    simp only
    by_cases hr : (c.pending.drop s.used).length > 0
    · rw [if_pos hr]
      exact .inr (.inr (.inl ⟨_, _, s.used, rfl, List.length_pos_iff.1 hr, rfl, (hm hs).1, (hm hs).2⟩))
    · rw [if_neg hr]
      refine .inr (.inr (.inr ⟨_, _, rfl, ?_⟩))
      have := (hm hs).1
      rwa [hall hr] at this

/-- What one call of `compressor_decode` comes to on a stream of the format, of which `w` has not been taken yet. -/
theorem decode_whole (hf : fmt.Ok) (hL : Decodes L fmt At) (c : Ctx σ) (k : Kind) (z d w u : Bytes) (ha : At k c.state z d)
    (hw : w ≠ []) (hz : fmt k (z ++ w) u) (hi : c.pending ≠ []) (hc : Comparable c.pending w) :
    (∃ out c', decode L c = .ok (.eof, out, c') ∧ c.pending = w ∧ d ++ out = u) ∨
    (decode L c = .err .EBADMSG ∧ w <+: c.pending ∧ c.pending ≠ w) ∨
    (∃ out c' m, decode L c = .ok (.more, out, c') ∧ c'.pending ≠ [] ∧ c'.pending = c.pending.drop m ∧ m < w.length ∧ m ≤ c.pending.length ∧
      c.pending.take m = w.take m ∧
      At k c'.state (z ++ w.take m) (d ++ out) ∧ d ++ out <+: u ∧ (0 < m ∨ out ≠ [])) ∨
    (∃ out c', decode L c = .ok (.good, out, c') ∧ c.pending <+: w ∧ c.pending.length < w.length ∧
      At k c'.state (z ++ c.pending) (d ++ out) ∧ d ++ out <+: u) := by
  have hl : c.pending.length > 0 := List.length_pos_iff.2 hi
  have hb := hL.bounds k c.state z d c.pending BLOCK ha hi (by decide)
  have hm := hL.more k c.state z d c.pending BLOCK ha hi (by decide)
  have hfi := hL.fin k c.state z d c.pending BLOCK ha hi (by decide)
  have hwh := hL.whole k c.state z d w u c.pending BLOCK ha hw hz hi hc (by decide)
  unfold decode
  rw [if_pos hl]
  simp only
  have htk : ∀ m, m ≤ c.pending.length → m ≤ w.length → c.pending.take m = w.take m := by
    intro m h1 h2
    rcases hc with ⟨t, ht⟩ | ⟨t, ht⟩
    · rw [← ht, List.take_append_of_le_length h1]
    · rw [← ht, List.take_append_of_le_length h2]
  have hpre : w.length ≤ c.pending.length → w <+: c.pending := by
    intro h
    rcases hc with h' | h'
    · rw [h'.eq_of_length_le h]
      exact List.prefix_refl _
    · exact h'
  generalize L.decode c.state c.pending BLOCK = s at *
  cases hs : s.answer with
  | bad => exact absurd hs hwh.1
  | fin =>
    simp only
    have h1 := hfi hs
    rw [htk _ hb.1 hwh.2.1] at h1
    have h2 := hf.once k (z ++ w.take s.used) (d ++ s.out) (w.drop s.used) u h1 (by rw [List.append_assoc, List.take_append_drop]; exact hz)
    have hu : w.length ≤ s.used := by
      have := congrArg List.length h2.1
      rw [List.length_drop, List.length_nil] at this
      omega
    by_cases hr : (c.pending.drop s.used).length > 0
    · rw [if_pos hr]
      rw [List.length_drop] at hr
      refine .inr (.inl ⟨rfl, hpre (by omega), ?_⟩)
      intro e
      rw [e] at hr
      omega
    · rw [if_neg hr]
      rw [List.length_drop] at hr
      have hle : c.pending.length = w.length := by omega
      refine .inl ⟨_, _, rfl, ((hpre (by omega)).eq_of_length hle.symm).symm, h2.2.symm⟩
  | more =>
    simp only
    have h3 := hwh.2.2 hs
    have h4 := hm hs
    by_cases hr : (c.pending.drop s.used).length > 0
    · rw [if_pos hr]
      have h5 := htk _ hb.1 hwh.2.1
      refine .inr (.inr (.inl ⟨_, _, s.used, rfl, List.length_pos_iff.1 hr, rfl, h3.1, hb.1, h5, ?_, h3.2, h4.2⟩))
      rw [← h5]; exact h4.1
    · rw [if_neg hr]
      rw [List.length_drop] at hr
      refine .inr (.inr (.inr ⟨_, _, rfl, ?_, by omega, ?_, h3.2⟩))
      · rcases hc with h' | h'
        · exact h'
        · have := h'.length_le; omega
      · have := h4.1
        rwa [List.take_of_length_le (by omega)] at this

theorem good_pending (c : Ctx σ) (out : Bytes) (c' : Ctx σ) (he : decode L c = .ok (.good, out, c')) : c'.pending = [] := by
  unfold decode at he
  split at he
  · simp only at he
    cases hs : (L.decode c.state c.pending BLOCK).answer with
    | bad => rw [hs] at he; cases he
    | fin => rw [hs] at he; simp only at he; split at he <;> cases he
    | more =>
      rw [hs] at he; simp only at he
      split at he
      · cases he
      · rename_i hh
        injection he with he; injection he with _ he; injection he with _ he
        rw [← he]
        exact List.length_eq_zero_iff.1 (Nat.eq_zero_of_not_pos hh)
  · cases he

theorem decode_nothing (c : Ctx σ) (h : c.pending = []) : decode L c = .ub := by
  unfold decode; rw [h]; rfl

/-! ## `ca_decompress` -/

theorem decompressLoop_sound (hL : Decodes L fmt At) (k : Kind) : ∀ (n : Nat) (c : Ctx σ) (z d buf : Bytes),
    At k c.state z d → c.pending ≠ [] → d.length < LIMIT →
    ∀ b, decompressLoop L n c (buf ++ d) d.length = some (.ok b) →
      ∃ u, b = buf ++ u ∧ fmt k (z ++ c.pending) u ∧ 1 ≤ u.length ∧ u.length < LIMIT := by
  intro n
  induction n with
  | zero => intro c z d buf _ _ _ b h; cases h
  | succ n ih =>
    intro c z d buf ha hi hd b h
    unfold decompressLoop at h
    rcases decode_cases hL c k z d ha hi with ⟨e, he⟩ | ⟨out, c', he, hz⟩ | ⟨out, c', m, he, hne, hp, ha', _⟩ | ⟨out, c', he, ha'⟩
    · rw [he] at h; cases h
    · rw [he] at h
      simp only at h
      split at h
      · cases h
      split at h
      · cases h
      · rename_i h1 h2
        injection h with h; injection h with h
        refine ⟨d ++ out, by rw [← h, List.append_assoc], hz, ?_, ?_⟩ <;> rw [List.length_append] <;> omega
    · rw [he] at h
      simp only at h
      split at h
      · cases h
      · rename_i h1
        rw [List.append_assoc, ← List.length_append] at h
        obtain ⟨u, h5, h6, h7⟩ := ih c' _ _ buf ha' hne (by rw [List.length_append]; omega) b h
        refine ⟨u, h5, ?_, h7⟩
        rwa [hp, List.append_assoc, List.take_append_drop] at h6
    · rw [he] at h
      simp only at h
      split at h
      · cases h
      · exfalso
        cases n with
        | zero => cases h
        | succ n =>
          unfold decompressLoop at h
          have hg := decode_nothing (L := L) c' (good_pending c out c' he)
          rw [hg] at h
          cases h

theorem prefix_drop {a b : Bytes} (m : Nat) (h : a <+: b) : a.drop m <+: b.drop m := by
  obtain ⟨t, rfl⟩ := h
  rw [List.drop_append]
  exact List.prefix_append _ _

theorem drop_comparable {a b : Bytes} (m : Nat) (h : Comparable a b) : Comparable (a.drop m) (b.drop m) := by
  rcases h with h | h
  · exact .inl (prefix_drop m h)
  · exact .inr (prefix_drop m h)

/-- What the loop of `ca_decompress` comes to on something that is comparable with a stream of the format. -/
theorem decompressLoop_whole (hf : fmt.Ok) (hL : Decodes L fmt At) (k : Kind) (u buf : Bytes) (hu : u.length < LIMIT) :
    ∀ (n : Nat) (c : Ctx σ) (z d w : Bytes), At k c.state z d → w ≠ [] → fmt k (z ++ w) u → c.pending ≠ [] → Comparable c.pending w →
    n > c.pending.length + (LIMIT - d.length) → d <+: u →
    (c.pending = w → 1 ≤ u.length → decompressLoop L n c (buf ++ d) d.length = some (.ok (buf ++ u))) ∧
    (c.pending <+: w → c.pending ≠ w → decompressLoop L n c (buf ++ d) d.length = some .ub) ∧
    (w <+: c.pending → c.pending ≠ w → decompressLoop L n c (buf ++ d) d.length = some (.err .EBADMSG)) := by
  intro n
  induction n with
  | zero => intro c z d w _ _ _ _ _ hn; omega
  | succ n ih =>
    intro c z d w ha hw hz hi hc hn hdu
    have hdl := hdu.length_le
    have hanti : ∀ {a b : Bytes}, a <+: b → b <+: a → a = b := fun h1 h2 => h1.eq_of_length_le h2.length_le
    unfold decompressLoop
    rcases decode_whole hf hL c k z d w u ha hw hz hi hc with ⟨out, c', he, h1, h2⟩ | ⟨he, h1, h2⟩ |
      ⟨out, c', m, he, hne, hp, hm, hmc, htk, ha', hpre, hprog⟩ | ⟨out, c', he, h1, h2, ha', hpre⟩
    · have hlen : d.length + out.length < LIMIT := by rw [← List.length_append, h2]; exact hu
      have hlen2 : d.length + out.length = u.length := by rw [← List.length_append, h2]
      rw [he]
      simp only
      rw [if_neg (by omega)]
      refine ⟨fun _ h3 => ?_, fun _ h3 => absurd h1 h3, fun _ h3 => absurd h1 h3⟩
      rw [if_neg (by omega), List.append_assoc, h2]
    · rw [he]
      exact ⟨fun h3 => absurd h3 h2, fun h3 h4 => absurd (hanti h3 h1) h4, fun _ _ => rfl⟩
    · have hl2 := hpre.length_le
      rw [List.length_append] at hl2
      rw [he]
      simp only
      rw [if_neg (by omega), List.append_assoc, ← List.length_append]
      have hwd : w.drop m ≠ [] := by
        intro h
        have := congrArg List.length h
        rw [List.length_drop, List.length_nil] at this
        omega
      have hpl : c'.pending.length = c.pending.length - m := by rw [hp, List.length_drop]
      have hfu : n > c'.pending.length + (LIMIT - (d ++ out).length) := by
        rw [List.length_append, hpl]
        rcases hprog with h | h
        · have h' : c.pending.length > 0 := List.length_pos_iff.2 hi
          omega
        · have h' : out.length > 0 := List.length_pos_iff.2 h
          omega
      have hcd : Comparable c'.pending (w.drop m) := by rw [hp]; exact drop_comparable m hc
      obtain ⟨i1, i2, i3⟩ := ih c' (z ++ w.take m) (d ++ out) (w.drop m) ha' hwd
        (by rw [List.append_assoc, List.take_append_drop]; exact hz) hne hcd hfu hpre
      have hback : c'.pending = w.drop m → c.pending = w := by
        intro h
        rw [← List.take_append_drop m c.pending, htk, ← hp, h, List.take_append_drop]
      refine ⟨fun h => i1 (by rw [hp, h]), fun h h' => i2 (by rw [hp]; exact prefix_drop m h) (fun e => h' (hback e)),
        fun h h' => i3 (by rw [hp]; exact prefix_drop m h) (fun e => h' (hback e))⟩
    · have hl2 := hpre.length_le
      rw [List.length_append] at hl2
      rw [he]
      simp only
      rw [if_neg (by omega)]
      refine ⟨fun h => ?_, fun _ _ => ?_, fun h => ?_⟩
      · rw [h] at h2; omega
      · have hpos : c.pending.length > 0 := List.length_pos_iff.2 hi
        cases n with
        | zero => omega
        | succ n =>
          unfold decompressLoop
          rw [decode_nothing c' (good_pending c out c' he)]
      · have := h.length_le; omega

/-- The loop of `ca_decompress` comes to an end. -/
theorem decompressLoop_ends (hL : Decodes L fmt At) (k : Kind) : ∀ (n : Nat) (c : Ctx σ) (z d buf : Bytes),
    At k c.state z d → c.pending ≠ [] → n > c.pending.length + (LIMIT - d.length) → d.length < LIMIT →
    ∃ r, decompressLoop L n c buf d.length = some r := by
  intro n
  induction n with
  | zero => intro c z d buf _ _ hn; omega
  | succ n ih =>
    intro c z d buf ha hi hn hd
    unfold decompressLoop
    rcases decode_cases hL c k z d ha hi with ⟨e, he⟩ | ⟨out, c', he, hz⟩ | ⟨out, c', m, he, hne, hp, ha', hprog⟩ | ⟨out, c', he, ha'⟩
    · rw [he]; exact ⟨_, rfl⟩
    · rw [he]
      simp only
      split <;> exact ⟨_, rfl⟩
    · rw [he]
      simp only
      split
      · exact ⟨_, rfl⟩
      · rename_i hlt
        rw [← List.length_append]
        refine ih c' _ _ _ ha' hne ?_ (by rw [List.length_append]; omega)
        have hpl : c'.pending.length = c.pending.length - m := by rw [hp, List.length_drop]
        have hpos : c.pending.length > 0 := List.length_pos_iff.2 hi
        rw [List.length_append, hpl]
        rcases hprog with h | h
        · omega
        · have h' : out.length > 0 := List.length_pos_iff.2 h
          omega
    · rw [he]
      simp only
      split
      · exact ⟨_, rfl⟩
      · have hpos : c.pending.length > 0 := List.length_pos_iff.2 hi
        cases n with
        | zero => omega
        | succ n =>
          unfold decompressLoop
          rw [decode_nothing c' (good_pending c out c' he)]
          exact ⟨_, rfl⟩

end
end Casync.Stream
