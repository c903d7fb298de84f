import Verif.Lemmas.Compressor
/-!
Lemmas for C61: reading and decompressing a file.
-/
namespace Casync.Stream
open Casync

theorem read_ok (rest : Bytes) (size : Nat) (hs : size ≥ 1) (ch : Chop) (l rest' : Bytes) (h : read rest size ch = .ok (l, rest')) :
    l ++ rest' = rest ∧ l.length ≤ size ∧ (l.length = 0 → rest = []) ∧ (l.length = 0 → rest' = []) := by
  cases ch with
  | fail e => cases h
  | give n =>
    unfold read at h
    injection h with h; injection h with h1 h2
    subst h1; subst h2
    have hnil : (rest.take (max 1 (min n size))).length = 0 → rest = [] := by
      intro h
      rw [List.length_take] at h
      exact List.length_eq_zero_iff.1 (by omega)
    refine ⟨List.take_append_drop _ _, ?_, hnil, ?_⟩
    · rw [List.length_take]; omega
    · intro h; rw [hnil h]; exact List.drop_nil

theorem read_nub (rest : Bytes) (size : Nat) (ch : Chop) : read rest size ch ≠ .ub := by
  cases ch <;> intro h <;> cases h

theorem read_noFail {io : Nat → Chop} (h : NoFail io) (rest : Bytes) (size i : Nat) : ∃ l rest', read rest size (io i) = .ok (l, rest') := by
  cases hc : io i with
  | fail e => exact absurd hc (h i e)
  | give n => exact ⟨_, _, rfl⟩

/-- The first loop: what it comes to. -/
theorem sniff_cases (io : Nat → Chop) : ∀ (n : Nat) (rest got : Bytes) (i : Nat), got.length < 6 → n + got.length ≥ 7 →
    (∃ e, sniff io n rest got i = some (.err e)) ∨
    (∃ k got' rest' i', sniff io n rest got i = some (.ok (k, got', rest', i')) ∧ got' ++ rest' = got ++ rest ∧ Magic k <+: got' ∧
      got'.length ≤ BLOCK) := by
  intro n
  induction n with
  | zero => intro rest got i h h'; omega
  | succ n ih =>
    intro rest got i h h'
    unfold sniff
    have hB : BLOCK = 65536 := by decide
    rw [if_pos (by omega)]
    cases hr : read rest (BLOCK - got.length) (io i) with
    | err e => exact .inl ⟨e, rfl⟩
    | ub => exact absurd hr (read_nub _ _ _)
    | ok p =>
      obtain ⟨l, rest'⟩ := p
      obtain ⟨h1, h2, h3, h4⟩ := read_ok _ _ (by omega) _ _ _ hr
      simp only
      by_cases hl : l.length = 0
      · rw [if_pos hl]; exact .inl ⟨_, rfl⟩
      rw [if_neg hl]
      rcases detect_cases (got ++ l) with ⟨k, hk, hm⟩ | ⟨hk, hs, hm⟩ | ⟨hk, hs, hm⟩
      · rw [hk]
        refine .inr ⟨k, _, _, _, rfl, ?_, hm, ?_⟩
        · rw [List.append_assoc, h1]
        · rw [List.length_append]; omega
      · rw [hk]
        simp only
        rw [List.length_append] at hs
        have := ih rest' (got ++ l) (i + 1) (by rw [List.length_append]; omega) (by rw [List.length_append]; omega)
        rwa [List.append_assoc, h1] at this
      · rw [hk]; exact .inl ⟨_, rfl⟩

/-- The first loop on something that is comparable with a stream. -/
theorem sniff_whole {io : Nat → Chop} (hio : NoFail io) (k : Kind) (z : Bytes) (hz : Magic k <+: z) : ∀ (n : Nat) (rest got : Bytes) (i : Nat),
    got.length < 6 → n + got.length ≥ 7 → Comparable (got ++ rest) z → ¬ Magic k <+: got →
    (¬ Magic k <+: got ++ rest ∧ sniff io n rest got i = some (.err .EPIPE)) ∨
    (∃ got' rest' i', sniff io n rest got i = some (.ok (k, got', rest', i')) ∧ got' ++ rest' = got ++ rest ∧ Magic k <+: got' ∧ got'.length ≤ BLOCK) := by
  intro n
  induction n with
  | zero => intro rest got i h h'; omega
  | succ n ih =>
    intro rest got i h h' hc hng
    unfold sniff
    have hB : BLOCK = 65536 := by decide
    rw [if_pos (by omega)]
    obtain ⟨l, rest', hr⟩ := read_noFail hio rest (BLOCK - got.length) i
    rw [hr]
    obtain ⟨h1, h2, h3, h4⟩ := read_ok _ _ (by omega) _ _ _ hr
    simp only
    by_cases hl : l.length = 0
    · rw [if_pos hl]
      refine .inl ⟨?_, rfl⟩
      rw [h3 hl, List.append_nil]; exact hng
    rw [if_neg hl]
    have hpre : got ++ l <+: got ++ rest := by
      rw [← h1, ← List.append_assoc]; exact List.prefix_append _ _
    have hcg : Comparable (got ++ l) z := by
      rcases hc with h5 | h5
      · exact .inl (hpre.trans h5)
      · exact List.prefix_or_prefix_of_prefix hpre h5
    rcases detect_short k (got ++ l) z hz hcg with ⟨hd, hm⟩ | ⟨hd, hm, hlt⟩
    · rw [hd]
      refine .inr ⟨_, _, _, rfl, ?_, hm, ?_⟩
      · rw [List.append_assoc, h1]
      · rw [List.length_append]; omega
    · rw [hd]
      simp only
      have hk6 : (Magic k).length ≤ 6 := by cases k <;> decide
      have hnm : ¬ Magic k <+: got ++ l := fun h => by have := h.length_le; omega
      have := ih rest' (got ++ l) (i + 1) (by omega) (by rw [List.length_append]; omega)
        (by rw [List.append_assoc, h1]; exact hc) hnm
      rwa [List.append_assoc, h1] at this

section
variable {σ : Type} {L : Lib σ} {fmt : Format} {At : Kind → σ → Bytes → Bytes → Prop}

/-- The loop of `ca_load_and_decompress_fd` comes to an end, without a failed assertion, and a success is the content of the
whole file. -/
theorem loadLoop_sound (hL : Decodes L fmt At) (k : Kind) (io : Nat → Chop) : ∀ (n : Nat) (c : Ctx σ) (rest z d buf : Bytes) (cc i : Nat),
    At k c.state z d → c.pending ≠ [] → d.length < LIMIT → n > c.pending.length + rest.length + (LIMIT - d.length) → cc < LIMIT →
    cc = z.length + c.pending.length →
    ∃ r, loadDecompressLoop L io n c rest (buf ++ d) cc d.length i = some r ∧ r ≠ .ub ∧
      ∀ b, r = .ok b → ∃ u, b = buf ++ u ∧ fmt k (z ++ (c.pending ++ rest)) u ∧ 1 ≤ u.length ∧ u.length < LIMIT ∧ cc + rest.length < LIMIT := by
  intro n
  induction n with
  | zero => intro c rest z d buf cc i _ _ _ hn; omega
  | succ n ih =>
    intro c rest z d buf cc i ha hi hd hn hcc hz
    have hpos : c.pending.length > 0 := List.length_pos_iff.2 hi
    unfold loadDecompressLoop
    rcases decode_cases hL c k z d ha hi with ⟨e, he⟩ | ⟨out, c', he, hfz⟩ | ⟨out, c', m, he, hne, hp, ha', hprog⟩ | ⟨out, c', he, ha'⟩
    · rw [he]; exact ⟨_, rfl, (by intro h; cases h), (by intro b h; cases h)⟩
    · rw [he]
      simp only
      by_cases hlim : d.length + out.length ≥ LIMIT
      · rw [if_pos hlim]; exact ⟨_, rfl, (by intro h; cases h), (by intro b h; cases h)⟩
      rw [if_neg hlim]
      cases hr : read rest BLOCK (io i) with
      | err e => exact ⟨_, rfl, (by intro h; cases h), (by intro b h; cases h)⟩
      | ub => exact absurd hr (read_nub _ _ _)
      | ok p =>
        obtain ⟨l, rest'⟩ := p
        obtain ⟨h1, h2, h3, h4⟩ := read_ok _ _ (by decide) _ _ _ hr
        simp only
        by_cases hl : l.length = 0
        · rw [if_pos hl, if_pos trivial]
          by_cases h5 : cc < 1 ∨ d.length + out.length < 1
          · rw [if_pos h5]; exact ⟨_, rfl, (by intro h; cases h), (by intro b h; cases h)⟩
          · rw [if_neg h5]
            refine ⟨_, rfl, (by intro h; cases h), ?_⟩
            intro b hb
            injection hb with hb
            rw [h3 hl, List.append_nil]
            refine ⟨d ++ out, by rw [← hb, List.append_assoc], hfz, ?_, ?_, ?_⟩
            · rw [List.length_append]; omega
            · rw [List.length_append]; omega
            · simpa using hcc
        · rw [if_neg hl, if_pos trivial]; exact ⟨_, rfl, (by intro h; cases h), (by intro b h; cases h)⟩
    · rw [he]
      simp only
      by_cases hlim : d.length + out.length ≥ LIMIT
      · rw [if_pos hlim]; exact ⟨_, rfl, (by intro h; cases h), (by intro b h; cases h)⟩
      rw [if_neg hlim, List.append_assoc, ← List.length_append]
      have hpl : c'.pending.length = c.pending.length - m := by rw [hp, List.length_drop]
      have hc'pos : c'.pending.length > 0 := List.length_pos_iff.2 hne
      obtain ⟨r, h5, h6, h7⟩ := ih c' rest _ _ buf cc i ha' hne (by rw [List.length_append]; omega)
        (by
          rw [List.length_append, hpl]
          rcases hprog with h | h
          · omega
          · have h' : out.length > 0 := List.length_pos_iff.2 h
            omega) hcc (by rw [List.length_append, List.length_take]; omega)
      refine ⟨r, h5, h6, ?_⟩
      intro b hb
      obtain ⟨u, h8, h9, h10⟩ := h7 b hb
      refine ⟨u, h8, ?_, h10⟩
      rwa [hp, ← List.append_assoc, List.append_assoc z, List.take_append_drop, List.append_assoc] at h9
    · rw [he]
      simp only
      by_cases hlim : d.length + out.length ≥ LIMIT
      · rw [if_pos hlim]; exact ⟨_, rfl, (by intro h; cases h), (by intro b h; cases h)⟩
      rw [if_neg hlim]
      cases hr : read rest BLOCK (io i) with
      | err e => exact ⟨_, rfl, (by intro h; cases h), (by intro b h; cases h)⟩
      | ub => exact absurd hr (read_nub _ _ _)
      | ok p =>
        obtain ⟨l, rest'⟩ := p
        obtain ⟨h1, h2, h3, h4⟩ := read_ok _ _ (by decide) _ _ _ hr
        simp only
        by_cases hl : l.length = 0
        · rw [if_pos hl, if_neg (by intro h; cases h)]; exact ⟨_, rfl, (by intro h; cases h), (by intro b h; cases h)⟩
        · rw [if_neg hl, if_neg (by intro h; cases h)]
          by_cases h5 : cc + l.length ≥ LIMIT
          · rw [if_pos h5]; exact ⟨_, rfl, (by intro h; cases h), (by intro b h; cases h)⟩
          rw [if_neg h5, List.append_assoc, ← List.length_append]
          have hrl : l.length + rest'.length = rest.length := by rw [← List.length_append, h1]
          obtain ⟨r, h5, h6, h7⟩ := ih (input c' l) rest' (z ++ c.pending) (d ++ out) buf (cc + l.length) (i + 1) ha'
            (fun h => hl (by rw [show l = [] from h]; rfl)) (by rw [List.length_append]; omega)
            (by
              show n > l.length + rest'.length + (LIMIT - (d ++ out).length)
              rw [List.length_append]; omega) (by omega)
            (by
              show cc + l.length = (z ++ c.pending).length + l.length
              rw [List.length_append]; omega)
          refine ⟨r, h5, h6, ?_⟩
          intro b hb
          obtain ⟨u, h8, h9, h10, h11, h12⟩ := h7 b hb
          refine ⟨u, h8, ?_, h10, h11, by omega⟩
          have h13 : (z ++ c.pending) ++ (l ++ rest') = z ++ (c.pending ++ rest) := by rw [h1, List.append_assoc]
          rw [← h13]; exact h9

/-- What that loop comes to on a file that is comparable with a stream of the format. -/
theorem loadLoop_whole (hf : fmt.Ok) (hL : Decodes L fmt At) (k : Kind) {io : Nat → Chop} (hio : NoFail io) (u buf : Bytes) :
    ∀ (n : Nat) (c : Ctx σ) (rest z d w : Bytes) (cc i : Nat), At k c.state z d → w ≠ [] → fmt k (z ++ w) u → c.pending ≠ [] →
    Comparable (c.pending ++ rest) w → n > c.pending.length + rest.length + (LIMIT - d.length) → d <+: u → 1 ≤ cc → d.length < LIMIT →
    (c.pending ++ rest = w → 1 ≤ u.length → u.length < LIMIT → cc + rest.length < LIMIT →
      loadDecompressLoop L io n c rest (buf ++ d) cc d.length i = some (.ok (buf ++ u))) ∧
    (c.pending ++ rest <+: w → c.pending ++ rest ≠ w → u.length < LIMIT → cc + rest.length < LIMIT →
      loadDecompressLoop L io n c rest (buf ++ d) cc d.length i = some (.err .EPIPE)) ∧
    (w <+: c.pending ++ rest → c.pending ++ rest ≠ w →
      loadDecompressLoop L io n c rest (buf ++ d) cc d.length i = some (.err .EBADMSG)) := by
  intro n
  induction n with
  | zero => intro c rest z d w cc i _ _ _ _ _ hn; omega
  | succ n ih =>
    intro c rest z d w cc i ha hw hz hi hc hn hdu hcc hdL
    have hdl := hdu.length_le
    have hpos : c.pending.length > 0 := List.length_pos_iff.2 hi
    have hanti : ∀ {a b : Bytes}, a <+: b → b <+: a → a = b := fun h1 h2 => h1.eq_of_length_le h2.length_le
    have hci : Comparable c.pending w := by
      have hp : c.pending <+: c.pending ++ rest := List.prefix_append _ _
      rcases hc with h | h
      · exact .inl (hp.trans h)
      · exact List.prefix_or_prefix_of_prefix hp h
    unfold loadDecompressLoop
    rcases decode_whole hf hL c k z d w u ha hw hz hi hci with ⟨out, c', he, h1, h2⟩ | ⟨he, h1, h2⟩ |
      ⟨out, c', m, he, hne, hp, hm, hmc, htk, ha', hpre, hprog⟩ | ⟨out, c', he, h1, h2, ha', hpre⟩
    · have hlen2 : d.length + out.length = u.length := by rw [← List.length_append, h2]
      rw [he]
      simp only
      obtain ⟨l, rest', hr⟩ := read_noFail hio rest BLOCK i
      obtain ⟨r1, r2, r3, r4⟩ := read_ok _ _ (by decide) _ _ _ hr
      rw [hr]
      simp only
      refine ⟨fun h3 h4 h5 h6 => ?_, fun h3 h4 h5 h6 => ?_, fun h3 h4 => ?_⟩
      · have hrn : rest = [] := by
          have := congrArg List.length h3
          rw [List.length_append, h1] at this
          exact List.length_eq_zero_iff.1 (by omega)
        have hl0 : l.length = 0 := by
          have := congrArg List.length r1
          rw [hrn, List.length_append, List.length_nil] at this
          omega
        rw [if_neg (by omega), if_pos hl0, if_pos trivial, if_neg (by omega), List.append_assoc, h2]
      · exact absurd (hanti h3 (by rw [← h1]; exact List.prefix_append _ _)) h4
      · by_cases hlim : d.length + out.length ≥ LIMIT
        · rw [if_pos hlim]
        rw [if_neg hlim]
        by_cases hl0 : l.length = 0
        · exfalso
          apply h4
          rw [r3 hl0, List.append_nil, h1]
        · rw [if_neg hl0, if_pos trivial]
    · rw [he]
      have hw' : w <+: c.pending ++ rest := h1.trans (List.prefix_append _ _)
      have hlt : w.length < c.pending.length := by
        rcases Nat.lt_or_ge w.length c.pending.length with h | h
        · exact h
        · exact absurd (h1.eq_of_length_le h).symm h2
      refine ⟨fun h3 => ?_, fun h3 h4 => absurd (hanti h3 hw') h4, fun _ _ => rfl⟩
      have := congrArg List.length h3
      rw [List.length_append] at this
      omega
    · have hl2 := hpre.length_le
      rw [List.length_append] at hl2
      rw [he]
      simp only
      have hwd : w.drop m ≠ [] := by
        intro h
        have := congrArg List.length h
        rw [List.length_drop, List.length_nil] at this
        omega
      have hpl : c'.pending.length = c.pending.length - m := by rw [hp, List.length_drop]
      have hpr : c'.pending ++ rest = (c.pending ++ rest).drop m := by
        rw [hp, List.drop_append_of_le_length hmc]
      have hcd : Comparable (c'.pending ++ rest) (w.drop m) := by rw [hpr]; exact drop_comparable m hc
      have hback : c'.pending ++ rest = w.drop m → c.pending ++ rest = w := by
        intro h
        rw [← List.take_append_drop m c.pending, htk, List.append_assoc, ← hp, h, List.take_append_drop]
      by_cases hlim : d.length + out.length ≥ LIMIT
      · rw [if_pos hlim]
        exact ⟨fun _ _ h => by omega, fun _ _ h => by omega, fun _ _ => rfl⟩
      rw [if_neg hlim, List.append_assoc, ← List.length_append]
      have hfu : n > c'.pending.length + rest.length + (LIMIT - (d ++ out).length) := by
        rw [List.length_append, hpl]
        rcases hprog with h | h
        · omega
        · have h' : out.length > 0 := List.length_pos_iff.2 h
          omega
      obtain ⟨i1, i2, i3⟩ := ih c' rest (z ++ w.take m) (d ++ out) (w.drop m) cc i ha' hwd
        (by rw [List.append_assoc, List.take_append_drop]; exact hz) hne hcd hfu hpre hcc (by rw [List.length_append]; omega)
      refine ⟨fun h => i1 (by rw [hpr, h]), fun h h' => i2 (by rw [hpr]; exact prefix_drop m h) (fun e => h' (hback e)),
        fun h h' => i3 (by rw [hpr]; exact prefix_drop m h) (fun e => h' (hback e))⟩
    · have hl2 := hpre.length_le
      rw [List.length_append] at hl2
      rw [he]
      simp only
      obtain ⟨l, rest', hr⟩ := read_noFail hio rest BLOCK i
      obtain ⟨r1, r2, r3, r4⟩ := read_ok _ _ (by decide) _ _ _ hr
      rw [hr]
      simp only
      by_cases hlim : d.length + out.length ≥ LIMIT
      · rw [if_pos hlim]
        exact ⟨fun _ _ h => by omega, fun _ _ h => by omega, fun _ _ => rfl⟩
      rw [if_neg hlim]
      by_cases hl0 : l.length = 0
      · rw [if_pos hl0, if_neg (by intro h; cases h)]
        have hrn := r3 hl0
        refine ⟨fun h => ?_, fun _ _ _ _ => rfl, fun h => ?_⟩
        · rw [hrn, List.append_nil] at h; rw [h] at h2; omega
        · rw [hrn, List.append_nil] at h; have := h.length_le; omega
      · rw [if_neg hl0, if_neg (by intro h; cases h)]
        have hrl : l.length + rest'.length = rest.length := by rw [← List.length_append, r1]
        have hdrop : rest = (c.pending ++ rest).drop c.pending.length := by rw [List.drop_left]
        obtain ⟨w', hw'⟩ := h1
        have hdw : w.drop c.pending.length = w' := by rw [← hw', List.drop_left]
        have hcd : Comparable (l ++ rest') w' := by
          rw [r1, ← hdw]
          have := drop_comparable c.pending.length hc
          rwa [List.drop_left] at this
        have hw'n : w' ≠ [] := by
          intro h
          rw [h, List.append_nil] at hw'
          rw [hw'] at h2; omega
        by_cases h5 : cc + l.length ≥ LIMIT
        · rw [if_pos h5]
          exact ⟨fun _ _ _ h => by omega, fun _ _ _ h => by omega, fun _ _ => rfl⟩
        rw [if_neg h5, List.append_assoc, ← List.length_append]
        obtain ⟨i1, i2, i3⟩ := ih (input c' l) rest' (z ++ c.pending) (d ++ out) w' (cc + l.length) (i + 1) ha' hw'n
          (by rw [List.append_assoc, hw']; exact hz) (fun h => hl0 (by rw [show l = [] from h]; rfl)) hcd
          (by
            show n > l.length + rest'.length + (LIMIT - (d ++ out).length)
            rw [List.length_append]; omega) hpre (by omega) (by rw [List.length_append]; omega)
        have e1 : (input c' l).pending ++ rest' = rest := r1
        have hback : rest = w' → c.pending ++ rest = w := by
          intro h; rw [h, hw']
        rw [e1] at i1 i2 i3
        refine ⟨fun h h6 h7 h8 => i1 ?_ h6 h7 (by omega), fun h h' h7 h8 => i2 ?_ (fun e => h' (hback e)) h7 (by omega),
          fun h h' => i3 ?_ (fun e => h' (hback e))⟩
        · rw [← hdw, ← h, List.drop_left]
        · have := prefix_drop c.pending.length h
          rwa [List.drop_left, hdw] at this
        · have := prefix_drop c.pending.length h
          rwa [List.drop_left, hdw] at this

end
end Casync.Stream
