import Verif.Lemmas.CompressorEnc
/-!
C61: compressed chunk files. For every compression library that keeps its contract (Spec/Compressor.lean), every way the reads
cut the file up, and every content.
-/
namespace Casync.Stream
open Casync

/-- Which algorithm a file is taken to be compressed with depends on its first bytes only: those of a format decide for it, fewer
than six bytes that decide for none mean to wait for more, everything else is refused. -/
theorem C61_detect (b : Bytes) :
    (∀ k, detect b = .ok k ↔ Magic k <+: b) ∧
    (detect b = .err .EAGAIN ↔ b.length < 6 ∧ ∀ k, ¬ Magic k <+: b) ∧
    (detect b = .err .EBADMSG ↔ 6 ≤ b.length ∧ ∀ k, ¬ Magic k <+: b) := by
  refine ⟨fun k => ⟨detect_ok b k, detect_of_magic k b⟩, ?_, ?_⟩
  · constructor
    · intro h
      rcases detect_cases b with ⟨k, hk, _⟩ | ⟨_, h2⟩ | ⟨hk, _⟩
      · rw [hk] at h; cases h
      · exact h2
      · rw [hk] at h; cases h
    · rintro ⟨h1, h2⟩
      rcases detect_cases b with ⟨k, _, hk⟩ | ⟨h, _⟩ | ⟨_, hk, _⟩
      · exact absurd hk (h2 k)
      · exact h
      · omega
  · constructor
    · intro h
      rcases detect_cases b with ⟨k, hk, _⟩ | ⟨hk, _⟩ | ⟨_, h2⟩
      · rw [hk] at h; cases h
      · rw [hk] at h; cases h
      · exact h2
    · rintro ⟨h1, h2⟩
      rcases detect_cases b with ⟨k, _, hk⟩ | ⟨_, hk, _⟩ | ⟨h, _⟩
      · exact absurd hk (h2 k)
      · omega
      · exact h

section
variable {σ : Type} {L : Lib σ} {fmt : Format} {At : Kind → σ → Bytes → Bytes → Prop}

/-- Loading a compressed file always comes to an end, fails no assertion, and when it succeeds the whole file is one stream of a
format and what has been added to the buffer is its content, of at least one byte and less than 128 MiB. -/
theorem C61_load (hL : Decodes L fmt At) (io : Nat → Chop) (n : Nat) (z buf : Bytes) (hn : n > z.length + 134217728 + 7) :
    ∃ r, loadDecompress L io n z buf = some r ∧ r ≠ .ub ∧
      ∀ b, r = .ok b → ∃ k u, b = buf ++ u ∧ fmt k z u ∧ Magic k <+: z ∧ 1 ≤ u.length ∧ u.length < 134217728 ∧ z.length < 134217728 := by
  have hLim : LIMIT = 134217728 := by decide
  unfold loadDecompress
  rcases sniff_cases io n z [] 0 (by decide) (by simp only [List.length_nil]; omega) with ⟨e, he⟩ | ⟨k, got, rest, i, he, hz, hm, hB⟩
  · rw [he]; exact ⟨_, rfl, (by intro h; cases h), (by intro b h; cases h)⟩
  · rw [he]
    simp only
    rw [List.nil_append] at hz
    have hgp : got ≠ [] := by
      intro h
      have := hm.length_le
      rw [h] at this
      cases k <;> exact absurd this (by decide)
    have hzl : got.length + rest.length = z.length := by rw [← List.length_append, hz]
    have hBl : BLOCK = 65536 := by decide
    obtain ⟨r, h1, h2, h3⟩ := loadLoop_sound hL k io n (input (startDecode L k) got) rest [] [] buf got.length i (hL.fresh k) hgp (by decide)
      (by show n > got.length + rest.length + (LIMIT - 0); omega) (by omega) (by show got.length = 0 + got.length; omega)
    rw [List.append_nil] at h1
    refine ⟨r, h1, h2, ?_⟩
    intro b hb
    obtain ⟨u, h4, h5, h6, h7, h8⟩ := h3 b hb
    refine ⟨k, u, h4, ?_, ?_, h6, by omega, by omega⟩
    · rw [List.nil_append] at h5
      rw [← hz]; exact h5
    · exact hm.trans ⟨rest, hz⟩

/-- A file that is a stream of a format, of a size and with a content within the limits, is loaded, however the reads cut it up;
one that ends too soon is refused with EPIPE, one that goes on after its end with EBADMSG. -/
theorem C61_load_all (hf : fmt.Ok) (hL : Decodes L fmt At) {io : Nat → Chop} (hio : NoFail io) (k : Kind) (z u : Bytes) (hz : fmt k z u) (buf : Bytes) :
    (∀ n, n > z.length + 134217728 + 7 → 1 ≤ u.length → u.length < 134217728 → z.length < 134217728 →
      loadDecompress L io n z buf = some (.ok (buf ++ u))) ∧
    (∀ n p, n > z.length + 134217728 + 7 → p <+: z → p ≠ z → u.length < 134217728 → z.length < 134217728 →
      loadDecompress L io n p buf = some (.err .EPIPE)) ∧
    (∀ n x, n > z.length + x.length + 134217728 + 7 → x ≠ [] → loadDecompress L io n (z ++ x) buf = some (.err .EBADMSG)) := by
  have hLim : LIMIT = 134217728 := by decide
  have hBl : BLOCK = 65536 := by decide
  have hmz := hf.magic k z u hz
  have hk2 : 2 ≤ (Magic k).length := by cases k <;> decide
  have key : ∀ (y : Bytes) (n : Nat), Comparable y z → n > y.length + 134217728 + 7 →
      (¬ Magic k <+: y ∧ loadDecompress L io n y buf = some (.err .EPIPE)) ∨
      (∃ got rest i, loadDecompress L io n y buf = loadDecompressLoop L io n (input (startDecode L k) got) rest (buf ++ []) got.length ([] : Bytes).length i ∧
        got ++ rest = y ∧ got ≠ [] ∧ got.length ≤ 65536) := by
    intro y n hc hn
    have hng : ¬ Magic k <+: [] := by
      intro h; have := h.length_le; simp only [List.length_nil] at this; omega
    rcases sniff_whole hio k z hmz n y [] 0 (by decide) (by simp only [List.length_nil]; omega) hc hng with
      ⟨h1, he⟩ | ⟨got, rest, i, he, h1, h2, h3⟩
    · refine .inl ⟨h1, ?_⟩
      unfold loadDecompress; rw [he]
    · refine .inr ⟨got, rest, i, ?_, h1, ?_, by omega⟩
      · unfold loadDecompress; rw [he, List.append_nil]; rfl
      · intro h; rw [h] at h2; exact hng h2
  have hzn : z ≠ [] := by
    intro h; have := hmz.length_le; rw [h] at this; simp only [List.length_nil] at this; omega
  have loop : ∀ (n : Nat) (got rest : Bytes) (i : Nat), got ≠ [] → Comparable (got ++ rest) z → n > (got ++ rest).length + 134217728 → _ :=
    fun n got rest i hg hc hn => loadLoop_whole hf hL k hio u buf n (input (startDecode L k) got) rest [] [] z got.length i (hL.fresh k) hzn hz hg hc
      (by
        show n > got.length + rest.length + (LIMIT - 0)
        rw [List.length_append] at hn; omega) (List.nil_prefix) (List.length_pos_iff.2 hg) (by decide)
  refine ⟨fun n hn h1 h2 h3 => ?_, fun n p hn hp hne h2 h3 => ?_, fun n x hn hx => ?_⟩
  · rcases key z n (.inl (List.prefix_refl _)) hn with ⟨h, _⟩ | ⟨got, rest, i, h, h4, h5, h6⟩
    · exact absurd hmz h
    · rw [h]
      have hgl : got.length + rest.length = z.length := by rw [← List.length_append, h4]
      exact (loop n got rest i h5 (by rw [h4]; exact .inl (List.prefix_refl _)) (by rw [h4]; omega)).1 h4 h1 (by omega) (by omega)
  · have hpl := hp.length_le
    rcases key p n (.inl hp) (by omega) with ⟨_, h⟩ | ⟨got, rest, i, h, h4, h5, h6⟩
    · exact h
    · rw [h]
      have hgl : got.length + rest.length = p.length := by rw [← List.length_append, h4]
      exact (loop n got rest i h5 (by rw [h4]; exact .inl hp) (by rw [h4]; omega)).2.1 (by show got ++ rest <+: z; rw [h4]; exact hp)
        (by show got ++ rest ≠ z; rw [h4]; exact hne) (by omega) (by omega)
  · have hzx : z <+: z ++ x := List.prefix_append _ _
    have hzne : z ++ x ≠ z := by
      intro h
      have := congrArg List.length h
      rw [List.length_append] at this
      exact hx (List.length_eq_zero_iff.1 (by omega))
    rcases key (z ++ x) n (.inr hzx) (by rw [List.length_append]; omega) with ⟨h, _⟩ | ⟨got, rest, i, h, h4, h5, h6⟩
    · exact absurd (hmz.trans hzx) h
    · rw [h]
      exact (loop n got rest i h5 (by rw [h4]; exact .inr hzx) (by rw [h4, List.length_append]; omega)).2.2 (by show z <+: got ++ rest; rw [h4]; exact hzx)
        (by show got ++ rest ≠ z; rw [h4]; exact hzne)

/-- Decompressing a buffer always comes to an end, and when it succeeds the whole buffer was one stream of a format and what has
been added to the target is its content. -/
theorem C61_decompress (hL : Decodes L fmt At) (n : Nat) (z buf : Bytes) (hn : n > z.length + 134217728) :
    ∃ r, decompress L n z buf = some r ∧
      ∀ b, r = .ok b → ∃ k u, b = buf ++ u ∧ fmt k z u ∧ Magic k <+: z ∧ 1 ≤ u.length ∧ u.length < 134217728 ∧ z.length ≤ 134217728 := by
  have hLim : LIMIT = 134217728 := by decide
  unfold decompress
  by_cases h1 : z.length < 1
  · rw [if_pos h1]; exact ⟨_, rfl, (by intro b h; cases h)⟩
  by_cases h2 : z.length > LIMIT
  · rw [if_neg h1, if_pos h2]; exact ⟨_, rfl, (by intro b h; cases h)⟩
  rw [if_neg h1, if_neg h2]
  have hzn : z ≠ [] := by intro h; rw [h] at h1; exact h1 (by decide)
  rcases detect_cases z with ⟨k, hk, hm⟩ | ⟨hk, _⟩ | ⟨hk, _⟩
  · rw [hk]
    obtain ⟨r, hr⟩ := decompressLoop_ends hL k n (input (startDecode L k) z) [] [] buf (hL.fresh k) hzn
      (by show n > z.length + (LIMIT - 0); omega) (by decide)
    refine ⟨r, hr, ?_⟩
    intro b hb
    rw [hb] at hr
    obtain ⟨u, h5, h6, h7, h8⟩ := decompressLoop_sound hL k n (input (startDecode L k) z) [] [] buf (hL.fresh k) hzn (by decide) b (by rw [List.append_nil]; exact hr)
    exact ⟨k, u, h5, h6, hm, h7, by omega, by omega⟩
  · rw [hk]; exact ⟨_, rfl, (by intro b h; cases h)⟩
  · rw [hk]; exact ⟨_, rfl, (by intro b h; cases h)⟩

theorem decompress_eq (n : Nat) (k : Kind) (y buf : Bytes) (hy : Magic k <+: y) (hl : y.length ≤ 134217728) :
    decompress L n y buf = decompressLoop L n (input (startDecode L k) y) (buf ++ []) ([] : Bytes).length ∧ y ≠ [] := by
  have hLim : LIMIT = 134217728 := by decide
  have hk2 : 2 ≤ (Magic k).length := by cases k <;> decide
  have h2 := hy.length_le
  refine ⟨?_, ?_⟩
  · unfold decompress
    rw [if_neg (by omega), if_neg (by omega), detect_of_magic k y hy, List.append_nil]
    rfl
  · intro h; rw [h] at h2; simp only [List.length_nil] at h2; omega

/-- A buffer that is a stream of a format, with size and content within the limits, is decompressed; one with something after the
end of the stream is refused. -/
theorem C61_decompress_all (hf : fmt.Ok) (hL : Decodes L fmt At) (k : Kind) (z u : Bytes) (hz : fmt k z u) (hu : u.length < 134217728) (buf : Bytes) :
    (∀ n, n > z.length + 134217728 → 1 ≤ u.length → z.length ≤ 134217728 → decompress L n z buf = some (.ok (buf ++ u))) ∧
    (∀ n x, n > z.length + x.length + 134217728 → x ≠ [] → z.length + x.length ≤ 134217728 → decompress L n (z ++ x) buf = some (.err .EBADMSG)) := by
  have hLim : LIMIT = 134217728 := by decide
  have hmz := hf.magic k z u hz
  have hk2 : 2 ≤ (Magic k).length := by cases k <;> decide
  have hzl := hmz.length_le
  have hzn : z ≠ [] := by
    intro h; rw [h] at hzl; simp only [List.length_nil] at hzl; omega
  refine ⟨fun n hn h1 h2 => ?_, fun n x hn hx h2 => ?_⟩
  · obtain ⟨he, _⟩ := decompress_eq (L := L) n k z buf hmz h2
    rw [he]
    exact (decompressLoop_whole hf hL k u buf (by omega) n (input (startDecode L k) z) [] [] z (hL.fresh k) hzn hz hzn (.inl (List.prefix_refl _))
      (by show n > z.length + (LIMIT - 0); omega) List.nil_prefix).1 rfl h1
  · have hzx : z <+: z ++ x := List.prefix_append _ _
    obtain ⟨he, hne⟩ := decompress_eq (L := L) n k (z ++ x) buf (hmz.trans hzx) (by rw [List.length_append]; omega)
    rw [he]
    exact (decompressLoop_whole hf hL k u buf (by omega) n (input (startDecode L k) (z ++ x)) [] [] z (hL.fresh k) hzn hz hne (.inr hzx)
      (by show n > (z ++ x).length + (LIMIT - 0); rw [List.length_append]; omega) List.nil_prefix).2.2 hzx
      (by
        intro h
        have := congrArg List.length (show z ++ x = z from h)
        rw [List.length_append] at this
        exact hx (List.length_eq_zero_iff.1 (by omega)))

/-- A buffer that is the beginning of a stream but not all of it, as a file cut short holds it, is not refused: it fails an assertion
(`ca_decompress` calls the decoder again with nothing to give it), which stops the program. That is so for every library and
every such buffer that has the magic bytes; one without them is refused. -/
theorem C61_truncated_violated (hf : fmt.Ok) (hL : Decodes L fmt At) (k : Kind) (z u p : Bytes) (hz : fmt k z u) (hu : u.length < 134217728)
    (hp : p <+: z) (hne : p ≠ z) (hl : p.length ≤ 134217728) (n : Nat) (hn : n > p.length + 134217728) (buf : Bytes) :
    (Magic k <+: p → decompress L n p buf = some .ub) ∧
    (¬ Magic k <+: p → p ≠ [] → decompress L n p buf = some (.err .EBADMSG)) := by
  have hLim : LIMIT = 134217728 := by decide
  have hmz := hf.magic k z u hz
  have hk2 : 2 ≤ (Magic k).length := by cases k <;> decide
  have hzl := hmz.length_le
  have hzn : z ≠ [] := by
    intro h; rw [h] at hzl; simp only [List.length_nil] at hzl; omega
  refine ⟨fun hm => ?_, fun hm hpn => ?_⟩
  · obtain ⟨he, hpn⟩ := decompress_eq (L := L) n k p buf hm hl
    rw [he]
    exact (decompressLoop_whole hf hL k u buf (by omega) n (input (startDecode L k) p) [] [] z (hL.fresh k) hzn hz hpn (.inl hp)
      (by show n > p.length + (LIMIT - 0); omega) List.nil_prefix).2.1 hp hne
  · have hpl : p.length > 0 := List.length_pos_iff.2 hpn
    unfold decompress
    rw [if_neg (by omega), if_neg (by omega)]
    rcases detect_short k p z hmz (.inl hp) with ⟨_, h⟩ | ⟨h, _⟩
    · exact absurd h hm
    · rw [h]

theorem save_eq_loop (io : Nat → Option Errno) : ∀ (n : Nat) (c : Ctx σ) (file : Bytes) (count i : Nat),
    ((∀ i, io i = none) → saveDecompressLoop L io n c file count i = decompressLoop L n c file count) ∧
    ∀ b, saveDecompressLoop L io n c file count i = some (.ok b) → decompressLoop L n c file count = some (.ok b) := by
  intro n
  induction n with
  | zero => intro c file count i; exact ⟨fun _ => rfl, fun b h => by cases h⟩
  | succ n ih =>
    intro c file count i
    unfold saveDecompressLoop decompressLoop
    cases hd : decode L c with
    | err e => exact ⟨fun _ => rfl, fun b h => by cases h⟩
    | ub => exact ⟨fun _ => rfl, fun b h => by cases h⟩
    | ok p =>
      obtain ⟨r, out, c'⟩ := p
      simp only
      refine ⟨fun h => ?_, fun b h => ?_⟩
      · rw [h i]
        simp only
        split
        · rfl
        · cases r with
          | eof => rfl
          | more => exact (ih c' _ _ _).1 h
          | good => exact (ih c' _ _ _).1 h
      · cases hi : io i with
        | some e => rw [hi] at h; cases h
        | none =>
          rw [hi] at h
          simp only at h
          split at h
          · cases h
          · rename_i hlim
            rw [if_neg hlim]
            cases r with
            | eof => exact h
            | more => exact (ih c' _ _ _).2 b h
            | good => exact (ih c' _ _ _).2 b h

/-- Decompressing into a file does what decompressing into a buffer does when no write fails, and succeeds only with what that
delivers. -/
theorem C61_save (io : Nat → Option Errno) (n : Nat) (z : Bytes) :
    ((∀ i, io i = none) → saveDecompress L io n z = decompress L n z []) ∧
    ∀ b, saveDecompress L io n z = some (.ok b) → decompress L n z [] = some (.ok b) := by
  unfold saveDecompress decompress
  by_cases h1 : z.length < 1
  · rw [if_pos h1, if_pos h1]; exact ⟨fun _ => rfl, fun b h => h⟩
  by_cases h2 : z.length > LIMIT
  · rw [if_neg h1, if_pos h2, if_neg h1, if_pos h2]; exact ⟨fun _ => rfl, fun b h => h⟩
  rw [if_neg h1, if_neg h2, if_neg h1, if_neg h2]
  rcases detect_cases z with ⟨k, hk, hm⟩ | ⟨hk, _⟩ | ⟨hk, _⟩
  · rw [hk]; exact save_eq_loop io n _ _ _ _
  · rw [hk]; exact ⟨fun _ => rfl, fun b h => h⟩
  · rw [hk]; exact ⟨fun _ => rfl, fun b h => h⟩

variable {At' : Kind → σ → Bytes → Bytes → Option Bytes → Prop}

/-- Compressing a buffer always comes to an end, fails no assertion, and when it succeeds what has been added to the target is one
stream of the format, less than 128 MiB, whose content is the buffer. It succeeds when the library does not fail and the output
stays below 128 MiB. -/
theorem C61_compress (hL : Encodes L fmt At') (k : Kind) (n : Nat) (d buf : Bytes) (hn : n > d.length + 134217728) :
    ∃ r, compress L k n d buf = some r ∧ r ≠ .ub ∧
      (∀ b, r = .ok b → ∃ z, b = buf ++ z ∧ fmt k z d ∧ 1 ≤ z.length ∧ z.length < 134217728) ∧
      (NeverBad L → fmt.Ok → Small fmt At' d → 1 ≤ d.length → d.length ≤ 134217728 → ∃ b, r = .ok b) := by
  have hLim : LIMIT = 134217728 := by decide
  unfold compress
  by_cases h1 : d.length < 1
  · rw [if_pos h1]; exact ⟨_, rfl, (by intro h; cases h), (by intro b h; cases h), fun _ _ _ h => by omega⟩
  by_cases h2 : d.length > LIMIT
  · rw [if_neg h1, if_pos h2]; exact ⟨_, rfl, (by intro h; cases h), (by intro b h; cases h), fun _ _ _ _ h => by omega⟩
  rw [if_neg h1, if_neg h2]
  obtain ⟨r, h3, h4, h5, h6⟩ := compressLoop_spec hL k d buf n (input (startEncode L k) d) [] [] none rfl (hL.fresh k)
    ⟨.inl rfl, fun _ _ => rfl⟩ rfl (by show n > d.length + (LIMIT - 0); omega) (by decide)
  rw [List.append_nil] at h3
  refine ⟨r, h3, h4, ?_, fun a b c _ _ => h6 a b c⟩
  intro b hb
  obtain ⟨z, h7, h8, h9, h10⟩ := h5 b hb
  exact ⟨z, h7, h8, h9, by omega⟩

/-- Loading a file and compressing it: as long as no read delivers less than asked for before the end of the file, a success adds
one stream of the format whose content is the whole file. -/
theorem C61_load_compress (hL : Encodes L fmt At') {io : Nat → Chop} (hio : FullReads io) (k : Kind) (n : Nat) (d buf : Bytes)
    (hn : n > 2 * (d.length + 134217728) + 1) :
    ∃ r, loadCompress L io k n d buf = some r ∧ r ≠ .ub ∧
      (∀ b, r = .ok b → ∃ z, b = buf ++ z ∧ fmt k z d ∧ 1 ≤ z.length ∧ z.length < 134217728 ∧ 1 ≤ d.length ∧ d.length < 134217728) ∧
      (NeverBad L → NoFail io → fmt.Ok → Small fmt At' d → 1 ≤ d.length → d.length < 134217728 → ∃ b, r = .ok b) := by
  have hLim : LIMIT = 134217728 := by decide
  unfold loadCompress
  have hfuel : n > 2 * ((startEncode L k).pending.length + d.length + (LIMIT - ([] : Bytes).length)) + (if true = true then 1 else 0) := by
    rw [if_pos rfl, show (startEncode L k).pending = [] from rfl, List.length_nil, hLim, Nat.sub_zero, Nat.zero_add]
    exact hn
  obtain ⟨r, h3, h4, h5, h6⟩ := loadCompressLoop_spec hL k hio d buf n (startEncode L k) true false d [] [] 0 0 none rfl (hL.fresh k)
    ⟨.inl rfl, fun _ _ => rfl⟩ rfl rfl (by intro h; cases h) (fun _ => rfl) (fun _ => rfl) (by intro h; cases h)
    hfuel (by rw [hLim]; simp) (by rw [hLim]; simp)
  rw [List.append_nil] at h3
  refine ⟨r, h3, h4, ?_, fun a b c e f g => h6 a b c e f (by omega)⟩
  intro b hb
  obtain ⟨z, h7, h8, h9, h10, h11, h12⟩ := h5 b hb
  exact ⟨z, h7, h8, h9, by omega, h11, by omega⟩

/-- What has been compressed is decompressed to what it was, from the buffer and from a file, however that is read. -/
theorem C61_round_trip (hf : fmt.Ok) (hD : Decodes L fmt At) (hE : Encodes L fmt At') (k : Kind) (d z : Bytes) (n m : Nat)
    (hd : d.length < 134217728) (hn : n > d.length + 134217728) (hm : m > z.length + 134217728 + 7) (h : compress L k n d [] = some (.ok z)) (buf : Bytes) :
    decompress L m z buf = some (.ok (buf ++ d)) ∧
    ∀ io, NoFail io → loadDecompress L io m z buf = some (.ok (buf ++ d)) := by
  obtain ⟨r, h1, _, h2, _⟩ := C61_compress (fmt := fmt) hE k n d [] hn
  rw [h] at h1
  injection h1 with h1
  obtain ⟨z', h3, h4, h5, h6⟩ := h2 z h1.symm
  rw [List.nil_append] at h3
  subst h3
  have hd1 : 1 ≤ d.length := by
    rcases Nat.lt_or_ge d.length 1 with h' | h'
    · exfalso
      unfold compress at h
      rw [if_pos h'] at h
      cases h
    · exact h'
  exact ⟨(C61_decompress_all hf hD k z d h4 hd buf).1 m (by omega) hd1 (by omega),
    fun io hio => (C61_load_all hf hD hio k z d h4 buf).1 m hm hd1 hd h6⟩

end
end Casync.Stream
