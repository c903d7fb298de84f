import Verif.Lemmas.IndexWrite
import Verif.Lemmas.IndexRead
/-!
Properties C07 and C08: index files.

`Spec.encode hd cs` is the byte string the file format prescribes for header `hd` and chunks `cs`
(Spec/Index.lean); `Spec.deliver 0 cs` lists for each chunk its id, end offset and size.
-/
namespace Casync.Index
open Casync Casync.Index.Spec

/-- C07. Writing chunks and finishing an index succeeds exactly when the flags are known, the size limits
are in range and ordered, no chunk is empty or above the maximum, and the total size fits 64 bits. -/
theorem C07_writer_accepts_iff (flags : Flags.Word) (cmin cavg cmax : Nat) (cs : List (Bytes × Nat)) :
    (∃ i, writeFile flags cmin cavg cmax cs = .ok i) ↔
      (∃ f, Flags.normalize flags = .ok f) ∧ 1 ≤ cmin ∧ cmin ≤ cavg ∧ cavg ≤ cmax ∧ cmax ≤ 128 * 1024 * 1024 ∧
      (∀ c ∈ cs, 1 ≤ c.2 ∧ c.2 ≤ cmax) ∧ total cs < 2 ^ 64 := by
  constructor
  · rintro ⟨i, h⟩
    obtain ⟨f, h1, h2, h3, h4, h5, h6, h7⟩ := writeFile_inv h
    exact ⟨⟨f, h1⟩, h2, h3, h4, h5, h6, h7⟩
  · rintro ⟨⟨f, h1⟩, h2, h3, h4, h5, h6, h7⟩
    obtain ⟨i, h, _⟩ := writeFile_ok h1 h2 h3 h4 h5 h6 h7
    exact ⟨i, h⟩

/-- C07. Whatever was written is the canonical file, and reading it back delivers the same header fields
and exactly the same chunks: ids, sizes and running end offsets, in order. (A file cannot reach `2^64`
bytes; ids are 32 bytes by type in C.) -/
theorem C07_round_trip (flags : Flags.Word) (cmin cavg cmax : Nat) (cs : List (Bytes × Nat)) (w : Index)
    (hw : writeFile flags cmin cavg cmax cs = .ok w) (hid : ∀ c ∈ cs, c.1.length = 32)
    (hlen : w.file.length < 2 ^ 64) :
    ∃ f i, Flags.normalize flags = .ok f ∧ w.file = encode ⟨f, cmin, cavg, cmax⟩ cs ∧
      readAll w.file = .ok (deliver 0 cs, i) ∧
      i.flags = f ∧ i.cmin = cmin ∧ i.cavg = cavg ∧ i.cmax = cmax := by
  obtain ⟨f, h1, h2, h3, h4, h5, h6, h7⟩ := writeFile_inv hw
  obtain ⟨w', hw', he⟩ := writeFile_ok h1 h2 h3 h4 h5 h6 h7
  rw [hw] at hw'
  cases hw'
  have hv : Header.Valid ⟨f, cmin, cavg, cmax⟩ :=
    ⟨Flags.C17_result_is_normalized _ _ h1, h2, h3, h4, h5⟩
  have hc : ChunksValid ⟨f, cmin, cavg, cmax⟩ cs := ⟨fun c h => ⟨hid c h, h6 c h⟩, h7⟩
  have hl : 40 * cs.length + 56 < 2 ^ 64 := by
    rw [he] at hlen
    unfold encode at hlen
    rw [List.length_append, List.length_append, encHead_length, encItems_length hid, encTail_length] at hlen
    omega
  obtain ⟨i, h8, h9⟩ := readAll_encode hv hc hl
  exact ⟨f, i, h1, he, by rw [he]; exact h8, h9⟩

/-- Non-vacuity: two chunks are written and read back. -/
example : ∃ w i, writeFile 0x1#64 1 16 64 [(List.replicate 32 7, 10), (List.replicate 32 9, 64)] = .ok w ∧
    w.file.length = 184 ∧
    readAll w.file = .ok ([⟨List.replicate 32 7, 10, 10⟩, ⟨List.replicate 32 9, 74, 64⟩], i) := by
  obtain ⟨w, hw⟩ := (C07_writer_accepts_iff 0x1#64 1 16 64 [(List.replicate 32 7, 10), (List.replicate 32 9, 64)]).2
    ⟨⟨0x1#64, by decide⟩, by decide, by decide, by decide, by decide, by decide, by decide⟩
  obtain ⟨f, h1, h2, h3, h4, h5, h6, h7⟩ := writeFile_inv hw
  obtain ⟨w', hw', he⟩ := writeFile_ok h1 h2 h3 h4 h5 h6 h7
  rw [hw] at hw'
  cases hw'
  have hl : w.file.length = 184 := by
    rw [he]; unfold encode
    rw [List.length_append, List.length_append, encHead_length, encItems_length (by decide), encTail_length]
    rfl
  obtain ⟨_, i, _, _, h, _⟩ := C07_round_trip _ _ _ _ _ w hw (by decide) (by rw [hl]; decide)
  exact ⟨w, i, hw, hl, h⟩

/-- C08. A reader that gets to the end of a file without an error has read exactly the canonical file of
the chunks it delivered: valid normalised header, strictly increasing end offsets, no chunk above the
maximum, a correct tail and nothing behind it. (The reader reserves the end offset `2^64 - 1` as "unknown",
which a file below 5.5 TB cannot reach.) -/
theorem C08_accepts_only_canonical (file : Bytes) (got : List Chunk) (i : Index)
    (hlen : file.length < 40 * 2 ^ 37) (h : readAll file = .ok (got, i)) :
    ∃ hd cs, hd.Valid ∧ ChunksValid hd cs ∧ file = encode hd cs ∧ got = deliver 0 cs ∧
      i.flags = hd.flags ∧ i.cmin = hd.cmin ∧ i.cavg = hd.cavg ∧ i.cmax = hd.cmax :=
  readAll_inv hlen h

/-- C08. Exactly the canonical files are accepted. -/
theorem C08_accepts_iff (file : Bytes) (hlen : file.length < 40 * 2 ^ 37) :
    (∃ r, readAll file = .ok r) ↔ ∃ hd cs, hd.Valid ∧ ChunksValid hd cs ∧ file = encode hd cs := by
  constructor
  · rintro ⟨⟨got, i⟩, h⟩
    obtain ⟨hd, cs, h1, h2, h3, _⟩ := readAll_inv hlen h
    exact ⟨hd, cs, h1, h2, h3⟩
  · rintro ⟨hd, cs, h1, h2, rfl⟩
    obtain ⟨i, h, _⟩ := readAll_encode h1 h2 (by
      unfold encode at hlen
      rw [List.length_append, List.length_append, encHead_length, encItems_length (fun c h => (h2.1 c h).1),
        encTail_length] at hlen
      omega)
    exact ⟨_, h⟩

/-- C08. Reading any file whatsoever ends with a result or an error, never with a failed assertion. -/
theorem C08_total (file : Bytes) : readAll file ≠ .ub := readAll_ne_ub file

/-- C08. A truncated index is rejected. -/
theorem C08_truncated (hd : Header) (cs : List (Bytes × Nat)) (hv : hd.Valid) (hc : ChunksValid hd cs)
    (n : Nat) (hn : n < (encode hd cs).length) (hlen : n < 40 * 2 ^ 37) :
    ∃ e, readAll ((encode hd cs).take n) = .err e := by
  cases h : readAll ((encode hd cs).take n) with
  | err e => exact ⟨e, rfl⟩
  | ub => exact absurd h (readAll_ne_ub _)
  | ok p =>
    exfalso
    have hl : ((encode hd cs).take n).length = n := by rw [List.length_take]; omega
    obtain ⟨hd', cs', h1, h2, h3, _⟩ := readAll_inv (got := p.1) (i := p.2) (by omega) h
    have := encode_prefix (x := (encode hd cs).drop n) hv h1 hc h2 (by rw [← h3, List.take_append_drop])
    have := congrArg List.length this.2.2
    rw [List.length_drop, List.length_nil] at this
    omega

/-- C08. Data behind the tail is rejected. -/
theorem C08_trailing_garbage (hd : Header) (cs : List (Bytes × Nat)) (hv : hd.Valid) (hc : ChunksValid hd cs)
    (x : Bytes) (hx : x ≠ []) (hlen : (encode hd cs ++ x).length < 40 * 2 ^ 37) :
    ∃ e, readAll (encode hd cs ++ x) = .err e := by
  cases h : readAll (encode hd cs ++ x) with
  | err e => exact ⟨e, rfl⟩
  | ub => exact absurd h (readAll_ne_ub _)
  | ok p =>
    exfalso
    obtain ⟨hd', cs', h1, h2, h3, _⟩ := readAll_inv (got := p.1) (i := p.2) hlen h
    exact hx (encode_prefix h1 hv h2 hc h3.symm).2.2

/-- C08. Two different chunk lists or headers never share a file. -/
theorem C08_unique (hd hd' : Header) (cs cs' : List (Bytes × Nat)) (hv : hd.Valid) (hv' : hd'.Valid)
    (hc : ChunksValid hd cs) (hc' : ChunksValid hd' cs') (h : encode hd cs = encode hd' cs') :
    hd = hd' ∧ cs = cs' := by
  have := encode_prefix (x := []) hv hv' hc hc' (by rw [List.append_nil]; exact h)
  exact ⟨this.1, this.2.1⟩

example : Header.Valid ⟨0x1#64, 1, 16, 64⟩ ∧
    ChunksValid ⟨0x1#64, 1, 16, 64⟩ [(List.replicate 32 7, 10), (List.replicate 32 9, 64)] := by decide

end Casync.Index
