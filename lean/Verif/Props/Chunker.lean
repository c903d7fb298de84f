import Verif.Lemmas.Chunker
/-!
Properties C01-C06: content defined chunking.

`Fresh c`: a validly configured chunker without data (what `setSize` leaves behind, see C06, and
what `CA_CHUNKER_INIT` gives). `writeAll (writer c) bs` is the run of `ca_sync_write_chunks()` over
the buffers `bs`, `writeFinal` adds the last chunk.
-/
namespace Casync.Chunker
open Casync Casync.Chunker.Spec

/-- Full functional correctness: for every way the stream arrives, the chunks completed so far and the
bytes still buffered are those of the reference chunker on the concatenated stream. No assertion
fails, no error is returned, the loop terminates. -/
theorem writeAll_refines_spec (c : Chunker) (hc : Fresh c) (bs : List (List UInt8)) :
    ∃ w, writeAll (writer c) bs = .ok w ∧
      w.out = (split (sizesOf c) [] bs.flatten).1 ∧
      w.buffer = (split (sizesOf c) [] bs.flatten).2 ∧
      writeFinal w = chunks (sizesOf c) bs.flatten := by
  obtain ⟨w, h1, _, h3, h4⟩ := writeAll_split hc.1 bs (writer c) (rep_fresh hc)
  refine ⟨w, h1, by simpa [writer] using h3, h4, ?_⟩
  rw [writeFinal_eq, h3, h4]
  rfl

/-- C01. Chunk boundaries do not depend on how the stream is cut into buffers. -/
theorem C01_cuts_independent_of_buffering (c : Chunker) (hc : Fresh c) (bs bs' : List (List UInt8))
    (same : bs.flatten = bs'.flatten) :
    ∃ w w', writeAll (writer c) bs = .ok w ∧ writeAll (writer c) bs' = .ok w' ∧
      w.out = w'.out ∧ w.buffer = w'.buffer ∧ writeFinal w = writeFinal w' := by
  obtain ⟨w, h1, h2, h3, h4⟩ := writeAll_refines_spec c hc bs
  obtain ⟨w', h1', h2', h3', h4'⟩ := writeAll_refines_spec c hc bs'
  exact ⟨w, w', h1, h1', by rw [h2, h2', same], by rw [h3, h3', same], by rw [h4, h4', same]⟩

/-- Chunker states reachable through the API: a fresh one, then any sequence of scans. -/
inductive Reach (c0 : Chunker) : Chunker → Prop
  | fresh : Reach c0 c0
  | scan {c c' : Chunker} {p : List UInt8} {r : Option Nat} :
      Reach c0 c → scan c p = .ok (r, c') → Reach c0 c'

theorem reach_rep {c0 c : Chunker} (hc : Fresh c0) (h : Reach c0 c) :
    ∃ d, Rep (sizesOf c0) c d := by
  induction h with
  | fresh => exact ⟨[], rep_fresh hc⟩
  | @scan c c' p r _ hs ih =>
    obtain ⟨d, hd⟩ := ih
    obtain ⟨⟨o, c1⟩, h1, h2, h3⟩ := scan_spec hc.1 (p := p) hd
    rw [hs] at h1
    simp only [Res.ok.injEq, Prod.mk.injEq] at h1
    obtain ⟨rfl, rfl⟩ := h1
    cases r with
    | none => exact ⟨_, h3⟩
    | some k => exact ⟨_, h3⟩

theorem cutPos_append (s : Sizes) (d p q : List UInt8) :
    cutPos s d (p ++ q) =
      match cutPos s d p with
      | some k => some k
      | none => (cutPos s (d ++ p) q).map (· + p.length) := by
  induction p generalizing d with
  | nil => simp [cutPos]
  | cons b r ih =>
    rw [List.cons_append, cutPos, cutPos]
    by_cases h : isCut s (d ++ [b])
    · simp [h]
    · simp only [h, if_false, ih]
      cases h2 : cutPos s (d ++ [b]) r with
      | some k => simp
      | none =>
        simp only [Option.map_none, Option.map_map]
        simp only [List.append_assoc, List.cons_append, List.nil_append, List.length_cons]
        congr 1

/-- C01, at the level of `ca_chunker_scan()` itself: scanning two buffers in turn reports the same cut
position as scanning their concatenation, in every reachable state; no assertion fails and a cut
lies inside the buffer and consumes at least a byte. -/
theorem C01_scan_split (c0 c : Chunker) (hc : Fresh c0) (hr : Reach c0 c) (p q : List UInt8) :
    ∃ r, scan c p = .ok r ∧ (∀ k, r.1 = some k → 1 ≤ k ∧ k ≤ p.length) ∧
      ∃ r2, scan c (p ++ q) = .ok r2 ∧
        match r.1 with
        | some k => r2.1 = some k
        | none => ∃ r1, scan r.2 q = .ok r1 ∧ r2.1 = r1.1.map (· + p.length) := by
  obtain ⟨d, hd⟩ := reach_rep hc hr
  obtain ⟨⟨o, c1⟩, h1, h2, h3⟩ := scan_spec hc.1 (p := p) hd
  obtain ⟨⟨o2, c2⟩, g1, g2, g3⟩ := scan_spec hc.1 (p := p ++ q) hd
  simp only [Nat.add_zero, Option.map_id_fun', id] at h2 g2
  refine ⟨_, h1, fun k hk => cutPos_bounds (h2.symm.trans hk), _, g1, ?_⟩
  cases o with
  | some k => simp only [g2, cutPos_append, ← h2]
  | none =>
    obtain ⟨⟨o3, c3⟩, f1, f2, f3⟩ := scan_spec hc.1 (p := q) h3
    simp only [Nat.add_zero, Option.map_id_fun', id] at f2
    exact ⟨_, f1, by simp only [g2, cutPos_append, ← h2, f2]⟩

/-- C02. The chunks concatenate to the stream and none is empty. -/
theorem C02_lossless (c : Chunker) (hc : Fresh c) (bs : List (List UInt8)) :
    ∃ w, writeAll (writer c) bs = .ok w ∧
      (writeFinal w).flatten = bs.flatten ∧ ∀ x ∈ writeFinal w, x ≠ [] := by
  obtain ⟨w, h1, h2, h3, h4⟩ := writeAll_refines_spec c hc bs
  refine ⟨w, h1, ?_, ?_⟩
  · have := split_flatten (sizesOf c) bs.flatten []
    rw [← h2, ← h3] at this
    rw [writeFinal_eq]
    split
    · rename_i hb; simpa [hb] using this
    · simpa using this
  · rw [writeFinal_eq]
    have hne : ∀ x ∈ w.out, x ≠ [] := by rw [h2]; exact split_nonempty _ _ _
    split
    · exact hne
    · rename_i hb
      intro x hx
      simp only [List.mem_append, List.mem_singleton] at hx
      rcases hx with h | h
      · exact hne x h
      · rw [h]; exact hb

/-- C03, exact form. Every completed chunk (all but the final one) is at least `min` bytes long and at
least the 48 bytes of the hash window, and at most `max` (or 48, if that is more); with
min = avg = max it is exactly that long. What stays buffered (the final chunk) is shorter than the
upper bound. -/
theorem C03_sizes (c : Chunker) (hc : Fresh c) (bs : List (List UInt8)) :
    ∃ w, writeAll (writer c) bs = .ok w ∧
      (∀ x ∈ w.out,
        if c.min = c.avg ∧ c.max = c.avg then x.length = c.avg
        else c.min ≤ x.length ∧ 48 ≤ x.length ∧ x.length ≤ max c.max 48) ∧
      w.buffer.length < (if c.min = c.avg ∧ c.max = c.avg then c.avg else max c.max 48) := by
  obtain ⟨w, h1, h2, h3, h4⟩ := writeAll_refines_spec c hc bs
  obtain ⟨g1, g2⟩ := split_sizes hc.1 bs.flatten [] (rep_below hc.1)
  rw [← h2] at g1
  rw [← h3] at g2
  refine ⟨w, h1, ?_, ?_⟩
  · intro x hx
    obtain ⟨hcut, hle⟩ := g1 x hx
    unfold isCut at hcut
    change if (sizesOf c).fixed then _ else _
    split
    · rename_i hf
      rw [if_pos hf] at hcut hle
      have e : (sizesOf c).avg = c.avg := rfl
      rw [e] at hcut hle; omega
    · rename_i hf
      rw [if_neg hf] at hcut hle
      exact ⟨hcut.1, hcut.2.1, hle⟩
  · unfold Below at g2
    change w.buffer.length < if (sizesOf c).fixed then _ else _
    split
    · rename_i hf; rwa [if_pos hf] at g2
    · rename_i hf; rwa [if_neg hf] at g2

/-- C03 in the usual configurations (`max` at least the window size, or fixed size): chunks lie in
[min, max]. -/
theorem C03_sizes_usual (c : Chunker) (hc : Fresh c) (bs : List (List UInt8))
    (h48 : 48 ≤ c.max ∨ (c.min = c.avg ∧ c.max = c.avg)) :
    ∃ w, writeAll (writer c) bs = .ok w ∧
      (∀ x ∈ w.out, c.min ≤ x.length ∧ x.length ≤ c.max) ∧
      ∀ x ∈ writeFinal w, x.length ≤ c.max := by
  obtain ⟨w, h1, h2, h3⟩ := C03_sizes c hc bs
  have hv : (sizesOf c).Valid := hc.1
  have hout : ∀ x ∈ w.out, c.min ≤ x.length ∧ x.length ≤ c.max := by
    intro x hx
    have := h2 x hx
    split at this
    · omega
    · omega
  refine ⟨w, h1, hout, ?_⟩
  rw [writeFinal_eq]
  intro x hx
  split at hx
  · exact (hout x hx).2
  · simp only [List.mem_append, List.mem_singleton] at hx
    rcases hx with h | h
    · exact (hout x h).2
    · subst h
      split at h3 <;> omega

/-- C03 is false of the code for a maximum below the window size: with min:avg:max = 1:2:4, which
`ca_chunker_set_size()` accepts, every completed chunk is 48 bytes long. -/
theorem C03_max_below_window_violated :
    ∃ c, setSize { geo := fun _ _ => 0, discr := discrExact } init 1 2 4 = .ok c ∧ Fresh c ∧
      ∃ w, writeAll (writer c) [List.replicate 48 0] = .ok w ∧
        w.out = [List.replicate 48 0] ∧ c.max < 48 := by
  refine ⟨_, rfl, by decide, ?_⟩
  refine ⟨_, rfl, by decide +kernel, by decide⟩

/-- C04. The incrementally maintained hash is the hash of the last 48 bytes computed from scratch, as
soon as there are `max min 48` bytes since the last cut. (In fixed size mode no hash is used.) -/
theorem C04_rolling_hash (c : Chunker) (hc : Fresh c) (bs : List (List UInt8))
    (nf : ¬ (c.min = c.avg ∧ c.max = c.avg)) :
    ∃ w, writeAll (writer c) bs = .ok w ∧
      (c.min ≤ w.buffer.length → 48 ≤ w.buffer.length →
        w.chunker.h = windowHash (lastN 48 w.buffer)) := by
  obtain ⟨w, h1, h2, _, _⟩ := writeAll_split hc.1 bs (writer c) (rep_fresh hc)
  refine ⟨w, h1, fun hm h48 => ?_⟩
  refine (h2.high nf ?_).2.1
  unfold skipOf
  have : (sizesOf c).min = c.min := rfl
  omega

/-- C04, consequence: whether a cut follows the next byte is determined by the number of bytes since
the last cut and the 48 most recent bytes only. `d`, `d'` are the bytes since the last cut in two
runs (of possibly different streams). -/
theorem C04_cut_depends_on_window (c : Chunker) (hc : Fresh c) (bs bs' : List (List UInt8)) (b : UInt8) :
    ∃ w w', writeAll (writer c) bs = .ok w ∧ writeAll (writer c) bs' = .ok w' ∧
      (w.buffer.length = w'.buffer.length → lastN 47 w.buffer = lastN 47 w'.buffer →
        ∃ r r', scan w.chunker [b] = .ok r ∧ scan w'.chunker [b] = .ok r' ∧ r.1 = r'.1) := by
  obtain ⟨w, h1, h2, _, _⟩ := writeAll_split hc.1 bs (writer c) (rep_fresh hc)
  obtain ⟨w', h1', h2', _, _⟩ := writeAll_split hc.1 bs' (writer c) (rep_fresh hc)
  refine ⟨w, w', h1, h1', fun hl hw => ?_⟩
  obtain ⟨r, s1, s2, _⟩ := scan_spec hc.1 (p := [b]) h2
  obtain ⟨r', s1', s2', _⟩ := scan_spec hc.1 (p := [b]) h2'
  refine ⟨r, r', s1, s1', ?_⟩
  rw [s2, s2']
  have hiff : isCut (sizesOf c) (w.buffer ++ [b]) ↔ isCut (sizesOf c) (w'.buffer ++ [b]) := by
    have hw' : ∀ d : List UInt8, 47 ≤ d.length → lastN 48 (d ++ [b]) = lastN 47 d ++ [b] := by
      intro d hd
      unfold lastN
      rw [List.length_append, List.drop_append_of_le_length (by simp)]
      congr 2
    unfold isCut
    split
    · simp [hl]
    · simp only [List.length_append, hl, List.length_cons, List.length_nil]
      by_cases h47 : 47 ≤ w'.buffer.length
      · rw [hw' _ h47, hw' _ (by omega), hw]
      · constructor <;> (intro h; omega)
  simp only [cutPos, hiff]

/-- C05. After a cut nothing that came before matters: two runs that have just completed a chunk
(empty buffer) produce the same further chunks and the same rest from the same further bytes,
however these are buffered. -/
theorem C05_resync (c : Chunker) (hc : Fresh c) (as bs xs ys : List (List UInt8))
    (same : xs.flatten = ys.flatten) :
    ∃ wa wb, writeAll (writer c) as = .ok wa ∧ writeAll (writer c) bs = .ok wb ∧
      (wa.buffer = [] → wb.buffer = [] →
        ∃ wa' wb' new, writeAll wa xs = .ok wa' ∧ writeAll wb ys = .ok wb' ∧
          wa'.out = wa.out ++ new ∧ wb'.out = wb.out ++ new ∧ wa'.buffer = wb'.buffer) := by
  obtain ⟨wa, a1, a2, a3, a4⟩ := writeAll_split hc.1 as (writer c) (rep_fresh hc)
  obtain ⟨wb, b1, b2, b3, b4⟩ := writeAll_split hc.1 bs (writer c) (rep_fresh hc)
  refine ⟨wa, wb, a1, b1, fun ea eb => ?_⟩
  obtain ⟨wa', c1, _, c3, c4⟩ := writeAll_split hc.1 xs wa a2
  obtain ⟨wb', d1, _, d3, d4⟩ := writeAll_split hc.1 ys wb b2
  rw [ea] at c3 c4
  rw [eb, ← same] at d3 d4
  exact ⟨wa', wb', _, c1, d1, c3, d3, by rw [c4, d4]⟩

theorem pickAvg_given {fpu : Fpu} {mn av mx : Nat} (h : av ≠ 0) (h1 : av ≤ 134217728) :
    pickAvg fpu mn av mx = .ok av := by
  unfold pickAvg limitMin limitMax
  rw [if_neg h, if_neg (by omega), if_neg (by omega)]

theorem pickAvg_bad {fpu : Fpu} {mn av mx : Nat} (h1 : 134217728 < av) :
    pickAvg fpu mn av mx = .err .ERANGE := by
  unfold pickAvg limitMin limitMax
  rw [if_neg (by omega), if_neg (by omega), if_pos (by omega)]

theorem pickMin_ok {mn av : Nat} (h : av ≠ 0) (h2 : mn = 0 ∨ mn ≤ av) :
    ∃ m, pickMin mn av = .ok m ∧ 1 ≤ m ∧ m ≤ av := by
  unfold pickMin limitMin
  split
  · refine ⟨_, rfl, ?_, ?_⟩ <;> split <;> omega
  · rw [if_neg (by omega), if_neg (by omega)]
    exact ⟨_, rfl, by omega, by omega⟩

theorem pickMin_err {mn av : Nat} (h2 : ¬ (mn = 0 ∨ mn ≤ av)) : pickMin mn av = .err .EINVAL := by
  unfold pickMin limitMin
  rw [if_neg (by omega), if_neg (by omega), if_pos (by omega)]

theorem pickMax_ok {mx av : Nat} (h1 : av ≤ 134217728) (h2 : mx = 0 ∨ (av ≤ mx ∧ mx ≤ 134217728)) :
    ∃ m, pickMax mx av = .ok m ∧ av ≤ m ∧ m ≤ 134217728 := by
  unfold pickMax limitMax
  have hwrap : wrap64 (av * 4) = av * 4 := by
    unfold wrap64; apply Nat.mod_eq_of_lt; omega
  split
  · rw [hwrap]; refine ⟨_, rfl, ?_, ?_⟩ <;> split <;> omega
  · rw [if_neg (by omega), if_neg (by omega)]
    exact ⟨_, rfl, by omega, by omega⟩

theorem pickMax_err {mx av : Nat} (h2 : ¬ (mx = 0 ∨ (av ≤ mx ∧ mx ≤ 134217728))) :
    ∃ e, pickMax mx av = .err e := by
  unfold pickMax limitMax
  rw [if_neg (by omega)]
  split
  · exact ⟨_, rfl⟩
  · rw [if_pos (by omega)]; exact ⟨_, rfl⟩

/-- C06. A successful `ca_chunker_set_size()` leaves a valid configuration, honours every size that was
given explicitly and touches nothing else. -/
theorem C06_set_size_ok (fpu : Fpu) (c c' : Chunker) (mn av mx : Nat)
    (h : setSize fpu c mn av mx = .ok c') :
    (sizesOf c').Valid ∧ (mn ≠ 0 → c'.min = mn) ∧ (av ≠ 0 → c'.avg = av) ∧ (mx ≠ 0 → c'.max = mx) ∧
      c.wsize = 0 ∧ c'.wsize = 0 ∧ c'.csize = c.csize ∧ c'.h = c.h ∧ c'.window = c.window := by
  unfold setSize at h
  split at h
  · simp at h
  · rename_i hw
    obtain ⟨a, ha, h⟩ := Res.bind_eq_ok.1 h
    obtain ⟨m, hm, h⟩ := Res.bind_eq_ok.1 h
    obtain ⟨x, hx, h⟩ := Res.bind_eq_ok.1 h
    obtain ⟨_, h1, h⟩ := Res.bind_eq_ok.1 h
    obtain ⟨_, h2, h⟩ := Res.bind_eq_ok.1 h
    obtain ⟨_, h3, h⟩ := Res.bind_eq_ok.1 h
    obtain ⟨_, h4, h5⟩ := Res.bind_eq_ok.1 h
    simp only [Res.assert] at *
    cases hd : fpu.discr a with
    | none => rw [hd] at h5; simp at h5
    | some d =>
      rw [hd] at h5
      simp only [Res.ok.injEq] at h5
      subst h5
      have q1 : limitMin ≤ m := by revert h1; split <;> simp_all
      have q2 : m ≤ a := by revert h2; split <;> simp_all
      have q3 : a ≤ x := by revert h3; split <;> simp_all
      have q4 : x ≤ limitMax := by revert h4; split <;> simp_all
      refine ⟨?_, ?_, ?_, ?_, by omega, by simpa using hw, rfl, rfl, rfl⟩
      · refine ⟨q1, q2, q3, q4, ?_, ?_⟩
        · show m ≤ if (if d < m then m else d) > x then x else (if d < m then m else d)
          split <;> split <;> omega
        · show (if (if d < m then m else d) > x then x else (if d < m then m else d)) ≤ x
          split <;> split <;> omega
      · intro hne
        unfold pickMin at hm
        rw [if_neg hne] at hm
        revert hm; split
        · simp
        · split <;> simp_all
      · intro hne
        unfold pickAvg at ha
        rw [if_neg hne] at ha
        revert ha; split
        · simp
        · split <;> simp_all
      · intro hne
        unfold pickMax at hx
        rw [if_neg hne] at hx
        revert hx; split
        · simp
        · split <;> simp_all

/-- C06. Exactly which explicit requests are accepted: with an average given, and provided the
discriminator formula is defined for it, the call succeeds iff the sizes are ordered and within
the limits. In every other case it is refused with an error (not an assertion failure). -/
theorem C06_set_size_accepts_iff (fpu : Fpu) (c : Chunker) (mn av mx : Nat) (hav : av ≠ 0)
    (hd : ∀ a, (fpu.discr a).isSome) (hw : c.wsize = 0) :
    ((∃ c', setSize fpu c mn av mx = .ok c') ↔
      (av ≤ 128 * 1024 * 1024 ∧ (mn = 0 ∨ mn ≤ av) ∧ (mx = 0 ∨ (av ≤ mx ∧ mx ≤ 128 * 1024 * 1024)))) ∧
    setSize fpu c mn av mx ≠ .ub := by
  obtain ⟨d, hd⟩ := Option.isSome_iff_exists.1 (hd av)
  unfold setSize
  rw [if_neg (by omega)]
  by_cases h1 : av ≤ 134217728
  · rw [pickAvg_given hav h1]
    simp only [Res.bind_ok]
    by_cases h2 : mn = 0 ∨ mn ≤ av
    · obtain ⟨m, e1, m1, m2⟩ := pickMin_ok (mn := mn) hav h2
      rw [e1]
      simp only [Res.bind_ok]
      by_cases h3 : mx = 0 ∨ (av ≤ mx ∧ mx ≤ 134217728)
      · obtain ⟨x, e2, x1, x2⟩ := pickMax_ok (mx := mx) h1 h3
        rw [e2]
        simp only [Res.bind_ok, Res.assert, limitMin, limitMax, m1, m2, x1, x2, decide_true, if_true, hd]
        simp
        exact ⟨h1, h2, h3⟩
      · obtain ⟨e, e2⟩ := pickMax_err h3
        rw [e2]; simp; omega
    · rw [pickMin_err h2]; simp; omega
  · rw [pickAvg_bad (by omega)]; simp; omega

/-- C06. A chunker whose hash window already holds bytes refuses reconfiguration. -/
theorem C06_busy (fpu : Fpu) (c : Chunker) (mn av mx : Nat) (h : c.wsize ≠ 0) :
    setSize fpu c mn av mx = .err .EBUSY := by
  simp [setSize, h]

/-- C06 is false of the code for data still in the part of a chunk that is not scanned: after one byte
the default chunker accepts a new (fixed) size, and the next scan then fails an assertion. -/
theorem C06_reconfigure_with_data_violated :
    ∃ c1 c2, scan init [7] = .ok (none, c1) ∧ c1.csize = 1 ∧
      setSize { geo := fun _ _ => 0, discr := discrExact } c1 1 1 1 = .ok c2 ∧
      scan c2 [7] = .ub := by
  refine ⟨_, _, rfl, rfl, rfl, ?_⟩
  decide +kernel

/-- The discriminator formula has no defined value for averages from 9324557 bytes on, although
averages up to 128 MiB pass the range check. -/
theorem C06_discriminator_undefined (avg : Nat) (h : 9324557 ≤ avg) :
    discrExact avg = none := by
  unfold discrExact
  rw [if_neg]; omega

/-! Non-vacuity: the default chunker is fresh, a configured one as well, and a run over a
stream long enough for cuts exists. -/
example : Fresh init := by decide +kernel
example : ∃ c, setSize { geo := fun _ _ => 0, discr := discrExact } init 64 128 256 = .ok c ∧ Fresh c :=
  ⟨_, rfl, by decide +kernel⟩
example : ∃ c w, setSize { geo := fun _ _ => 0, discr := discrExact } init 3 3 3 = .ok c ∧ Fresh c ∧
    writeAll (writer c) [[1, 2], [3, 4, 5, 6], [7]] = .ok w ∧ writeFinal w = [[1, 2, 3], [4, 5, 6], [7]] :=
  ⟨_, _, rfl, by decide +kernel, rfl, by decide +kernel⟩
example : Reach init (scan init [1, 2, 3] |> fun | .ok r => r.2 | _ => init) :=
  .scan (r := none) (p := [1, 2, 3]) .fresh rfl

end Casync.Chunker
