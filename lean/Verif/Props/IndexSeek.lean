import Verif.Lemmas.IndexSeek
/-!
Property C09: seeking in an index.
-/
namespace Casync.Index
open Casync Casync.Index.Spec

/-- C09. In a well-formed index, seeking to an offset within the blob finds the chunk that contains it and
the distance from that chunk's start, and reading continues from that chunk with correct ids, end offsets and
sizes. Precondition: the first chunk is not below the minimum size the header announces (or it is the only
one), see `C09_short_first_chunk_violated`. -/
theorem C09_seek (hd : Header) (cs : List (Bytes × Nat)) (hv : hd.Valid) (hc : ChunksValid hd cs)
    (hlen : (encode hd cs).length < 2 ^ 63) (offset : Nat) (ho : offset < total cs)
    (hmin : 2 ≤ cs.length → ∀ x ∈ cs.head?, hd.cmin ≤ x.2) :
    ∃ (q skip : Nat) (i : Index) (id : Bytes) (size : Nat),
      seek (newRead (encode hd cs)) offset = .ok (skip, i) ∧
      cs[q]? = some (id, size) ∧ total (cs.take q) + skip = offset ∧ skip < size ∧ i.itemPos = q ∧
      ∀ fuel, cs.length < fuel → ∃ i', readLoop fuel i = .ok (deliver (total (cs.take q)) (cs.drop q), i') := by
  have hids : ∀ x ∈ cs, x.1.length = 32 := fun x h => (hc.1 x h).1
  have hl : 104 + 40 * cs.length < 2 ^ 63 := by
    unfold encode at hlen
    rw [List.length_append, List.length_append, encHead_length, encItems_length hids, encTail_length] at hlen
    omega
  have c : Canon hd cs (encode hd cs) := ⟨hv, hc, rfl, hl⟩
  have hopen : openIndex (newRead (encode hd cs)) = .ok (rstate hd .read false 0 (encode hd cs) 0 0) :=
    openIndex_newRead_encHead hv (encItems 0 cs ++ encTail cs.length)
  rw [seek_newRead (hd := hd) offset hopen]
  obtain ⟨q, skip, h1, h2, h3, h4⟩ := (seek_gstate_canon c offset 64 64 0 0 hmin).2 ho
  have hE := E_succ h2
  refine ⟨q, skip, _, cs[q].1, cs[q].2, h1, by rw [List.getElem?_eq_getElem h2], h3, by omega, rfl, ?_⟩
  intro fuel hf
  have htot : E cs q + total (cs.drop q) = total cs := by
    unfold E total
    rw [← List.sum_append_nat, ← List.map_append, List.take_append_drop]
  have hlen' := c.len
  refine ⟨_, readLoop_encode (h := hd) (cs.drop q) q (E cs q) fuel ?_ (by omega)
    (fun x hx => hc.1 x (List.mem_of_mem_drop hx)) (by have := hc.2; omega) ?_ ?_⟩
  · rw [c.drop (Nat.le_of_lt h2), List.length_drop, show q + (cs.length - q) = cs.length by omega]
  · rw [List.length_drop]; omega
  · rw [List.length_drop]; omega

/-- C09. Offsets at or behind the end of the blob are refused. -/
theorem C09_beyond_end (hd : Header) (cs : List (Bytes × Nat)) (hv : hd.Valid) (hc : ChunksValid hd cs)
    (hlen : (encode hd cs).length < 2 ^ 63) (offset : Nat) (ho : total cs ≤ offset) :
    seek (newRead (encode hd cs)) offset = .err .ENXIO := by
  have hids : ∀ x ∈ cs, x.1.length = 32 := fun x h => (hc.1 x h).1
  have hl : 104 + 40 * cs.length < 2 ^ 63 := by
    unfold encode at hlen
    rw [List.length_append, List.length_append, encHead_length, encItems_length hids, encTail_length] at hlen
    omega
  have c : Canon hd cs (encode hd cs) := ⟨hv, hc, rfl, hl⟩
  have hopen : openIndex (newRead (encode hd cs)) = .ok (rstate hd .read false 0 (encode hd cs) 0 0) :=
    openIndex_newRead_encHead hv (encItems 0 cs ++ encTail cs.length)
  rw [seek_newRead (hd := hd) offset hopen]
  unfold seek
  rw [c.blobSize, Res.bind_ok]
  simp only
  rw [if_pos ho]

/-- C09. The result does not depend on where the reader stands: seeking again from any position of the same
reader equals seeking in a freshly opened one. -/
theorem C09_position_independent (hd : Header) (cs : List (Bytes × Nat)) (hv : hd.Valid) (hc : ChunksValid hd cs)
    (hlen : (encode hd cs).length < 2 ^ 63) (offset : Nat)
    (hmin : 2 ≤ cs.length → ∀ x ∈ cs.head?, hd.cmin ≤ x.2) (pos cooked itemPos prev : Nat) :
    seek (gstate hd (encode hd cs) pos cooked itemPos prev) offset = seek (newRead (encode hd cs)) offset := by
  have hids : ∀ x ∈ cs, x.1.length = 32 := fun x h => (hc.1 x h).1
  have hl : 104 + 40 * cs.length < 2 ^ 63 := by
    unfold encode at hlen
    rw [List.length_append, List.length_append, encHead_length, encItems_length hids, encTail_length] at hlen
    omega
  have c : Canon hd cs (encode hd cs) := ⟨hv, hc, rfl, hl⟩
  have hopen : openIndex (newRead (encode hd cs)) = .ok (rstate hd .read false 0 (encode hd cs) 0 0) :=
    openIndex_newRead_encHead hv (encItems 0 cs ++ encTail cs.length)
  rw [seek_newRead (hd := hd) offset hopen]
  have h1 := seek_gstate_canon c offset pos cooked itemPos prev hmin
  have h2 := seek_gstate_canon c offset 64 64 0 0 hmin
  rcases Nat.lt_or_ge offset (total cs) with h | h
  · obtain ⟨q, s, a1, a2, a3, a4⟩ := h1.2 h
    obtain ⟨q', s', b1, b2, b3, b4⟩ := h2.2 h
    have : q = q' := by
      rcases Nat.lt_trichotomy q q' with h | h | h
      · have := E_mono (cs := cs) (show q + 1 ≤ q' from h); omega
      · exact h
      · have := E_mono (cs := cs) (show q' + 1 ≤ q from h); omega
    subst this
    have : s = s' := by omega
    subst this
    rw [a1, b1]
  · rw [h1.1 h, h2.1 h]

/-- C09. On any file whatsoever, well-formed or not, seeking ends (with a result or an error). -/
theorem C09_terminates (file : Bytes) (offset : Nat) (hlen : file.length < 2 ^ 62) :
    seek (newRead file) offset ≠ .ub := seek_ne_ub file offset hlen

/-- C09 is false of the code if the first of several chunks is shorter than the announced minimum: the
shortcut for small offsets then reports the first chunk and an offset behind its end. -/
theorem C09_short_first_chunk_violated (hd : Header) (id : Bytes) (size : Nat) (cs : List (Bytes × Nat))
    (hv : hd.Valid) (hc : ChunksValid hd ((id, size) :: cs))
    (hlen : (encode hd ((id, size) :: cs)).length < 2 ^ 63) (offset : Nat)
    (h1 : size ≤ offset) (h2 : offset < hd.cmin) (h3 : offset < total ((id, size) :: cs)) :
    ∃ i, seek (newRead (encode hd ((id, size) :: cs))) offset = .ok (offset, i) ∧ i.itemPos = 0 ∧
      ¬ offset < size := by
  generalize hcs' : (id, size) :: cs = cs' at *
  have hids : ∀ x ∈ cs', x.1.length = 32 := fun x h => (hc.1 x h).1
  have hl : 104 + 40 * cs'.length < 2 ^ 63 := by
    unfold encode at hlen
    rw [List.length_append, List.length_append, encHead_length, encItems_length hids, encTail_length] at hlen
    omega
  have c : Canon hd cs' (encode hd cs') := ⟨hv, hc, rfl, hl⟩
  have hopen : openIndex (newRead (encode hd cs')) = .ok (rstate hd .read false 0 (encode hd cs') 0 0) :=
    openIndex_newRead_encHead hv (encItems 0 cs' ++ encTail cs'.length)
  rw [seek_newRead (hd := hd) offset hopen]
  unfold seek
  rw [c.blobSize, Res.bind_ok]
  simp only
  rw [if_neg (by omega), c.totalChunks, Res.bind_ok]
  simp only
  have hpos : cs'.length ≠ 0 := by rw [← hcs']; simp
  have h2' : cs'.length = 1 ∨ offset < (gstate hd (encode hd cs') 64 64 0 0).cmin := Or.inr h2
  rw [if_neg hpos, if_pos h2', setPosition_gstate (by omega), Res.bind_ok]
  exact ⟨_, rfl, rfl, by omega⟩

example : Header.Valid ⟨0x1#64, 8, 16, 64⟩ ∧
    ChunksValid ⟨0x1#64, 8, 16, 64⟩ [(List.replicate 32 7, 10), (List.replicate 32 9, 64), (List.replicate 32 3, 1)] ∧
    (2 ≤ 3 → ∀ x ∈ [(List.replicate 32 (7 : UInt8), 10), (List.replicate 32 9, 64)].head?, 8 ≤ x.2) := by decide
example : Header.Valid ⟨0x1#64, 8, 16, 64⟩ ∧
    ChunksValid ⟨0x1#64, 8, 16, 64⟩ [(List.replicate 32 7, 2), (List.replicate 32 9, 64)] ∧ 2 ≤ 5 ∧ 5 < 8 := by decide

end Casync.Index
