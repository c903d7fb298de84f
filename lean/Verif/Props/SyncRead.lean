import Verif.Lemmas.SyncRun
/-!
C39: random access to a blob through its index.
-/
namespace Casync.Sync
open Casync Casync.Index Casync.Index.Spec

variable {hd : Header} {cs : List (Bytes × Nat)} {enc rest : Bytes}

/-- The reader is consistent with position `pos` of the blob. -/
def RInv (hd : Header) (cs : List (Bytes × Nat)) (enc rest : Bytes) (r : Reader) (pos : Nat) : Prop :=
  ∃ q, At hd cs enc rest r.index q ∧
    ((r.next = none ∧ pos = E cs q + r.skip) ∨
     (∃ (k : Nat) (hk : k < cs.length), q = k + 1 ∧ r.next = some { id := cs[k].1, endOffset := E cs (k + 1), size := cs[k].2 } ∧ pos = E cs k + r.skip))

theorem cmax_lt (c : Canon hd cs enc) {k : Nat} (hk : k < cs.length) : cs[k].2 < u64max ∧ 0 < cs[k].2 := by
  have h1 := c.hc.1 _ (List.getElem_mem hk)
  have h2 := c.hv.2.2.2.2
  have hu : u64max = 2 ^ 64 - 1 := by decide
  omega

theorem fill_inv (c : Canon hd cs enc) : ∀ (fuel : Nat) (r : Reader) (pos q : Nat), At hd cs enc rest r.index q →
    ((r.next = none ∧ pos = E cs q + r.skip) ∨
     (∃ (k : Nat) (hk : k < cs.length), q = k + 1 ∧ r.next = some { id := cs[k].1, endOffset := E cs (k + 1), size := cs[k].2 } ∧ pos = E cs k + r.skip)) →
    r.index.file.length + 1 < fuel + q →
    (∃ e, fill fuel r = .err e ∧ (Complete r.index → total cs ≤ pos)) ∨
    (∃ r', fill fuel r = .ok (.wait, r') ∧ RInv hd cs enc rest r' pos ∧ ¬ Complete r.index) ∨
    (∃ r', fill fuel r = .ok (.eof, r') ∧ RInv hd cs enc rest r' pos ∧ total cs ≤ pos ∧ (Complete r.index → Complete r'.index)) ∨
    (∃ r', ∃ (k : Nat) (hk : k < cs.length), fill fuel r = .ok (.chunk { id := cs[k].1, endOffset := E cs (k + 1), size := cs[k].2 }, r') ∧
      At hd cs enc rest r'.index (k + 1) ∧ r'.next = some { id := cs[k].1, endOffset := E cs (k + 1), size := cs[k].2 } ∧ pos = E cs k + r'.skip ∧
      r'.skip < cs[k].2 ∧ (Complete r.index → Complete r'.index)) := by
  intro fuel
  induction fuel with
  | zero => intro r pos q h _ hf; have := (h.le c).1; omega
  | succ fuel ih =>
    intro r pos q h hn hf
    rw [fill]
    -- the chunk that is pending, if any
    have hcase : (∃ (k : Nat) (hk : k < cs.length), q = k + 1 ∧ r.next = some { id := cs[k].1, endOffset := E cs (k + 1), size := cs[k].2 } ∧ pos = E cs k + r.skip ∧
          r.skip < cs[k].2) ∨
        (pending r = none ∧ (dropNext r).index = r.index ∧ (dropNext r).next = none ∧ pos = E cs q + (dropNext r).skip) := by
      rcases hn with ⟨h1, h2⟩ | ⟨k, hk, h1, h2, h3⟩
      · right
        unfold pending dropNext
        rw [h1]
        exact ⟨rfl, rfl, h1, h2⟩
      · by_cases hs : r.skip < cs[k].2
        · exact .inl ⟨k, hk, h1, h2, h3, hs⟩
        · right
          unfold pending dropNext
          rw [h2]
          simp only
          rw [if_neg hs]
          refine ⟨by simp, by simp, by simp, ?_⟩
          rw [h1, E_succ hk]
          omega
    rcases hcase with ⟨k, hk, h1, h2, h3, h4⟩ | ⟨h1, h2, h3, h4⟩
    · right; right; right
      have hp : pending r = some { id := cs[k].1, endOffset := E cs (k + 1), size := cs[k].2 } := by
        unfold pending
        rw [h2]
        simp only
        rw [if_pos h4]
      rw [hp]
      refine ⟨r, k, hk, rfl, ?_, h2, h3, h4, id⟩
      rw [← h1]; exact h
    · rw [h1]
      simp only
      rw [h2]
      rcases read_at c h with ⟨e, he, hce, hag⟩ | ⟨hlt, i', he, hat, hci, hfl⟩ | ⟨hq, i', he, hat, hci, hfl⟩
      · rw [he]
        simp only
        by_cases hea : e = .EAGAIN
        · rw [if_pos hea]
          right; left
          exact ⟨_, rfl, ⟨q, by rw [h2]; exact h, .inl ⟨h3, h4⟩⟩, hag hea⟩
        · rw [if_neg hea]
          left
          refine ⟨e, rfl, fun hc => ?_⟩
          rw [h4, hce hc, E_length]; omega
      · rw [he]
        simp only
        have hm := cmax_lt c hlt
        rw [if_neg (by omega)]
        have hrec := ih { dropNext r with index := i', next := some { id := cs[q].1, endOffset := E cs (q + 1), size := cs[q].2 } } pos (q + 1) hat
          (.inr ⟨q, hlt, rfl, rfl, h4⟩) (by show i'.file.length + 1 < _; rw [hfl]; omega)
        rcases hrec with ⟨e, g1, g2⟩ | ⟨r', g1, g2, g3⟩ | h | h
        · exact .inl ⟨e, g1, fun hc => g2 (hci.2 hc)⟩
        · exact .inr (.inl ⟨r', g1, g2, fun hc => g3 (hci.2 hc)⟩)
        · obtain ⟨r', g1, g2, g3, g4⟩ := h
          exact .inr (.inr (.inl ⟨r', g1, g2, g3, fun hc => g4 (hci.2 hc)⟩))
        · obtain ⟨r', k, hk, g1, g2, g3, g4, g5, g6⟩ := h
          exact .inr (.inr (.inr ⟨r', k, hk, g1, g2, g3, g4, g5, fun hc => g6 (hci.2 hc)⟩))
      · rw [he]
        right; right; left
        refine ⟨_, rfl, ⟨q, hat, .inl ⟨h3, h4⟩⟩, ?_, fun hc => hci.2 hc⟩
        rw [h4, hq, E_length]; omega

theorem chunksOf_get (H : Bytes → Bytes) (xs : List Bytes) {k : Nat} (h : k < (chunksOf H xs).length) :
    ∃ hx : k < xs.length, (chunksOf H xs)[k] = (H xs[k], xs[k].length) := by
  have hx : k < xs.length := by simpa [chunksOf] using h
  exact ⟨hx, by simp [chunksOf]⟩

theorem drop_E (H : Bytes → Bytes) : ∀ (xs : List Bytes) (k : Nat) (hx : k < xs.length),
    xs.flatten.drop (E (chunksOf H xs) k) = xs[k] ++ (xs.drop (k + 1)).flatten := by
  intro xs
  induction xs with
  | nil => intro k hx; simp at hx
  | cons x xs ih =>
    intro k hx
    cases k with
    | zero => rw [E_zero]; simp
    | succ k =>
      have he : E (chunksOf H (x :: xs)) (k + 1) = x.length + E (chunksOf H xs) k := by
        unfold E chunksOf
        rw [List.map_cons, List.take_succ_cons, total_cons]
      rw [he, List.flatten_cons, ← List.drop_drop, List.drop_left' rfl, ih k (by simpa using hx)]
      simp

/-- What of the index is still to come before and after an operation. -/
def Left : Op → Bytes → Bytes → Prop
  | .arrive d, rest, rest' => rest = d ++ rest'
  | .arriveEof, rest, rest' => rest = [] ∧ rest' = rest
  | _, rest, rest' => rest' = rest

theorem total_chunksOf (H : Bytes → Bytes) (xs : List Bytes) : total (chunksOf H xs) = xs.flatten.length := by
  unfold total chunksOf
  rw [List.map_map, List.length_flatten]
  rfl

/-- One operation keeps the reader consistent. -/
theorem step_inv {H : Bytes → Bytes} {xs : List Bytes} (c : Canon hd (chunksOf H xs) enc) {r : Reader} {pos : Nat} (hr : RInv hd (chunksOf H xs) enc rest r pos)
    {op : Op} (hop : op.Genuine H xs) {rest' : Bytes} (har : Left op rest rest') :
    (∃ e, step r op = .err e) ∨
    (∃ o r', step r op = .ok (o, r') ∧ RInv hd (chunksOf H xs) enc rest' r' (after pos op o) ∧
      (∀ b, o = .data b → b ≠ [] ∧ (xs.flatten.drop pos).take b.length = b) ∧ (o = .eof → xs.flatten.length ≤ pos) ∧
      (Complete r.index ∨ op = .arriveEof → Complete r'.index)) := by
  obtain ⟨q, hat, hn⟩ := hr
  have ht := total_chunksOf H xs
  cases op with
  | request ready answer =>
    obtain rfl : rest' = rest := har
    unfold step request
    rcases fill_inv c (r.index.file.length + 2) r pos q hat hn (by omega) with ⟨e, he, _⟩ | ⟨r', he, hi, hnc⟩ | ⟨r', he, hi, hp, hcp⟩ | ⟨r', k, hk, he, ha, hnx, hp, hs, hcp⟩
    · left; simp only; rw [he]; exact ⟨e, rfl⟩
    · right
      simp only
      rw [he]
      exact ⟨_, _, rfl, hi, fun b hb => (by cases hb), fun hb => (by cases hb), fun h => h.elim (fun h => absurd h hnc) (fun h => (by cases h))⟩
    · right
      simp only
      rw [he]
      exact ⟨_, _, rfl, hi, fun b hb => (by cases hb), fun _ => (by rw [← ht]; exact hp), fun h => h.elim hcp (fun h => (by cases h))⟩
    · simp only
      rw [he]
      simp only
      have hinv : RInv hd (chunksOf H xs) enc rest' r' pos := ⟨k + 1, ha, .inr ⟨k, hk, rfl, hnx, hp⟩⟩
      by_cases hrd : ready = true
      · rw [if_pos hrd]
        obtain ⟨hx, hget⟩ := chunksOf_get H xs hk
        unfold deliver
        simp only
        have hne := hop.2 (chunksOf H xs)[k].1
        cases hans : answer (chunksOf H xs)[k].1 with
        | ub => exact absurd hans hne
        | err e =>
          simp only
          by_cases hea : e = .EAGAIN ∨ e = .EALREADY
          · rw [if_pos hea]
            right
            exact ⟨_, _, rfl, hinv, fun b hb => (by cases hb), fun hb => (by cases hb), fun h => h.elim hcp (fun h => (by cases h))⟩
          · rw [if_neg hea]; exact .inl ⟨e, rfl⟩
        | ok y =>
          have hy : y = xs[k] := by
            refine hop.1 xs[k] (List.getElem_mem hx) y ?_
            rw [hget] at hans; exact hans
          have hc2 : (chunksOf H xs)[k].2 = xs[k].length := by rw [hget]
          have hE := E_succ hk
          have hd' := drop_E H xs k hx
          simp only
          rw [if_neg (by rw [hy, hc2]; simp)]
          by_cases hsk : r'.skip > 0
          · rw [if_pos hsk, if_neg (by rw [hy]; omega)]
            right
            refine ⟨_, _, rfl, ?_, ?_, fun hb => (by cases hb), fun h => h.elim hcp (fun h => (by cases h))⟩
            · refine ⟨k + 1, ha, .inl ⟨rfl, ?_⟩⟩
              show pos + (y.drop r'.skip).length = E (chunksOf H xs) (k + 1) + 0
              rw [List.length_drop, hy]; omega
            · intro b hb
              injection hb with hb
              subst hb
              refine ⟨?_, ?_⟩
              · intro h0
                have := congrArg List.length h0
                rw [List.length_drop, hy] at this
                simp at this; omega
              · rw [hp, ← List.drop_drop, hd', hy, List.drop_append_of_le_length (by omega), List.take_left' rfl]
          · rw [if_neg hsk]
            have hs0 : r'.skip = 0 := by omega
            right
            refine ⟨_, _, rfl, ?_, ?_, fun hb => (by cases hb), fun h => h.elim hcp (fun h => (by cases h))⟩
            · refine ⟨k + 1, ha, .inl ⟨rfl, ?_⟩⟩
              show pos + y.length = E (chunksOf H xs) (k + 1) + r'.skip
              rw [hy]; omega
            · intro b hb
              injection hb with hb
              subst hb
              refine ⟨?_, ?_⟩
              · intro h0
                have := congrArg List.length h0
                rw [hy] at this
                simp at this
                rw [hc2, this] at hs; simp at hs
              · rw [hp, hs0, Nat.add_zero, hd', hy, List.take_left' rfl]
      · rw [if_neg hrd]
        right
        exact ⟨_, _, rfl, hinv, fun b hb => (by cases hb), fun hb => (by cases hb), fun h => h.elim hcp (fun h => (by cases h))⟩
  | seek offset =>
    obtain rfl : rest' = rest := har
    unfold step seekTo
    simp only
    rcases seek_at c hat offset with ⟨e, he, _⟩ | ⟨skip, q', i', he, ha, hE, _, hci, _⟩
    · left; rw [he]; exact ⟨e, rfl⟩
    · right
      rw [he]
      exact ⟨_, _, rfl, ⟨q', ha, .inl ⟨rfl, hE.symm⟩⟩, fun b hb => (by cases hb), fun hb => (by cases hb), fun h => h.elim hci.2 (fun h => (by cases h))⟩
  | skip n =>
    obtain rfl : rest' = rest := har
    unfold step skipBytes
    simp only
    by_cases ho : r.skip + n ≥ 2 ^ 64
    · left; rw [if_pos ho]; exact ⟨_, rfl⟩
    · rw [if_neg ho]
      right
      refine ⟨_, _, rfl, ⟨q, hat, ?_⟩, fun b hb => (by cases hb), fun hb => (by cases hb), fun h => h.elim id (fun h => (by cases h))⟩
      rcases hn with ⟨h1, h2⟩ | ⟨k, hk, h1, h2, h3⟩
      · exact .inl ⟨h1, by show pos + n = _ + (r.skip + n); omega⟩
      · exact .inr ⟨k, hk, h1, h2, by show pos + n = _ + (r.skip + n); omega⟩
  | prefetch ready has ask =>
    obtain rfl : rest' = rest := har
    unfold step
    simp only
    rcases prefetch_at c (r := r) (ready := ready) hat hop.1 hop.2 with ⟨e, he⟩ | ⟨ids, i', k, he, ha, _, hci, _⟩
    · exact .inl ⟨e, he⟩
    · right
      exact ⟨_, _, he, ⟨q, ha, hn⟩, fun b hb => (by cases hb), fun hb => (by cases hb), fun h => h.elim hci (fun h => (by cases h))⟩
  | arrive d =>
    have har : rest = d ++ rest' := har
    unfold step
    simp only
    rcases arrive_at c hat har with ⟨e, he⟩ | ⟨i', he, ha, hnc⟩
    · left; rw [he]; exact ⟨e, rfl⟩
    · right
      rw [he]
      exact ⟨_, _, rfl, ⟨q, ha, hn⟩, fun b hb => (by cases hb), fun hb => (by cases hb), fun h => h.elim (fun h => absurd h hnc) (fun h => (by cases h))⟩
  | arriveEof =>
    obtain ⟨har, rfl⟩ : rest = [] ∧ rest' = rest := har
    unfold step
    simp only
    rcases arriveEof_at c hat har with ⟨e, he⟩ | ⟨i', he, ha, hci⟩
    · left; rw [he]; exact ⟨e, rfl⟩
    · right
      rw [he]
      exact ⟨_, _, rfl, ⟨q, ha, hn⟩, fun b hb => (by cases hb), fun hb => (by cases hb), fun _ => hci⟩

theorem arrives_cons {rest : Bytes} {op : Op} {ops : List Op} (h : Arrives rest (op :: ops)) :
    ∃ rest', Left op rest rest' ∧ Arrives rest' ops := by
  cases op with
  | arrive d => obtain ⟨r, h1, h2⟩ := h; exact ⟨r, h1, h2⟩
  | arriveEof => exact ⟨rest, ⟨h.1, rfl⟩, h.2⟩
  | request => exact ⟨rest, rfl, h⟩
  | seek => exact ⟨rest, rfl, h⟩
  | skip => exact ⟨rest, rfl, h⟩
  | prefetch => exact ⟨rest, rfl, h⟩

theorem run_right {H : Bytes → Bytes} {xs : List Bytes} (c : Canon hd (chunksOf H xs) enc) : ∀ (ops : List Op) (rest : Bytes) (r : Reader) (pos : Nat),
    RInv hd (chunksOf H xs) enc rest r pos → (∀ op ∈ ops, op.Genuine H xs) → Arrives rest ops → Right xs.flatten pos (run r ops) := by
  intro ops
  induction ops with
  | nil => intro _ _ _ _ _ _; trivial
  | cons op ops ih =>
    intro rest r pos hr hg ha
    obtain ⟨rest', h1, h2⟩ := arrives_cons ha
    rw [run]
    rcases step_inv c hr (hg op List.mem_cons_self) h1 with ⟨e, he⟩ | ⟨o, r', he, hi, hb, hf, hcp⟩
    · rw [he]; trivial
    · rw [he]
      exact ⟨hb, hf, ih rest' r' _ hi (fun op h => hg op (List.mem_cons_of_mem _ h)) h2⟩

theorem canon_of {H : Bytes → Bytes} {xs : List Bytes} (hv : hd.Valid) (hc : ChunksValid hd (chunksOf H xs)) (hlen : (encode hd (chunksOf H xs)).length < 2 ^ 63) :
    Canon hd (chunksOf H xs) (encode hd (chunksOf H xs)) := by
  have hids : ∀ x ∈ chunksOf H xs, x.1.length = 32 := fun x h => (hc.1 x h).1
  refine ⟨hv, hc, rfl, ?_⟩
  unfold encode at hlen
  rw [List.length_append, List.length_append, encHead_length, encItems_length hids, encTail_length] at hlen
  omega

theorem rinv_file (enc : Bytes) : RInv hd cs enc rest { index := newRead enc } 0 :=
  ⟨0, .newFile, .inl ⟨rfl, by rw [E_zero]; rfl⟩⟩

theorem rinv_inc (cs : List (Bytes × Nat)) (enc : Bytes) : RInv hd cs enc enc { index := newIncRead } 0 :=
  ⟨0, .newInc [] false rfl (by simp), .inl ⟨rfl, by rw [E_zero]; rfl⟩⟩

/-- **C39.** A blob consists of the pieces `xs`; its index is read from a file. The decoder asks for data, seeks and skips, in any order, with
prefetch passes in between; chunks are available or not, from moment to moment. As long as no step fails, every block of data handed to the decoder
is exactly the part of the blob at the position where the decoder wants to read (after a seek: the offset, after a skip: so many bytes
further), the end of the data is announced only at the end of the blob, and no assertion fails.

This holds also for indexes whose first chunk is smaller than the minimum size in the header, where `ca_index_seek` alone gives a wrong chunk
(`C09_short_first_chunk_violated`): the loop skips over whole chunks. -/
theorem C39_random_access (H : Bytes → Bytes) (xs : List Bytes) (hd : Header) (hv : hd.Valid) (hc : ChunksValid hd (chunksOf H xs))
    (hlen : (encode hd (chunksOf H xs)).length < 2 ^ 63) (ops : List Op) (hops : ∀ op ∈ ops, op.Genuine H xs) (ha : Arrives [] ops) :
    Right xs.flatten 0 (run { index := newRead (encode hd (chunksOf H xs)) } ops) :=
  run_right (canon_of hv hc hlen) ops [] _ 0 (rinv_file _) hops ha

/-- **C39**, for an index that arrives from a remote side in pieces of any size while the decoder is already reading. -/
theorem C39_random_access_remote (H : Bytes → Bytes) (xs : List Bytes) (hd : Header) (hv : hd.Valid) (hc : ChunksValid hd (chunksOf H xs))
    (hlen : (encode hd (chunksOf H xs)).length < 2 ^ 63) (ops : List Op) (hops : ∀ op ∈ ops, op.Genuine H xs)
    (ha : Arrives (encode hd (chunksOf H xs)) ops) : Right xs.flatten 0 (run { index := newIncRead } ops) :=
  run_right (canon_of hv hc hlen) ops _ _ 0 (rinv_inc _ _) hops ha

/-! ### Progress -/

/-- No operation of the history failed. -/
def NoError (l : List (Op × Res Out)) : Prop := ∀ x ∈ l, ∃ o, x.2 = .ok o

theorem run_append {H : Bytes → Bytes} {xs : List Bytes} (c : Canon hd (chunksOf H xs) enc) (op : Op) : ∀ (ops : List Op) (rest : Bytes) (r : Reader) (pos : Nat),
    RInv hd (chunksOf H xs) enc rest r pos → (∀ op ∈ ops, op.Genuine H xs) → Arrives rest ops → NoError (run r ops) →
    ∃ rest' r', RInv hd (chunksOf H xs) enc rest' r' (position pos (run r ops)) ∧ run r (ops ++ [op]) = run r ops ++ run r' [op] ∧
      (Complete r.index ∨ Op.arriveEof ∈ ops → Complete r'.index) := by
  intro ops
  induction ops with
  | nil => intro rest r pos hr _ _ _; exact ⟨rest, r, hr, rfl, fun h => h.elim id (fun h => (by cases h))⟩
  | cons op' ops ih =>
    intro rest r pos hr hg ha hne
    obtain ⟨rest', h1, h2⟩ := arrives_cons ha
    rw [List.cons_append, run, run]
    rcases step_inv c hr (hg op' List.mem_cons_self) h1 with ⟨e, he⟩ | ⟨o, r', he, hi, hb, hf, hcp⟩
    · rw [run, he] at hne
      obtain ⟨o, ho⟩ := hne _ List.mem_cons_self
      cases ho
    · rw [run, he] at hne
      rw [he]
      simp only
      obtain ⟨rest'', r'', g1, g2, g3⟩ := ih rest' r' _ hi (fun op h => hg op (List.mem_cons_of_mem _ h)) h2 (fun x hx => hne x (List.mem_cons_of_mem _ hx))
      refine ⟨rest'', r'', g1, by rw [g2]; rfl, ?_⟩
      intro h
      apply g3
      rcases h with h | h
      · exact .inl (hcp (.inl h))
      · rcases List.mem_cons.1 h with h | h
        · exact .inl (hcp (.inr h.symm))
        · exact .inr h

theorem request_progress {H : Bytes → Bytes} {xs : List Bytes} (c : Canon hd (chunksOf H xs) enc) {r : Reader} {pos : Nat}
    (hr : RInv hd (chunksOf H xs) enc rest r pos) (hc : Complete r.index) (hp : pos < xs.flatten.length) {answer : Bytes → Res Bytes}
    (ha : ∀ x ∈ xs, answer (H x) = .ok x) : ∃ b r', request r true answer = .ok (.data b, r') := by
  obtain ⟨q, hat, hn⟩ := hr
  have ht := total_chunksOf H xs
  unfold request
  rcases fill_inv c (r.index.file.length + 2) r pos q hat hn (by omega) with ⟨e, he, h⟩ | ⟨r', he, hi, hnc⟩ | ⟨r', he, hi, h, _⟩ | ⟨r', k, hk, he, ha', hnx, hpk, hs, _⟩
  · have := h hc; omega
  · exact absurd hc hnc
  · omega
  · rw [he]
    simp only
    rw [if_pos trivial]
    obtain ⟨hx, hget⟩ := chunksOf_get H xs hk
    have hans : answer (chunksOf H xs)[k].1 = .ok xs[k] := by rw [hget]; exact ha _ (List.getElem_mem hx)
    have hc2 : (chunksOf H xs)[k].2 = xs[k].length := by rw [hget]
    unfold deliver
    simp only
    rw [hans]
    simp only
    rw [if_neg (by rw [hc2]; simp)]
    by_cases hsk : r'.skip > 0
    · rw [if_pos hsk, if_neg (by omega)]; exact ⟨_, _, rfl⟩
    · rw [if_neg hsk]; exact ⟨_, _, rfl⟩

theorem seek_progress {H : Bytes → Bytes} {xs : List Bytes} (c : Canon hd (chunksOf H xs) enc) {r : Reader} {pos : Nat}
    (hr : RInv hd (chunksOf H xs) enc rest r pos) (hc : Complete r.index) {offset : Nat} (hp : offset < xs.flatten.length) :
    ∃ r', seekTo r offset = .ok (.done [], r') := by
  obtain ⟨q, hat, hn⟩ := hr
  have ht := total_chunksOf H xs
  unfold seekTo
  rcases seek_at c hat offset with ⟨e, he, h⟩ | ⟨skip, q', i', he, _⟩
  · have := h hc; omega
  · rw [he]; exact ⟨_, rfl⟩

/-- **C39**, progress. After any history without failure, in front of the end of the blob: if the seeds are ready and the sources
have the chunks, a request delivers data; and a seek to any offset within the blob succeeds. -/
theorem C39_progress (H : Bytes → Bytes) (xs : List Bytes) (hd : Header) (hv : hd.Valid) (hc : ChunksValid hd (chunksOf H xs))
    (hlen : (encode hd (chunksOf H xs)).length < 2 ^ 63) (ops : List Op) (hops : ∀ op ∈ ops, op.Genuine H xs) (ha : Arrives [] ops)
    (hok : NoError (run { index := newRead (encode hd (chunksOf H xs)) } ops)) :
    (∀ answer, (∀ x ∈ xs, answer (H x) = .ok x) → position 0 (run { index := newRead (encode hd (chunksOf H xs)) } ops) < xs.flatten.length →
      ∃ b, run { index := newRead (encode hd (chunksOf H xs)) } (ops ++ [.request true answer]) =
        run { index := newRead (encode hd (chunksOf H xs)) } ops ++ [(.request true answer, .ok (.data b))]) ∧
    (∀ offset, offset < xs.flatten.length → run { index := newRead (encode hd (chunksOf H xs)) } (ops ++ [.seek offset]) =
        run { index := newRead (encode hd (chunksOf H xs)) } ops ++ [(.seek offset, .ok (.done []))]) := by
  have c := canon_of hv hc hlen
  have hi : RInv hd (chunksOf H xs) (encode hd (chunksOf H xs)) [] { index := newRead (encode hd (chunksOf H xs)) } 0 :=
    rinv_file _
  constructor
  · intro answer hans hp
    obtain ⟨rest', r', g1, g2, g3⟩ := run_append c (.request true answer) ops [] _ 0 hi hops ha hok
    obtain ⟨b, r'', hb⟩ := request_progress c g1 (g3 (.inl (.inl rfl))) hp hans
    refine ⟨b, ?_⟩
    rw [g2, run, step, hb]
    rfl
  · intro offset hp
    obtain ⟨rest', r', g1, g2, g3⟩ := run_append c (.seek offset) ops [] _ 0 hi hops ha hok
    obtain ⟨r'', hb⟩ := seek_progress c g1 (g3 (.inl (.inl rfl))) hp
    rw [g2, run, step, hb]
    rfl

/-- **C39**, progress for an index that came from a remote side, once all of it is there. -/
theorem C39_progress_remote (H : Bytes → Bytes) (xs : List Bytes) (hd : Header) (hv : hd.Valid) (hc : ChunksValid hd (chunksOf H xs))
    (hlen : (encode hd (chunksOf H xs)).length < 2 ^ 63) (ops : List Op) (hops : ∀ op ∈ ops, op.Genuine H xs)
    (ha : Arrives (encode hd (chunksOf H xs)) ops) (hok : NoError (run { index := newIncRead } ops)) (heof : Op.arriveEof ∈ ops) :
    (∀ answer, (∀ x ∈ xs, answer (H x) = .ok x) → position 0 (run { index := newIncRead } ops) < xs.flatten.length →
      ∃ b, run { index := newIncRead } (ops ++ [.request true answer]) = run { index := newIncRead } ops ++ [(.request true answer, .ok (.data b))]) ∧
    (∀ offset, offset < xs.flatten.length →
      run { index := newIncRead } (ops ++ [.seek offset]) = run { index := newIncRead } ops ++ [(.seek offset, .ok (.done []))]) := by
  have c := canon_of hv hc hlen
  have hi : RInv hd (chunksOf H xs) (encode hd (chunksOf H xs)) (encode hd (chunksOf H xs)) { index := newIncRead } 0 :=
    rinv_inc _ _
  constructor
  · intro answer hans hp
    obtain ⟨rest', r', g1, g2, g3⟩ := run_append c (.request true answer) ops _ _ 0 hi hops ha hok
    obtain ⟨b, r'', hb⟩ := request_progress c g1 (g3 (.inr heof)) hp hans
    refine ⟨b, ?_⟩
    rw [g2, run, step, hb]
    rfl
  · intro offset hp
    obtain ⟨rest', r', g1, g2, g3⟩ := run_append c (.seek offset) ops _ _ 0 hi hops ha hok
    obtain ⟨r'', hb⟩ := seek_progress c g1 (g3 (.inr heof)) hp
    rw [g2, run, step, hb]
    rfl

end Casync.Sync
