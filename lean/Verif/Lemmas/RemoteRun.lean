import Verif.Lemmas.Remote
/-!
The receive buffer of the remote protocol: how the stream is cut into frames.
-/
namespace Casync.Remote
open Casync ChunkFile Spec

/-- The same object with another receive buffer. -/
def withIn (r : R) (i : Bytes) (n : Nat) : R := { r with input := i, frameSize := n }

theorem withIn_self (r : R) : withIn r r.input r.frameSize = r := rfl

theorem withIn_file (r : R) (i n a) : (withIn r i n).file a = r.file a := by cases a <;> rfl

theorem withIn_setFile (r : R) (i n a f) : (withIn r i n).setFile a f = withIn (r.setFile a f) i n := by cases a <;> rfl

theorem processHello_in (r : R) (i n fl) : processHello (withIn r i n) fl = ((processHello r fl).1, withIn (processHello r fl).2 i n) := by
  unfold processHello
  have hl : (withIn r i n).localFlags = r.localFlags := rfl
  rw [hl]
  by_cases h1 : fl > FLAGS_MAX
  · simp only [if_pos h1]
  simp only [if_neg h1]
  by_cases h2 : (has fl PUSH_INDEX_CHUNKS && !(has fl PUSH_INDEX && has fl PUSH_CHUNKS)) = true
  · simp only [if_pos h2]
  simp only [if_neg h2]
  by_cases h3 : (!compatible fl r.localFlags) = true
  · simp only [if_pos h3]
  simp only [if_neg h3]
  by_cases h4 : (!compatible r.localFlags fl) = true
  · simp only [if_pos h4]
  simp only [if_neg h4]
  by_cases h5 : (fl ||| r.localFlags) &&& OPERATIONS = 0
  · simp only [if_pos h5]
  simp only [if_neg h5]
  rfl

theorem processFile_in {W} (e : World W) (w : W) (r : R) (i n a d) :
    processFile e w (withIn r i n) a d = ((processFile e w r a d).1, withIn (processFile e w r a d).2.1 i n, (processFile e w r a d).2.2) := by
  unfold processFile
  simp only [withIn_file, withIn_setFile]
  split
  · rfl
  · split
    · cases e.write w a d with
      | mk x w' => cases x <;> rfl
    · rfl

theorem processFileEof_in (r : R) (i n a) : processFileEof (withIn r i n) a = ((processFileEof r a).1, withIn (processFileEof r a).2 i n) := by
  unfold processFileEof
  simp only [withIn_file, withIn_setFile]
  split <;> rfl

theorem processRequest_in (high : Bool) (i n) : ∀ (ids : List Bytes) (r : R),
    processRequest (withIn r i n) high ids = ((processRequest r high ids).1, withIn (processRequest r high ids).2 i n)
  | [], r => rfl
  | id :: ids, r => by
    unfold processRequest
    have hq : (withIn r i n).queue = r.queue := rfl
    rw [hq]
    cases enqueue r.queue id high false with
    | mk x q => cases x with
      | ok b => exact processRequest_in high i n ids { r with queue := q }
      | err e => rfl
      | ub => rfl

theorem processChunk_in {W} (e : World W) (w : W) (r : R) (i n id c d) :
    processChunk e w (withIn r i n) id c d =
      ((processChunk e w r id c d).1, withIn (processChunk e w r id c d).2.1 i n, (processChunk e w r id c d).2.2) := by
  unfold processChunk
  have hq : (withIn r i n).queue = r.queue := rfl
  rw [hq]
  split
  · rfl
  · simp only
    generalize e.save w id _ d = z
    obtain ⟨x, w'⟩ := z
    cases x with
    | ok u => rfl
    | err e => cases e <;> rfl
    | ub => rfl

theorem processMissing_in {W} (e : World W) (w : W) (r : R) (i n id) :
    processMissing e w (withIn r i n) id =
      ((processMissing e w r id).1, withIn (processMissing e w r id).2.1 i n, (processMissing e w r id).2.2) := by
  unfold processMissing
  have hq : (withIn r i n).queue = r.queue := rfl
  rw [hq]
  split
  · rfl
  · generalize e.missing w id = z
    obtain ⟨x, w'⟩ := z
    cases x with
    | ok u => rfl
    | err e => cases e <;> rfl
    | ub => rfl

theorem fileInstall_in {W} (e : World W) (w : W) (r : R) (i n a) :
    fileInstall e w (withIn r i n) a = ((fileInstall e w r a).1, withIn (fileInstall e w r a).2.1 i n, (fileInstall e w r a).2.2) := by
  unfold fileInstall
  simp only [withIn_file, withIn_setFile]
  split
  · rfl
  · cases e.rename w a with
    | mk x w' => cases x <;> rfl

theorem processGoodbye_in {W} (e : World W) (w : W) (r : R) (i n) :
    processGoodbye e w (withIn r i n) = ((processGoodbye e w r).1, withIn (processGoodbye e w r).2.1 i n, (processGoodbye e w r).2.2) := by
  unfold processGoodbye
  rw [fileInstall_in]
  cases fileInstall e w r false with
  | mk x z => obtain ⟨r1, w1⟩ := z; cases x with
    | ok u =>
      simp only
      rw [fileInstall_in]
      cases fileInstall e w1 r1 true with
      | mk x z => obtain ⟨r2, w2⟩ := z; cases x <;> rfl
    | err _ => rfl
    | ub => rfl

theorem process_in {W} (e : World W) (w : W) (r : R) (i n) (m : Msg) :
    process e w (withIn r i n) m = ((process e w r m).1, withIn (process e w r m).2.1 i n, (process e w r m).2.2) := by
  cases m with
  | hello fl => simp only [process, processHello_in]
  | file a d => exact processFile_in ..
  | fileEof a => simp only [process, processFileEof_in]
  | request h ids => simp only [process, processRequest_in]
  | chunk id c d => exact processChunk_in ..
  | missing id => exact processMissing_in ..
  | goodbye => exact processGoodbye_in ..
  | abort x s => rfl

theorem allowed_in (r : R) (i n t) : allowed (withIn r i n) t = allowed r t := rfl

theorem dispatch_in {W} (e : World W) (w : W) (r : R) (i n f) :
    dispatch e w (withIn r i n) f = ((dispatch e w r f).1, withIn (dispatch e w r f).2.1 i n, (dispatch e w r f).2.2) := by
  unfold dispatch
  cases rd f 8 with
  | err _ => rfl
  | ub => rfl
  | ok t =>
    simp only [allowed_in]
    cases allowed r t with
    | none => rfl
    | some b =>
      cases b with
      | false => rfl
      | true =>
        simp only
        cases validate t f with
        | err _ => rfl
        | ub => rfl
        | ok o =>
          cases o with
          | none => rfl
          | some m => exact process_in ..

theorem dispatch_input {W} (e : World W) (w : W) (r : R) (f) :
    (dispatch e w r f).2.1.input = r.input ∧ (dispatch e w r f).2.1.frameSize = r.frameSize := by
  have h := dispatch_in e w r r.input r.frameSize f
  rw [withIn_self] at h
  have h1 : (dispatch e w r f).2.1 = withIn (dispatch e w r f).2.1 r.input r.frameSize :=
    congrArg (fun x => x.2.1) h
  exact ⟨by rw [h1]; rfl, by rw [h1]; rfl⟩

theorem process_ne_poll {W} (e : World W) (w : W) (r : R) (m : Msg) : (process e w r m).1 ≠ .ok .poll := by
  cases m with
  | hello fl =>
    simp only [process, processHello]
    split; · exact fun h => nomatch h
    split; · exact fun h => nomatch h
    split; · exact fun h => nomatch h
    split; · exact fun h => nomatch h
    split; · exact fun h => nomatch h
    exact fun h => nomatch h
  | file a d =>
    simp only [process, processFile]
    split
    · intro h; cases h
    · split
      · cases e.write w a d with
        | mk x w' => cases x <;> cases a <;> (intro h; cases h)
      · cases a <;> (intro h; cases h)
  | fileEof a =>
    simp only [process, processFileEof]
    split
    · intro h; cases h
    · cases a <;> (intro h; cases h)
  | request h ids =>
    simp only [process]
    induction ids generalizing r with
    | nil => intro h; cases h
    | cons id ids ih =>
      unfold processRequest
      cases enqueue r.queue id h false with
      | mk x q => cases x with
        | ok b => exact ih _
        | err e => intro h; cases h
        | ub => intro h; cases h
  | chunk id c d =>
    simp only [process, processChunk]
    split
    · intro h; cases h
    · generalize e.save w id _ d = z
      obtain ⟨x, w'⟩ := z
      cases x with
      | ok u => intro h; cases h
      | err e => cases e <;> (intro h; cases h)
      | ub => intro h; cases h
  | missing id =>
    simp only [process, processMissing]
    split
    · intro h; cases h
    · generalize e.missing w id = z
      obtain ⟨x, w'⟩ := z
      cases x with
      | ok u => intro h; cases h
      | err e => cases e <;> (intro h; cases h)
      | ub => intro h; cases h
  | goodbye =>
    simp only [process, processGoodbye]
    cases fileInstall e w r false with
    | mk x z => obtain ⟨r1, w1⟩ := z; cases x with
      | ok u =>
        simp only
        cases fileInstall e w1 r1 true with
        | mk x z => obtain ⟨r2, w2⟩ := z; cases x <;> (intro h; cases h)
      | err _ => intro h; cases h
      | ub => intro h; cases h
  | abort x s =>
    simp only [process, processAbort]
    split <;> (intro h; cases h)

theorem dispatch_ne_poll {W} (e : World W) (w : W) (r : R) (f) : (dispatch e w r f).1 ≠ .ok .poll := by
  unfold dispatch
  cases rd f 8 with
  | err _ => intro h; cases h
  | ub => intro h; cases h
  | ok t =>
    simp only
    cases allowed r t with
    | none => intro h; cases h
    | some b =>
      cases b with
      | false => intro h; cases h
      | true =>
        simp only
        cases validate t f with
        | err _ => intro h; cases h
        | ub => intro h; cases h
        | ok o =>
          cases o with
          | none => intro h; cases h
          | some m => exact process_ne_poll e w r m

theorem rd_zero {s : Bytes} (h : 8 ≤ s.length) : rd s 0 = .ok (rdLE (s.take 8)) := by
  unfold rd; rw [if_pos (by omega), List.drop_zero]

/-- A complete frame at the front. -/
theorem front_frame {s : Bytes} (h16 : 16 ≤ s.length) (h1 : ¬ rdLE (s.take 8) < SIZE_MIN) (h2 : ¬ rdLE (s.take 8) > SIZE_MAX)
    (h3 : ¬ s.length < rdLE (s.take 8)) : IsFrame (s.take (rdLE (s.take 8))) := by
  have hl : (s.take 8).length = 8 := by simp; omega
  have e := le64_rdLE hl
  generalize rdLE (s.take 8) = n at *
  have h1' : ¬ n < 16 := h1
  have h2' : ¬ n > 16777216 := h2
  have hn : (s.take n).length = n := by simp; omega
  refine ⟨by omega, by omega, ?_⟩
  rw [hn, List.take_take, Nat.min_eq_left (by omega), e]

theorem frame_front {f s : Bytes} (hf : IsFrame f) (h : f <+: s) : 16 ≤ s.length ∧ rdLE (s.take 8) = f.length ∧ s.take f.length = f ∧
    ¬ s.length < f.length := by
  obtain ⟨t, rfl⟩ := h
  obtain ⟨h1, h2, h3⟩ := hf
  refine ⟨by simp; omega, ?_, List.take_left' rfl, by simp⟩
  rw [List.take_append_of_le_length (by omega), h3, rdLE_le64 (by omega)]

/-- `ca_remote_process_message` when a frame is complete. -/
theorem processMessage_frame {W} (e : World W) (w : W) (r : R) (f rest : Bytes) (hf : IsFrame f) (hi : r.input = f ++ rest)
    (hs : r.state ≠ .eof) :
    processMessage e w r = match dispatch e w r f with
      | (.ok s, r', w') => (.ok s, withIn r' rest 0, w')
      | x => x := by
  obtain ⟨h1, h2, h3, h4⟩ := frame_front (s := r.input) hf ⟨rest, hi.symm⟩
  obtain ⟨g1, g2, _⟩ := hf
  unfold processMessage
  rw [if_neg hs, if_neg (by omega), rd_zero (by omega), h2]
  simp only
  rw [if_neg (by show ¬ f.length < 16; omega), if_neg (by show ¬ f.length > 16777216; omega), if_neg h4, h3]
  have hin := (dispatch_input e w r f).1
  generalize dispatch e w r f = z at hin ⊢
  obtain ⟨x, r', w'⟩ := z
  cases x with
  | ok s =>
    simp only
    have : r'.input.drop f.length = rest := by
      rw [show r'.input = r.input from hin, hi]; exact List.drop_left' rfl
    rw [this]; rfl
  | err _ => rfl
  | peer _ => rfl
  | ub => rfl

/-- `ca_remote_process_message` when no frame is complete. -/
theorem processMessage_none {W} (e : World W) (w : W) (r : R) (hi : Incomplete r.input) :
    (processMessage e w r).2.2 = w ∧ (∃ n, (processMessage e w r).2.1 = { r with frameSize := n } ∧
      (n ≠ r.frameSize → r.input.length < n ∧ n ≤ 16777216)) ∧
    ((processMessage e w r).1 = .ok .poll ∨ (processMessage e w r).1 = .err .EBADMSG) ∧
    ((processMessage e w r).1 = .err .EBADMSG ↔ r.state ≠ .eof ∧ 16 ≤ r.input.length ∧
      (rdLE (r.input.take 8) < 16 ∨ rdLE (r.input.take 8) > 16777216)) ∧
    (r.state ≠ .eof → (processMessage e w r).1 = .ok .poll → r.input.length < 16 ∨ r.input.length < (processMessage e w r).2.1.frameSize) := by
  unfold processMessage
  by_cases h0 : r.state = .eof
  · rw [if_pos h0]; exact ⟨rfl, ⟨r.frameSize, rfl, fun h => absurd rfl h⟩, .inl rfl, ⟨(by intro h; cases h), fun h => absurd h0 h.1⟩, fun h => absurd h0 h⟩
  rw [if_neg h0]
  by_cases h1 : r.input.length < 16
  · rw [if_pos h1]; exact ⟨rfl, ⟨r.frameSize, rfl, fun h => absurd rfl h⟩, .inl rfl, ⟨(by intro h; cases h), fun h => by omega⟩, fun _ _ => .inl h1⟩
  rw [if_neg h1, rd_zero (by omega)]
  simp only
  by_cases h2 : rdLE (r.input.take 8) < SIZE_MIN
  · rw [if_pos h2]; exact ⟨rfl, ⟨r.frameSize, rfl, fun h => absurd rfl h⟩, .inr rfl, ⟨fun _ => ⟨h0, by omega, .inl h2⟩, fun _ => rfl⟩, fun _ h => (by cases h)⟩
  rw [if_neg h2]
  by_cases h3 : rdLE (r.input.take 8) > SIZE_MAX
  · rw [if_pos h3]; exact ⟨rfl, ⟨r.frameSize, rfl, fun h => absurd rfl h⟩, .inr rfl, ⟨fun _ => ⟨h0, by omega, .inr h3⟩, fun _ => rfl⟩, fun _ h => (by cases h)⟩
  rw [if_neg h3]
  by_cases h4 : r.input.length < rdLE (r.input.take 8)
  · rw [if_pos h4]
    refine ⟨rfl, ⟨_, rfl, fun _ => ⟨h4, ?_⟩⟩, .inl rfl, ⟨(by intro h; cases h), fun h => ?_⟩, fun _ _ => .inr h4⟩
    · exact Nat.le_of_not_gt h3
    · rcases h.2.2 with h | h
      · exact absurd h h2
      · exact absurd h h3
  · exact absurd (front_frame (by omega) h2 h3 h4) (hi _ (List.take_prefix _ _))

/-- Either a frame is complete, or none is. -/
theorem frame_or_not (s : Bytes) : (∃ f rest, IsFrame f ∧ s = f ++ rest) ∨ Incomplete s := by
  by_cases h : ∃ f, f <+: s ∧ IsFrame f
  · obtain ⟨f, ⟨rest, h⟩, hf⟩ := h
    exact .inl ⟨f, rest, hf, h.symm⟩
  · exact .inr fun f hf hi => h ⟨f, hf, hi⟩

/-- Two frames at the front of the same bytes are equal. -/
theorem frame_unique {f f' a b : Bytes} (hf : IsFrame f) (hf' : IsFrame f') (h : f ++ a = f' ++ b) : f = f' := by
  have h1 := frame_front hf ⟨a, rfl⟩
  have h2 := frame_front hf' ⟨b, rfl⟩
  rw [h] at h1
  have : f.length = f'.length := by rw [← h1.2.1, h2.2.1]
  exact h1.2.2.1.symm.trans ((congrArg (fun k => (f' ++ b).take k) this).trans h2.2.2.1)

theorem split_unique : ∀ {fs fs' : List Bytes} {s rest rest' : Bytes}, Split s fs rest → Split s fs' rest' →
    (∃ t, fs' = fs ++ t ∧ rest = t.flatten ++ rest') ∨ (∃ t, fs = fs' ++ t ∧ rest' = t.flatten ++ rest)
  | [], fs', s, rest, rest', h, h' => .inl ⟨fs', rfl, by have := h.1; simp only [List.flatten_nil, List.nil_append] at this; rw [← this]; exact h'.1⟩
  | f :: fs, [], s, rest, rest', h, h' => .inr ⟨f :: fs, rfl, by have := h'.1; simp only [List.flatten_nil, List.nil_append] at this; rw [← this]; exact h.1⟩
  | f :: fs, f' :: fs', s, rest, rest', h, h' => by
    have e : f ++ (fs.flatten ++ rest) = f' ++ (fs'.flatten ++ rest') := by
      rw [← List.append_assoc, ← List.append_assoc]; exact h.1.symm.trans h'.1
    have := frame_unique (h.2 f List.mem_cons_self) (h'.2 f' List.mem_cons_self) e
    subst this
    have e' := List.append_cancel_left e
    rcases split_unique (s := fs.flatten ++ rest) ⟨rfl, fun g hg => h.2 g (List.mem_cons_of_mem _ hg)⟩
        ⟨e', fun g hg => h'.2 g (List.mem_cons_of_mem _ hg)⟩ with ⟨t, h1, h2⟩ | ⟨t, h1, h2⟩
    · exact .inl ⟨t, by rw [h1]; rfl, h2⟩
    · exact .inr ⟨t, by rw [h1]; rfl, h2⟩

end Casync.Remote
