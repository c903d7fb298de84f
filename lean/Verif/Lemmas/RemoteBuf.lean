import Verif.Lemmas.RemoteFile
/-!
Which calls put data into the buffers of the index and the archive.
-/
namespace Casync.Remote.Buf
open Casync Casync.Remote ChunkFile Spec

/-- The buffers are left alone. -/
def SameBuf (r r' : R) : Prop := ∀ a, (r'.file a).buffer = (r.file a).buffer

theorem sb_refl (r : R) : SameBuf r r := fun _ => rfl
theorem SameBuf.trans {a b c : R} (h : SameBuf a b) (h' : SameBuf b c) : SameBuf a c := fun x => (h' x).trans (h x)
theorem sb_of {r r' : R} (h4 : r'.index = r.index) (h5 : r'.archive = r.archive) : SameBuf r r' := by
  intro a; cases a
  · show r'.index.buffer = r.index.buffer; rw [h4]
  · show r'.archive.buffer = r.archive.buffer; rw [h5]
theorem sb_setFile (r : R) (a : Bool) (f : File) (h : f.buffer = (r.file a).buffer) : SameBuf r (r.setFile a f) := by
  intro b; cases a <;> cases b <;> first | exact h | rfl

theorem fileOpen_sb (r : R) (a b x) : SameBuf r (fileOpen r a b x).2 := by
  unfold fileOpen
  simp only
  split; · exact sb_refl r
  split; · exact sb_refl r
  split; · exact sb_refl r
  cases b <;> cases x <;> exact sb_setFile r a _ rfl

theorem openIfWanted_sb (r : R) (a x) : SameBuf r (openIfWanted r a x).2 := by
  unfold openIfWanted
  split; · exact fileOpen_sb r _ _ _
  split; · exact fileOpen_sb r _ _ _
  exact sb_refl r

theorem start_sb (r : R) (a b) : SameBuf r (start r a b).2 := by
  unfold start
  split; · exact sb_refl r
  split; · exact sb_refl r
  split; · exact sb_refl r
  have h1 := openIfWanted_sb r false a
  generalize openIfWanted r false a = z at h1
  obtain ⟨x, r1⟩ := z
  cases x with
  | ok _ =>
    simp only
    have h2 := openIfWanted_sb r1 true b
    generalize openIfWanted r1 true b = z at h2
    obtain ⟨x, r2⟩ := z
    cases x <;> exact h1.trans h2
  | err _ => exact h1
  | ub => exact h1

theorem write_sb (r : R) (n) : SameBuf r (write r n).2 := by
  unfold write
  split; · exact sb_refl r
  split; · exact sb_refl r
  split; · exact sb_refl r
  simp only
  split <;> exact sb_of rfl rfl

theorem sendHello_sb (r : R) : SameBuf r (sendHello r).2 := by
  unfold sendHello
  split <;> exact sb_of rfl rfl

theorem sendFile_sb (r : R) (a g) : SameBuf r (sendFile r a g).2 := by
  unfold sendFile
  split; · exact sb_refl r
  split; · exact sb_refl r
  split; · exact sb_refl r
  split; · exact sb_refl r
  split; · exact sb_refl r
  cases g with
  | err x => exact sb_refl r
  | ub => exact sb_refl r
  | ok d =>
    simp only
    split; · exact sb_refl r
    split
    · exact SameBuf.trans (b := { r with output := _ }) (sb_of rfl rfl) (sb_setFile _ a _ (by cases a <;> rfl))
    · exact sb_of rfl rfl

theorem sendRequest_sb (r : R) : SameBuf r (sendRequest r).2 := by
  unfold sendRequest
  split; · exact sb_refl r
  split; · exact sb_refl r
  split; · exact sb_refl r
  simp only
  split <;> exact sb_of rfl rfl

theorem read_sb (r : R) (d) : SameBuf r (read r d).2 := by
  unfold read
  split; · exact sb_refl r
  cases d with
  | none => exact sb_refl r
  | some d =>
    simp only
    split; · exact sb_refl r
    split; · exact sb_refl r
    exact sb_of rfl rfl

theorem fileInstall_sb {W} (e : World W) (w : W) (r : R) (a) : SameBuf r (fileInstall e w r a).2.1 := by
  unfold fileInstall
  simp only
  split; · exact sb_refl r
  cases e.rename w a with
  | mk x w' => cases x <;> first | exact sb_setFile r a _ rfl | exact sb_refl r

theorem processRequest_sb (high : Bool) : ∀ (ids : List Bytes) (r : R), SameBuf r (processRequest r high ids).2
  | [], r => sb_refl r
  | id :: ids, r => by
    unfold processRequest
    cases enqueue r.queue id high false with
    | mk x q => cases x with
      | ok b => exact SameBuf.trans (b := { r with queue := q }) (sb_of rfl rfl) (processRequest_sb high ids { r with queue := q })
      | err _ => exact sb_of rfl rfl
      | ub => exact sb_of rfl rfl

/-- Data that arrives is put at the end, and the caller is told. -/
theorem process_sb {W} (e : World W) (w : W) (r : R) (m : Msg) : SameBuf r (process e w r m).2.1 ∨
    ∃ a d, m = .file a d ∧ (process e w r m).1 = .ok (if a then .readArchive else .readIndex) ∧
      ∀ b, ((process e w r m).2.1.file b).buffer = (r.file b).buffer ++ (if b = a then d else []) := by
  cases m with
  | hello fl =>
    left
    simp only [process, processHello]
    split; · exact sb_refl r
    split; · exact sb_refl r
    split; · exact sb_refl r
    split; · exact sb_refl r
    split; · exact sb_refl r
    exact sb_of rfl rfl
  | file a d =>
    simp only [process, processFile]
    by_cases h1 : (r.file a).complete = true
    · rw [if_pos h1]; exact .inl (sb_refl r)
    rw [if_neg h1]
    by_cases h2 : (r.file a).fd = true
    · rw [if_pos h2]
      left
      cases e.write w a d with
      | mk x w' => cases x <;> exact sb_refl r
    · rw [if_neg h2]
      right
      refine ⟨a, d, rfl, rfl, ?_⟩
      intro b; cases a <;> cases b <;> simp [R.setFile, R.file]
  | fileEof a =>
    left
    simp only [process, processFileEof]
    split; · exact sb_refl r
    exact sb_setFile r a _ rfl
  | request h ids => exact .inl (processRequest_sb h ids r)
  | chunk id c d =>
    left
    simp only [process, processChunk]
    split; · exact sb_refl r
    generalize e.save w id _ d = z
    obtain ⟨x, w'⟩ := z
    cases x with
    | ok u => exact sb_of rfl rfl
    | err e => cases e <;> exact sb_of rfl rfl
    | ub => exact sb_of rfl rfl
  | missing id =>
    left
    simp only [process, processMissing]
    split; · exact sb_refl r
    generalize e.missing w id = z
    obtain ⟨x, w'⟩ := z
    cases x with
    | ok u => exact sb_of rfl rfl
    | err e => cases e <;> exact sb_of rfl rfl
    | ub => exact sb_of rfl rfl
  | goodbye =>
    left
    simp only [process, processGoodbye]
    have h1 := fileInstall_sb e w r false
    generalize fileInstall e w r false = z at h1
    obtain ⟨x, r1, w1⟩ := z
    cases x with
    | ok _ =>
      simp only
      have h2 := fileInstall_sb e w1 r1 true
      generalize fileInstall e w1 r1 true = z at h2
      obtain ⟨x, r2, w2⟩ := z
      cases x with
      | ok _ => exact (h1.trans h2)
      | err _ => exact h1.trans h2
      | ub => exact h1.trans h2
    | err _ => exact h1
    | ub => exact h1
  | abort x s => exact .inl (sb_refl r)

theorem dispatch_sb {W} (e : World W) (w : W) (r : R) (f) (hf : IsFrame f) : SameBuf r (dispatch e w r f).2.1 ∨
    ∃ a d, f = encode (.file a d) ∧ (dispatch e w r f).1 = .ok (if a then .readArchive else .readIndex) ∧
      ∀ b, ((dispatch e w r f).2.1.file b).buffer = (r.file b).buffer ++ (if b = a then d else []) := by
  cases hd : dispatch e w r f with
  | mk x y =>
  obtain ⟨r', w'⟩ := y
  cases x with
  | ok s =>
    obtain ⟨m, h1, _, _, h2⟩ := dispatch_ok hf hd
    have h3 := process_sb e w r m
    rw [h2] at h3
    rcases h3 with h3 | ⟨a, d, rfl, h4, h5⟩
    · exact .inl h3
    · exact .inr ⟨a, d, h1, h4, h5⟩
  | _ =>
    left
    have h9 : r' = (dispatch e w r f).2.1 := by rw [hd]
    show SameBuf r r'
    rw [h9]
    unfold dispatch at hd ⊢
    cases ht : rd f 8 with
    | err _ => exact sb_refl r
    | ub => exact sb_refl r
    | ok t =>
      rw [ht] at hd
      simp only at hd ⊢
      cases ha : allowed r t with
      | none => exact sb_refl r
      | some b =>
        rw [ha] at hd
        cases b with
        | false => exact sb_refl r
        | true =>
          simp only at hd ⊢
          cases hv : validate t f with
          | err _ => exact sb_refl r
          | ub => exact sb_refl r
          | ok o =>
            rw [hv] at hd
            cases o with
            | none => exact sb_refl r
            | some m =>
              simp only at hd ⊢
              rcases process_sb e w r m with h | ⟨a, d, _, h, _⟩
              · exact h
              · rw [hd] at h; cases h

theorem message_sb {W} (e : World W) (w : W) (r : R) : SameBuf r (processMessage e w r).2.1 ∨
    ∃ a d rest, r.input = encode (.file a d) ++ rest ∧ (processMessage e w r).1 = .ok (if a then .readArchive else .readIndex) ∧
      ∀ b, ((processMessage e w r).2.1.file b).buffer = (r.file b).buffer ++ (if b = a then d else []) := by
  by_cases hs : r.state = .eof
  · left; unfold processMessage; rw [if_pos hs]; exact sb_refl r
  rcases frame_or_not r.input with ⟨f, rest, hf, hi⟩ | hn
  · rw [processMessage_frame e w r f rest hf hi hs]
    have h := dispatch_sb e w r f hf
    generalize dispatch e w r f = z at h
    obtain ⟨x, r', w'⟩ := z
    cases x with
    | ok s =>
      rcases h with h | ⟨a, d, h1, h2, h3⟩
      · exact .inl h
      · exact .inr ⟨a, d, rest, h1 ▸ hi, h2, h3⟩
    | _ =>
      rcases h with h | ⟨a, d, h1, h2, h3⟩
      · exact .inl h
      · cases h2
  · obtain ⟨_, ⟨n, h2, _⟩, _⟩ := processMessage_none e w r hn
    rw [h2]; exact .inl (sb_of rfl rfl)

end Casync.Remote.Buf
