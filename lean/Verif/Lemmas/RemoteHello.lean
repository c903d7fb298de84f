import Verif.Lemmas.RemoteSend
/-!
Which calls set the mark that the greeting was sent.
-/
namespace Casync.Remote.Hello
open Casync Casync.Remote ChunkFile Spec

/-- The mark and the flags are left alone. -/
def SameOut (r r' : R) : Prop := r'.sentHello = r.sentHello ∧ r'.localFlags = r.localFlags

theorem sameOut_refl (r : R) : SameOut r r := ⟨rfl, rfl⟩
theorem SameOut.trans {a b c : R} (h : SameOut a b) (h' : SameOut b c) : SameOut a c := ⟨h'.1.trans h.1, h'.2.trans h.2⟩
theorem sameOut_setFile (r : R) (a f) : SameOut r (r.setFile a f) := by cases a <;> exact ⟨rfl, rfl⟩

theorem fileOpen_out (r : R) (a b x) : SameOut r (fileOpen r a b x).2 := by
  unfold fileOpen
  simp only
  split; · exact sameOut_refl r
  split; · exact sameOut_refl r
  split; · exact sameOut_refl r
  cases x <;> exact sameOut_setFile ..

theorem openIfWanted_out (r : R) (a x) : SameOut r (openIfWanted r a x).2 := by
  unfold openIfWanted
  split; · exact fileOpen_out ..
  split; · exact fileOpen_out ..
  exact sameOut_refl r

theorem start_out (r : R) (a b) : SameOut r (start r a b).2 := by
  unfold start
  split; · exact sameOut_refl r
  split; · exact sameOut_refl r
  split; · exact sameOut_refl r
  have h1 := openIfWanted_out r false a
  generalize openIfWanted r false a = z at h1
  obtain ⟨x, r1⟩ := z
  cases x with
  | ok _ =>
    simp only
    have h2 := openIfWanted_out r1 true b
    generalize openIfWanted r1 true b = z at h2
    obtain ⟨x, r2⟩ := z
    cases x <;> exact h1.trans h2
  | err _ => exact h1
  | ub => exact h1

theorem fileInstall_out {W} (e : World W) (w : W) (r : R) (a) : SameOut r (fileInstall e w r a).2.1 := by
  unfold fileInstall
  simp only
  split; · exact sameOut_refl r
  cases e.rename w a with
  | mk x w' => cases x <;> first | exact sameOut_setFile .. | exact sameOut_refl r

theorem processRequest_out (high : Bool) : ∀ (ids : List Bytes) (r : R), SameOut r (processRequest r high ids).2
  | [], r => sameOut_refl r
  | id :: ids, r => by
    unfold processRequest
    cases enqueue r.queue id high false with
    | mk x q => cases x with
      | ok b => exact SameOut.trans (b := { r with queue := q }) ⟨rfl, rfl⟩ (processRequest_out high ids { r with queue := q })
      | err _ => exact ⟨rfl, rfl⟩
      | ub => exact ⟨rfl, rfl⟩

theorem process_out {W} (e : World W) (w : W) (r : R) (m : Msg) : SameOut r (process e w r m).2.1 := by
  cases m with
  | hello fl =>
    simp only [process, processHello]
    split; · exact sameOut_refl r
    split; · exact sameOut_refl r
    split; · exact sameOut_refl r
    split; · exact sameOut_refl r
    split; · exact sameOut_refl r
    exact ⟨rfl, rfl⟩
  | file a d =>
    simp only [process, processFile]
    split; · exact sameOut_refl r
    split
    · cases e.write w a d with
      | mk x w' => cases x <;> exact sameOut_refl r
    · exact sameOut_setFile ..
  | fileEof a =>
    simp only [process, processFileEof]
    split; · exact sameOut_refl r
    exact sameOut_setFile ..
  | request h ids => exact processRequest_out h ids r
  | chunk id c d =>
    simp only [process, processChunk]
    split; · exact sameOut_refl r
    generalize e.save w id _ d = z
    obtain ⟨x, w'⟩ := z
    cases x with
    | ok u => exact ⟨rfl, rfl⟩
    | err e => cases e <;> exact ⟨rfl, rfl⟩
    | ub => exact ⟨rfl, rfl⟩
  | missing id =>
    simp only [process, processMissing]
    split; · exact sameOut_refl r
    generalize e.missing w id = z
    obtain ⟨x, w'⟩ := z
    cases x with
    | ok u => exact ⟨rfl, rfl⟩
    | err e => cases e <;> exact ⟨rfl, rfl⟩
    | ub => exact ⟨rfl, rfl⟩
  | goodbye =>
    simp only [process, processGoodbye]
    have h1 := fileInstall_out e w r false
    generalize fileInstall e w r false = z at h1
    obtain ⟨x, r1, w1⟩ := z
    cases x with
    | ok _ =>
      simp only
      have h2 := fileInstall_out e w1 r1 true
      generalize fileInstall e w1 r1 true = z at h2
      obtain ⟨x, r2, w2⟩ := z
      cases x with
      | ok _ => exact (h1.trans h2)
      | err _ => exact h1.trans h2
      | ub => exact h1.trans h2
    | err _ => exact h1
    | ub => exact h1
  | abort x s => exact sameOut_refl r

theorem dispatch_out {W} (e : World W) (w : W) (r : R) (f) : SameOut r (dispatch e w r f).2.1 := by
  unfold dispatch
  cases rd f 8 with
  | err _ => exact sameOut_refl r
  | ub => exact sameOut_refl r
  | ok t =>
    simp only
    cases allowed r t with
    | none => exact sameOut_refl r
    | some b =>
      cases b with
      | false => exact sameOut_refl r
      | true =>
        simp only
        cases validate t f with
        | err _ => exact sameOut_refl r
        | ub => exact sameOut_refl r
        | ok o =>
          cases o with
          | none => exact sameOut_refl r
          | some m => exact process_out e w r m

theorem processMessage_out {W} (e : World W) (w : W) (r : R) : SameOut r (processMessage e w r).2.1 := by
  unfold processMessage
  split; · exact sameOut_refl r
  split; · exact sameOut_refl r
  cases rd r.input 0 with
  | err _ => exact sameOut_refl r
  | ub => exact sameOut_refl r
  | ok n =>
    simp only
    split; · exact sameOut_refl r
    split; · exact sameOut_refl r
    split; · exact ⟨rfl, rfl⟩
    have h := dispatch_out e w r (r.input.take n)
    generalize dispatch e w r (r.input.take n) = z at h
    obtain ⟨x, r', w'⟩ := z
    cases x <;> exact h
theorem read_out (r : R) (d) : SameOut r (read r d).2 := by
  unfold read
  split; · exact sameOut_refl r
  cases d with
  | none => exact sameOut_refl r
  | some d =>
    simp only
    split; · exact sameOut_refl r
    split; · exact sameOut_refl r
    exact ⟨rfl, rfl⟩
theorem write_hello (r : R) (n) : (write r n).2.sentHello = r.sentHello := by
  unfold write
  split
  · rfl
  cases n with
  | none => rfl
  | some n =>
    simp only
    split
    · rfl
    split <;> rfl

theorem sendFile_hello (r : R) (a g) : (sendFile r a g).2.sentHello = r.sentHello := by
  unfold sendFile
  split
  · rfl
  split
  · rfl
  split
  · rfl
  split
  · rfl
  split
  · rfl
  cases g with
  | err x => rfl
  | ub => rfl
  | ok d =>
    simp only
    split
    · rfl
    split
    · cases a <;> rfl
    · rfl

theorem sendRequest_hello (r : R) : (sendRequest r).2.sentHello = r.sentHello := by
  unfold sendRequest
  split
  · rfl
  split
  · rfl
  split
  · rfl
  simp only
  split <;> rfl

theorem putChunk_hello (r : R) (id c d) : (putChunk r id c d).2.sentHello = r.sentHello := by
  unfold putChunk
  split
  · rfl
  split
  · rfl
  split
  · rfl
  split
  · rfl
  cases canPutChunk r with
  | err _ => rfl
  | ub => rfl
  | ok b =>
    cases b with
    | false => rfl
    | true => simp only; split <;> rfl

theorem putMissing_hello (r : R) (id) : (putMissing r id).2.sentHello = r.sentHello := by
  unfold putMissing
  split
  · rfl
  cases canPutChunk r with
  | err _ => rfl
  | ub => rfl
  | ok b => cases b <;> rfl

theorem putFile_hello (r : R) (a d) : (putFile r a d).2.sentHello = r.sentHello := by
  unfold putFile
  split
  · rfl
  split
  · rfl
  cases canPutFile r a with
  | err _ => rfl
  | ub => rfl
  | ok b =>
    cases b with
    | false => rfl
    | true => simp only; split <;> rfl

theorem putFileEof_hello (r : R) (a) : (putFileEof r a).2.sentHello = r.sentHello := by
  unfold putFileEof
  split
  · rfl
  cases canPutFile r a with
  | err _ => rfl
  | ub => rfl
  | ok b =>
    cases b with
    | false => rfl
    | true => cases a <;> rfl

theorem goodbye_hello {W} (e : World W) (w : W) (r : R) : (goodbye e w r).2.1.sentHello = r.sentHello := by
  unfold goodbye
  split
  · rfl
  split
  · rfl
  have h1 := fileInstall_out e w r false
  generalize fileInstall e w r false = z at h1
  obtain ⟨x, r1, w1⟩ := z
  cases x with
  | ok _ =>
    simp only
    have h2 := fileInstall_out e w1 r1 true
    generalize fileInstall e w1 r1 true = z at h2
    obtain ⟨x, r2, w2⟩ := z
    cases x with
    | ok _ => exact (h1.trans h2).1
    | err _ => exact (h1.trans h2).1
    | ub => exact (h1.trans h2).1
  | err _ => exact h1.1
  | ub => exact h1.1

theorem abort_hello (r : R) (x m) : (abort r x m).2.sentHello = r.sentHello := by
  unfold abort
  split
  · rfl
  split
  · rfl
  split <;> rfl

/-- Is it a greeting? -/
def isHello : Msg → Bool
  | .hello _ => true
  | _ => false

/-- Every call sends no greeting and leaves the mark alone, or it sends the first one. -/
theorem act_hello {W} (e : World W) (w : W) (r : R) (a : Act) :
    (act e w r a).2.1.sentHello = r.sentHello ∧ (speaks r a (act e w r a).1).filter isHello = [] ∨
    r.sentHello = false ∧ (act e w r a).2.1.sentHello = true ∧ speaks r a (act e w r a).1 = [.hello r.localFlags] := by
  have none_or : ∀ (m : Msg), isHello m = false → [m].filter isHello = [] := by intro m h; simp [h]
  cases a with
  | clear => exact .inl ⟨rfl, rfl⟩
  | start a b => exact .inl ⟨(start_out r a b).1, rfl⟩
  | write n => exact .inl ⟨write_hello r n, rfl⟩
  | sendHello =>
    by_cases h : r.sentHello = true
    · have e1 : act e w r .sendHello = (.ok .poll, r, w) := by
        show ((sendHello r).1, (sendHello r).2, w) = _
        unfold sendHello
        rw [if_pos h]
      rw [e1]; exact .inl ⟨rfl, rfl⟩
    · refine .inr ⟨Bool.eq_false_iff.2 h, ?_, ?_⟩
      · show (sendHello r).2.sentHello = true
        unfold sendHello; rw [if_neg h]
      · show speaks r .sendHello (sendHello r).1 = _
        unfold sendHello; rw [if_neg h]; rfl
  | message => exact .inl ⟨(processMessage_out e w r).1, rfl⟩
  | sendRequest => exact .inl ⟨sendRequest_hello r, rfl⟩
  | sendFile a g =>
    refine .inl ⟨sendFile_hello r a g, ?_⟩
    unfold speaks
    split <;> first | rfl | (split <;> rfl) | (simp_all; done) | skip
    all_goals first | rfl | (apply none_or; split <;> rfl)
  | read d => exact .inl ⟨(read_out r d).1, rfl⟩
  | putChunk id c d =>
    refine .inl ⟨putChunk_hello r id c d, ?_⟩
    generalize (act e w r (.putChunk id c d)).1 = x
    unfold speaks; split <;> first | rfl | contradiction
  | putMissing id =>
    refine .inl ⟨putMissing_hello r id, ?_⟩
    generalize (act e w r (.putMissing id)).1 = x
    unfold speaks; split <;> first | rfl | contradiction
  | putFile a d =>
    refine .inl ⟨putFile_hello r a d, ?_⟩
    generalize (act e w r (.putFile a d)).1 = x
    unfold speaks; split <;> first | rfl | contradiction
  | putFileEof a =>
    refine .inl ⟨putFileEof_hello r a, ?_⟩
    generalize (act e w r (.putFileEof a)).1 = x
    unfold speaks; split <;> first | rfl | contradiction
  | goodbye =>
    refine .inl ⟨goodbye_hello e w r, ?_⟩
    generalize (act e w r .goodbye).1 = x
    unfold speaks; split <;> first | rfl | contradiction
  | abort x m =>
    refine .inl ⟨abort_hello r x m, ?_⟩
    generalize (act e w r (.abort x m)).1 = x
    unfold speaks; split <;> first | rfl | contradiction
  | queue o => exact .inl ⟨rfl, rfl⟩

theorem run_hello {W} (e : World W) : ∀ (as : List Act) (c : Conn W), (c.said.filter isHello).length = (if c.r.sentHello then 1 else 0) →
    ((c.run e as).said.filter isHello).length = (if (c.run e as).r.sentHello then 1 else 0)
  | [], _, h => h
  | a :: as, c, h => by
    show (((c.act e a).run e as).said.filter isHello).length = _
    refine run_hello e as (c.act e a) ?_
    show ((c.said ++ speaks c.r a (act e c.w c.r a).1).filter isHello).length = if (act e c.w c.r a).2.1.sentHello then 1 else 0
    rw [List.filter_append, List.length_append, h]
    rcases act_hello e c.w c.r a with ⟨h1, h2⟩ | ⟨h1, h2, h3⟩
    · rw [h1, h2]; rfl
    · rw [h1, h2, h3]; rfl

end Casync.Remote.Hello
