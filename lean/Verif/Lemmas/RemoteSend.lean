import Verif.Lemmas.RemoteConn
/-!
What each call appends to the send buffer.
-/
namespace Casync.Remote
open Casync ChunkFile Spec

/-- The messages as bytes. -/
def wire (ms : List Msg) : Bytes := (ms.map encode).flatten

theorem wire_append (a b : List Msg) : wire (a ++ b) = wire a ++ wire b := by simp [wire]

theorem wire_single (m : Msg) : wire [m] = encode m := by simp [wire]

/-- A message that may be sent. -/
def Fit (m : Msg) : Prop := WF m ∧ 16 + (body m).length ≤ 16777216

theorem fit_frame {m : Msg} (h : Fit m) : IsFrame (encode m) := by rw [encode_fr]; exact fr_isFrame _ _ h.2

/-- `ms` went to the end of the send buffer, because of the call's own messages `own` and requests; the flags stay. -/
structure Sends (r r' : R) (own ms : List Msg) : Prop where
  out : r'.output = r.output ++ wire ms
  flags : r'.localFlags = r.localFlags
  own : ms.filter (fun m => !isRequest m) = own

theorem sends_nil (r r' : R) (h1 : r'.output = r.output) (h2 : r'.localFlags = r.localFlags) : Sends r r' [] [] :=
  ⟨by rw [h1]; simp [wire], h2, rfl⟩

theorem sends_one {r r' : R} {m : Msg} (hm : isRequest m = false) (h1 : r'.output = r.output ++ encode m)
    (h2 : r'.localFlags = r.localFlags) : Sends r r' [m] [m] :=
  ⟨by rw [h1, wire_single], h2, by simp [hm]⟩

/-- Send buffer and flags are left alone. -/
def SameOut (r r' : R) : Prop := r'.output = r.output ∧ r'.localFlags = r.localFlags

theorem sameOut_refl (r : R) : SameOut r r := ⟨rfl, rfl⟩
theorem SameOut.trans {a b c : R} (h : SameOut a b) (h' : SameOut b c) : SameOut a c := ⟨h'.1.trans h.1, h'.2.trans h.2⟩
theorem sameOut_setFile (r : R) (a f) : SameOut r (r.setFile a f) := by cases a <;> exact ⟨rfl, rfl⟩
theorem SameOut.sends {r r' : R} (h : SameOut r r') : Sends r r' [] [] := sends_nil r r' h.1 h.2

theorem fileOpen_out (r : R) (a b x) : SameOut r (fileOpen r a b x).2 := by
  unfold fileOpen
  simp only
  split; · exact sameOut_refl r
  split; · exact sameOut_refl r
  split; · exact sameOut_refl r
  cases x <;> exact sameOut_setFile ..

theorem openIfWanted_out (r : R) (a x) : SameOut r (openIfWanted r a x).2 := by
  unfold openIfWanted
  split; · exact fileOpen_out ..
  split; · exact fileOpen_out ..
  exact sameOut_refl r

theorem start_out (r : R) (a b) : SameOut r (start r a b).2 := by
  unfold start
  split; · exact sameOut_refl r
  split; · exact sameOut_refl r
  split; · exact sameOut_refl r
  have h1 := openIfWanted_out r false a
  generalize openIfWanted r false a = z at h1
  obtain ⟨x, r1⟩ := z
  cases x with
  | ok _ =>
    simp only
    have h2 := openIfWanted_out r1 true b
    generalize openIfWanted r1 true b = z at h2
    obtain ⟨x, r2⟩ := z
    cases x <;> exact h1.trans h2
  | err _ => exact h1
  | ub => exact h1

theorem fileInstall_out {W} (e : World W) (w : W) (r : R) (a) : SameOut r (fileInstall e w r a).2.1 := by
  unfold fileInstall
  simp only
  split; · exact sameOut_refl r
  cases e.rename w a with
  | mk x w' => cases x <;> first | exact sameOut_setFile .. | exact sameOut_refl r

theorem processRequest_out (high : Bool) : ∀ (ids : List Bytes) (r : R), SameOut r (processRequest r high ids).2
  | [], r => sameOut_refl r
  | id :: ids, r => by
    unfold processRequest
    cases enqueue r.queue id high false with
    | mk x q => cases x with
      | ok b => exact SameOut.trans (b := { r with queue := q }) ⟨rfl, rfl⟩ (processRequest_out high ids { r with queue := q })
      | err _ => exact ⟨rfl, rfl⟩
      | ub => exact ⟨rfl, rfl⟩

theorem process_out {W} (e : World W) (w : W) (r : R) (m : Msg) : SameOut r (process e w r m).2.1 := by
  cases m with
  | hello fl =>
    simp only [process, processHello]
    split; · exact sameOut_refl r
    split; · exact sameOut_refl r
    split; · exact sameOut_refl r
    split; · exact sameOut_refl r
    split; · exact sameOut_refl r
    exact ⟨rfl, rfl⟩
  | file a d =>
    simp only [process, processFile]
    split; · exact sameOut_refl r
    split
    · cases e.write w a d with
      | mk x w' => cases x <;> exact sameOut_refl r
    · exact sameOut_setFile ..
  | fileEof a =>
    simp only [process, processFileEof]
    split; · exact sameOut_refl r
    exact sameOut_setFile ..
  | request h ids => exact processRequest_out h ids r
  | chunk id c d =>
    simp only [process, processChunk]
    split; · exact sameOut_refl r
    generalize e.save w id _ d = z
    obtain ⟨x, w'⟩ := z
    cases x with
    | ok u => exact ⟨rfl, rfl⟩
    | err e => cases e <;> exact ⟨rfl, rfl⟩
    | ub => exact ⟨rfl, rfl⟩
  | missing id =>
    simp only [process, processMissing]
    split; · exact sameOut_refl r
    generalize e.missing w id = z
    obtain ⟨x, w'⟩ := z
    cases x with
    | ok u => exact ⟨rfl, rfl⟩
    | err e => cases e <;> exact ⟨rfl, rfl⟩
    | ub => exact ⟨rfl, rfl⟩
  | goodbye =>
    simp only [process, processGoodbye]
    have h1 := fileInstall_out e w r false
    generalize fileInstall e w r false = z at h1
    obtain ⟨x, r1, w1⟩ := z
    cases x with
    | ok _ =>
      simp only
      have h2 := fileInstall_out e w1 r1 true
      generalize fileInstall e w1 r1 true = z at h2
      obtain ⟨x, r2, w2⟩ := z
      cases x with
      | ok _ => exact (h1.trans h2)
      | err _ => exact h1.trans h2
      | ub => exact h1.trans h2
    | err _ => exact h1
    | ub => exact h1
  | abort x s => exact sameOut_refl r

theorem dispatch_out {W} (e : World W) (w : W) (r : R) (f) : SameOut r (dispatch e w r f).2.1 := by
  unfold dispatch
  cases rd f 8 with
  | err _ => exact sameOut_refl r
  | ub => exact sameOut_refl r
  | ok t =>
    simp only
    cases allowed r t with
    | none => exact sameOut_refl r
    | some b =>
      cases b with
      | false => exact sameOut_refl r
      | true =>
        simp only
        cases validate t f with
        | err _ => exact sameOut_refl r
        | ub => exact sameOut_refl r
        | ok o =>
          cases o with
          | none => exact sameOut_refl r
          | some m => exact process_out e w r m

theorem processMessage_out {W} (e : World W) (w : W) (r : R) : SameOut r (processMessage e w r).2.1 := by
  unfold processMessage
  split; · exact sameOut_refl r
  split; · exact sameOut_refl r
  cases rd r.input 0 with
  | err _ => exact sameOut_refl r
  | ub => exact sameOut_refl r
  | ok n =>
    simp only
    split; · exact sameOut_refl r
    split; · exact sameOut_refl r
    split; · exact ⟨rfl, rfl⟩
    have h := dispatch_out e w r (r.input.take n)
    generalize dispatch e w r (r.input.take n) = z at h
    obtain ⟨x, r', w'⟩ := z
    cases x <;> exact h

theorem requestFrame_encode (p : Bool) (ids : List Bytes) (h : ∀ id ∈ ids, id.length = 32) :
    requestFrame p ids = encode (.request p ids) := by
  have hl : 16 + (body (.request p ids)).length = 24 + 32 * ids.length := by
    show 16 + (le64 (if p then 1 else 0) ++ ids.flatten).length = _
    rw [List.length_append, le64_length, flatten_length h]; omega
  rw [encode, hl]
  show le64 (24 + 32 * ids.length) ++ le64 REQUEST ++ le64 (if p then 1 else 0) ++ ids.flatten =
    le64 (24 + 32 * ids.length) ++ le64 REQUEST ++ (le64 (if p then 1 else 0) ++ ids.flatten)
  rw [List.append_assoc (le64 _ ++ le64 _)]

/-- `ca_remote_send_request` sends at most one message, a proper request. -/
theorem sendRequest_sends (r : R) : ∃ ms, Sends r (sendRequest r).2 [] ms ∧ ∀ m ∈ ms, Fit m := by
  have none' : ∃ ms, Sends r r [] ms ∧ ∀ m ∈ ms, Fit m := ⟨[], (sameOut_refl r).sends, fun _ h => nomatch h⟩
  unfold sendRequest
  split; · exact none'
  split; · exact none'
  split; · exact none'
  simp only
  have spec := requestLoop_spec 4096 r.queue none none [] (fun _ h => nomatch h) (by simp) (.inl ⟨rfl, rfl, rfl⟩)
  generalize requestLoop 4096 r.queue none none [] = z at spec
  obtain ⟨x, first, ids, q⟩ := z
  obtain ⟨h1, h2, h3, -⟩ := spec
  simp only at h1 h2 h3 ⊢
  have main : ∀ r' : R, r'.output = (if ids = [] then r.output else r.output ++ requestFrame (first.getD false) ids) →
      r'.localFlags = r.localFlags → ∃ ms, Sends r r' [] ms ∧ ∀ m ∈ ms, Fit m := by
    intro r' ho hf
    by_cases hi : ids = []
    · rw [if_pos hi] at ho
      exact ⟨[], sends_nil r r' ho hf, fun _ h => nomatch h⟩
    · rw [if_neg hi, requestFrame_encode _ _ h1] at ho
      refine ⟨[.request (first.getD false) ids], ⟨by rw [wire_single]; exact ho, hf, rfl⟩, fun m hm => ?_⟩
      rw [List.mem_singleton.1 hm]
      refine ⟨⟨hi, h1⟩, ?_⟩
      show 16 + (le64 (if first.getD false then 1 else 0) ++ ids.flatten).length ≤ _
      rw [List.length_append, le64_length, flatten_length h1]; omega
  cases x with
  | ok u => exact main _ rfl rfl
  | err _ => exact main _ rfl rfl
  | ub => exact main _ rfl rfl

theorem sendFile_sends (r : R) (a : Bool) (got : Res Bytes) : ∃ ms, Sends r (sendFile r a got).2 (speaks r (.sendFile a got) (sendFile r a got).1) ms ∧
    ∀ m ∈ ms, Fit m := by
  have none' : ∀ x : Rc, x ≠ .ok .step → ∃ ms, Sends r r (speaks r (.sendFile a got) x) ms ∧ ∀ m ∈ ms, Fit m := by
    intro x hx
    refine ⟨[], ?_, fun _ h => nomatch h⟩
    have : speaks r (.sendFile a got) x = [] := by
      cases got <;> try rfl
      cases x <;> try rfl
      rename_i s; cases s <;> first | rfl | exact absurd rfl hx
    rw [this]; exact (sameOut_refl r).sends
  unfold sendFile
  split; · exact none' _ (fun h => nomatch h)
  split; · exact none' _ (fun h => nomatch h)
  split; · exact none' _ (fun h => nomatch h)
  split; · exact none' _ (fun h => nomatch h)
  split; · cases a <;> exact none' _ (fun h => nomatch h)
  cases got with
  | err _ => exact none' _ (fun h => nomatch h)
  | ub => exact none' _ (fun h => nomatch h)
  | ok d =>
    simp only
    by_cases h1 : d.length > BUF
    · rw [if_pos h1]; exact none' _ (fun h => nomatch h)
    rw [if_neg h1]
    have h1' : ¬ d.length > 65536 := h1
    by_cases h2 : d = []
    · rw [if_pos h2]
      refine ⟨[.fileEof a], ?_, fun m hm => ?_⟩
      · simp only [speaks, if_pos h2]
        refine sends_one rfl ?_ ?_
        · cases a <;> exact congrArg (fun z => r.output ++ z) (List.append_nil _).symm
        · cases a <;> rfl
      · rw [List.mem_singleton.1 hm]; exact ⟨trivial, by simp [body]⟩
    · rw [if_neg h2]
      refine ⟨[.file a d], ?_, fun m hm => ?_⟩
      · simp only [speaks, if_neg h2]
        refine sends_one rfl ?_ rfl
        cases a <;> rfl
      · rw [List.mem_singleton.1 hm]
        exact ⟨h2, by show 16 + d.length ≤ _; omega⟩

theorem putChunk_sends (r : R) (id : Bytes) (c : Compression) (d : Bytes) (hid : id.length = 32) :
    ∃ ms, Sends r (putChunk r id c d).2 (speaks r (.putChunk id c d) (.ofRes (putChunk r id c d).1)) ms ∧ ∀ m ∈ ms, Fit m := by
  have none' : ∀ x : Res Unit, x ≠ .ok () → ∃ ms, Sends r r (speaks r (.putChunk id c d) (.ofRes x)) ms ∧ ∀ m ∈ ms, Fit m := by
    intro x hx
    refine ⟨[], ?_, fun _ h => nomatch h⟩
    have : speaks r (.putChunk id c d) (.ofRes x) = [] := by
      cases x <;> first | rfl | exact absurd rfl hx
    rw [this]; exact (sameOut_refl r).sends
  unfold putChunk
  by_cases h0 : d.length < 1
  · rw [if_pos h0]; exact none' _ (fun h => nomatch h)
  rw [if_neg h0]
  split; · exact none' _ (fun h => nomatch h)
  split; · exact none' _ (fun h => nomatch h)
  split; · exact none' _ (fun h => nomatch h)
  cases canPutChunk r with
  | err _ => exact none' _ (fun h => nomatch h)
  | ub => exact none' _ (fun h => nomatch h)
  | ok b =>
    cases b with
    | false => exact none' _ (fun h => nomatch h)
    | true =>
      simp only
      by_cases h2 : 56 + d.length > SIZE_MAX
      · rw [if_pos h2]; exact none' _ (fun h => nomatch h)
      rw [if_neg h2]
      have h2' : ¬ 56 + d.length > 16777216 := h2
      have hbl : (body (.chunk id (decide (c = .compressed)) d)).length = 40 + d.length := by
        simp only [body, List.length_append, le64_length]; omega
      refine ⟨[.chunk id (c = .compressed) d], ?_, fun m hm => ?_⟩
      · refine sends_one rfl ?_ rfl
        rw [encode, hbl, show 16 + (40 + d.length) = 56 + d.length by omega]
        simp only [body, typeOf, decide_eq_true_eq, List.append_assoc]
      · rw [List.mem_singleton.1 hm]
        refine ⟨⟨hid, ?_⟩, by rw [hbl]; omega⟩
        intro hd; rw [hd] at h0; simp at h0

theorem putMissing_sends (r : R) (id : Bytes) (hid : id.length = 32) :
    ∃ ms, Sends r (putMissing r id).2 (speaks r (.putMissing id) (.ofRes (putMissing r id).1)) ms ∧ ∀ m ∈ ms, Fit m := by
  have none' : ∀ x : Res Unit, x ≠ .ok () → ∃ ms, Sends r r (speaks r (.putMissing id) (.ofRes x)) ms ∧ ∀ m ∈ ms, Fit m := by
    intro x hx
    refine ⟨[], ?_, fun _ h => nomatch h⟩
    have : speaks r (.putMissing id) (.ofRes x) = [] := by
      cases x <;> first | rfl | exact absurd rfl hx
    rw [this]; exact (sameOut_refl r).sends
  unfold putMissing
  split; · exact none' _ (fun h => nomatch h)
  cases canPutChunk r with
  | err _ => exact none' _ (fun h => nomatch h)
  | ub => exact none' _ (fun h => nomatch h)
  | ok b =>
    cases b with
    | false => exact none' _ (fun h => nomatch h)
    | true =>
      refine ⟨[.missing id], ?_, fun m hm => ?_⟩
      · refine sends_one rfl ?_ rfl
        rw [encode]
        simp only [body, typeOf, hid]
      · rw [List.mem_singleton.1 hm]
        exact ⟨hid, by simp only [body, hid]; omega⟩

theorem putFile_sends (r : R) (a : Bool) (d : Bytes) :
    ∃ ms, Sends r (putFile r a d).2 (speaks r (.putFile a d) (.ofRes (putFile r a d).1)) ms ∧ ∀ m ∈ ms, Fit m := by
  have none' : ∀ x : Res Unit, x ≠ .ok () → ∃ ms, Sends r r (speaks r (.putFile a d) (.ofRes x)) ms ∧ ∀ m ∈ ms, Fit m := by
    intro x hx
    refine ⟨[], ?_, fun _ h => nomatch h⟩
    have : speaks r (.putFile a d) (.ofRes x) = [] := by
      cases x <;> first | rfl | exact absurd rfl hx
    rw [this]; exact (sameOut_refl r).sends
  unfold putFile
  by_cases h0 : d.length = 0
  · rw [if_pos h0]; exact none' _ (fun h => nomatch h)
  rw [if_neg h0]
  split; · exact none' _ (fun h => nomatch h)
  cases canPutFile r a with
  | err _ => exact none' _ (fun h => nomatch h)
  | ub => exact none' _ (fun h => nomatch h)
  | ok b =>
    cases b with
    | false => exact none' _ (fun h => nomatch h)
    | true =>
      simp only
      by_cases h2 : 16 + d.length > SIZE_MAX
      · rw [if_pos h2]; exact none' _ (fun h => nomatch h)
      rw [if_neg h2]
      have h2' : ¬ 16 + d.length > 16777216 := h2
      refine ⟨[.file a d], ?_, fun m hm => ?_⟩
      · refine sends_one rfl ?_ rfl
        cases a <;> rfl
      · rw [List.mem_singleton.1 hm]
        refine ⟨?_, by show 16 + d.length ≤ _; omega⟩
        show d ≠ []
        intro hd; rw [hd] at h0; simp at h0

theorem putFileEof_sends (r : R) (a : Bool) :
    ∃ ms, Sends r (putFileEof r a).2 (speaks r (.putFileEof a) (.ofRes (putFileEof r a).1)) ms ∧ ∀ m ∈ ms, Fit m := by
  have none' : ∀ x : Res Unit, x ≠ .ok () → ∃ ms, Sends r r (speaks r (.putFileEof a) (.ofRes x)) ms ∧ ∀ m ∈ ms, Fit m := by
    intro x hx
    refine ⟨[], ?_, fun _ h => nomatch h⟩
    have : speaks r (.putFileEof a) (.ofRes x) = [] := by
      cases x <;> first | rfl | exact absurd rfl hx
    rw [this]; exact (sameOut_refl r).sends
  unfold putFileEof
  split; · exact none' _ (fun h => nomatch h)
  cases canPutFile r a with
  | err _ => exact none' _ (fun h => nomatch h)
  | ub => exact none' _ (fun h => nomatch h)
  | ok b =>
    cases b with
    | false => exact none' _ (fun h => nomatch h)
    | true =>
      refine ⟨[.fileEof a], ?_, fun m hm => ?_⟩
      · refine sends_one rfl ?_ ?_
        · cases a <;> exact congrArg (fun z => r.output ++ z) (List.append_nil _).symm
        · cases a <;> rfl
      · rw [List.mem_singleton.1 hm]; exact ⟨trivial, by simp [body]⟩

theorem goodbye_sends {W} (e : World W) (w : W) (r : R) :
    ∃ ms, Sends r (goodbye e w r).2.1 (speaks r .goodbye (.ofRes (goodbye e w r).1)) ms ∧ ∀ m ∈ ms, Fit m := by
  have none' : ∀ (x : Res Unit) (r' : R), x ≠ .ok () → SameOut r r' → ∃ ms, Sends r r' (speaks r .goodbye (.ofRes x)) ms ∧ ∀ m ∈ ms, Fit m := by
    intro x r' hx hs
    refine ⟨[], ?_, fun _ h => nomatch h⟩
    have : speaks r .goodbye (.ofRes x) = [] := by
      cases x <;> first | rfl | exact absurd rfl hx
    rw [this]; exact hs.sends
  unfold goodbye
  split; · exact none' _ _ (fun h => nomatch h) (sameOut_refl r)
  split; · exact none' _ _ (fun h => nomatch h) (sameOut_refl r)
  have h1 := fileInstall_out e w r false
  generalize fileInstall e w r false = z at h1
  obtain ⟨x, r1, w1⟩ := z
  cases x with
  | ok _ =>
    simp only
    have h2 := fileInstall_out e w1 r1 true
    generalize fileInstall e w1 r1 true = z at h2
    obtain ⟨x, r2, w2⟩ := z
    cases x with
    | ok _ =>
      refine ⟨[.goodbye], sends_one rfl ?_ ?_, fun m hm => ?_⟩
      · show r2.output ++ (le64 16 ++ le64 GOODBYE) = r.output ++ encode .goodbye
        rw [show r2.output = r.output from (h1.trans h2).1]
        exact congrArg (fun z => r.output ++ z) (List.append_nil _).symm
      · exact (h1.trans h2).2
      · rw [List.mem_singleton.1 hm]; exact ⟨trivial, by simp [body]⟩
    | err _ => exact none' _ _ (fun h => nomatch h) (h1.trans h2)
    | ub => exact none' _ _ (fun h => nomatch h) (h1.trans h2)
  | err _ => exact none' _ _ (fun h => nomatch h) h1
  | ub => exact none' _ _ (fun h => nomatch h) h1

theorem abort_sends (r : R) (x : Nat) (s : Bytes) (hl : s.length + 25 ≤ 16777216) (hs : ∀ b ∈ s, 32 ≤ b) :
    ∃ ms, Sends r (abort r x s).2 (speaks r (.abort x s) (.ofRes (abort r x s).1)) ms ∧ ∀ m ∈ ms, Fit m := by
  have none' : ∀ y : Res Unit, y ≠ .ok () → ∃ ms, Sends r r (speaks r (.abort x s) (.ofRes y)) ms ∧ ∀ m ∈ ms, Fit m := by
    intro y hx
    refine ⟨[], ?_, fun _ h => nomatch h⟩
    have : speaks r (.abort x s) (.ofRes y) = [] := by
      cases y <;> first | rfl | exact absurd rfl hx
    rw [this]; exact (sameOut_refl r).sends
  unfold abort
  by_cases h0 : x ≥ 2 ^ 31 - 1
  · rw [if_pos h0]; exact none' _ (fun h => nomatch h)
  rw [if_neg h0]
  split; · exact none' _ (fun h => nomatch h)
  split; · exact none' _ (fun h => nomatch h)
  have hbl : (body (.abort x s)).length = 8 + s.length + 1 := by
    simp only [body, List.length_append, le64_length, List.length_cons, List.length_nil]
  refine ⟨[.abort x s], sends_one rfl ?_ rfl, fun m hm => ?_⟩
  · rw [encode, hbl, show 16 + (8 + s.length + 1) = 24 + s.length + 1 by omega]
    simp only [body, typeOf, List.append_assoc]
  · rw [List.mem_singleton.1 hm]
    exact ⟨⟨by omega, hs⟩, by rw [hbl]; omega⟩

theorem sendHello_sends (r : R) (h0 : r.localFlags ≠ 0) (h1 : r.localFlags < 2 ^ 64 - 1) :
    ∃ ms, Sends r (sendHello r).2 (speaks r .sendHello (sendHello r).1) ms ∧ ∀ m ∈ ms, Fit m := by
  unfold sendHello
  split
  · exact ⟨[], (sameOut_refl r).sends, fun _ h => nomatch h⟩
  · refine ⟨[.hello r.localFlags], sends_one rfl ?_ rfl, fun m hm => ?_⟩
    · rw [encode]
      simp only [body, typeOf, le64_length]
    · rw [List.mem_singleton.1 hm]
      exact ⟨⟨h0, h1⟩, by simp only [body, le64_length]; omega⟩

theorem read_out (r : R) (d) : SameOut r (read r d).2 := by
  unfold read
  split; · exact sameOut_refl r
  cases d with
  | none => exact sameOut_refl r
  | some d =>
    simp only
    split; · exact sameOut_refl r
    split; · exact sameOut_refl r
    exact ⟨rfl, rfl⟩

/-- Every call but `write`: what it appends. -/
theorem act_sends {W} (e : World W) (w : W) (r : R) (a : Act) (hw : ∀ n, a ≠ .write n) (hs : Sensible a) (h0 : r.localFlags ≠ 0)
    (h1 : r.localFlags < 2 ^ 64 - 1) :
    ∃ ms, Sends r (act e w r a).2.1 (speaks r a (act e w r a).1) ms ∧ ∀ m ∈ ms, Fit m := by
  have none' : ∀ r', SameOut r r' → ∃ ms, Sends r r' [] ms ∧ ∀ m ∈ ms, Fit m := fun r' h => ⟨[], h.sends, fun _ h => nomatch h⟩
  cases a with
  | clear => exact none' _ ⟨rfl, rfl⟩
  | start a b => exact none' _ (start_out ..)
  | write n => exact absurd rfl (hw n)
  | sendHello => exact sendHello_sends r h0 h1
  | message => exact none' _ (processMessage_out ..)
  | sendRequest => exact sendRequest_sends r
  | sendFile a d => exact sendFile_sends r a d
  | read d => cases d <;> exact none' _ (read_out ..)
  | putChunk id c d => exact putChunk_sends r id c d hs
  | putMissing id => exact putMissing_sends r id hs
  | putFile a d => exact putFile_sends r a d
  | putFileEof a => exact putFileEof_sends r a
  | goodbye => exact goodbye_sends e w r
  | abort x s => exact abort_sends r x s hs.1 hs.2
  | queue o => exact none' _ ⟨rfl, rfl⟩

/-- What is known about the send side at any time. -/
structure SendInv {W} (c : Conn W) (l : Nat) (ms : List Msg) : Prop where
  out : c.sent ++ c.r.output = wire ms
  fit : ∀ m ∈ ms, Fit m
  said : ms.filter (fun m => !isRequest m) = c.said
  flags : c.r.localFlags = l

theorem send_act {W} (e : World W) (c : Conn W) (a : Act) {l ms} (h : SendInv c l ms) (hs : Sensible a) (h0 : l ≠ 0) (h1 : l < 2 ^ 64 - 1) :
    ∃ ms', SendInv (c.act e a) l (ms ++ ms') := by
  by_cases hw : ∃ n, a = .write n
  · obtain ⟨n, rfl⟩ := hw
    refine ⟨[], ?_⟩
    rw [List.append_nil]
    have hsaid : (c.act e (.write n)).said = c.said := by simp [Conn.act, speaks]
    have key : c.sent ++ departed c.r (write c.r n).2 (.write n) ++ (write c.r n).2.output = wire ms ∧ (write c.r n).2.localFlags = l := by
      have same : c.sent ++ departed c.r c.r (.write n) ++ c.r.output = wire ms ∧ c.r.localFlags = l := by
        simp only [departed, Nat.sub_self, List.take_zero, List.append_nil]; exact ⟨h.out, h.flags⟩
      unfold write
      split; · exact same
      cases n with
      | none => exact same
      | some n =>
        simp only
        by_cases hn : n > c.r.output.length
        · rw [if_pos hn]; exact same
        rw [if_neg hn]
        have : ∀ r' : R, r'.output = c.r.output.drop n → r'.localFlags = c.r.localFlags →
            c.sent ++ departed c.r r' (.write (some n)) ++ r'.output = wire ms ∧ r'.localFlags = l := by
          intro r' ho hf
          refine ⟨?_, hf.trans h.flags⟩
          simp only [departed, ho, List.length_drop]
          rw [show c.r.output.length - (c.r.output.length - n) = n by omega, List.append_assoc, List.take_append_drop]
          exact h.out
        split <;> exact this _ rfl rfl
    exact ⟨key.1, h.fit, h.said.trans hsaid.symm, key.2⟩
  · have hw' : ∀ n, a ≠ .write n := fun n h => hw ⟨n, h⟩
    obtain ⟨ms', hms, hfit⟩ := act_sends e c.w c.r a hw' hs (by rw [h.flags]; exact h0) (by rw [h.flags]; exact h1)
    refine ⟨ms', ?_, ?_, ?_, ?_⟩
    · have hd : (c.act e a).sent = c.sent := by
        simp only [Conn.act]
        cases a <;> first | exact List.append_nil _ | exact absurd rfl (hw' _)
      rw [hd, wire_append, ← h.out, List.append_assoc]
      exact congrArg (fun z => c.sent ++ z) hms.out
    · intro m hm
      rcases List.mem_append.1 hm with hm | hm
      · exact h.fit m hm
      · exact hfit m hm
    · rw [List.filter_append, h.said, hms.own]; rfl
    · exact hms.flags.trans h.flags

theorem send_run {W} (e : World W) : ∀ (as : List Act) (c : Conn W) {l ms}, SendInv c l ms → (∀ a ∈ as, Sensible a) → l ≠ 0 →
    l < 2 ^ 64 - 1 → ∃ ms', SendInv (c.run e as) l (ms ++ ms')
  | [], c, l, ms, h, _, _, _ => ⟨[], by rw [List.append_nil]; exact h⟩
  | a :: as, c, l, ms, h, hs, h0, h1 => by
    obtain ⟨m1, g1⟩ := send_act e c a h (hs a List.mem_cons_self) h0 h1
    obtain ⟨m2, g2⟩ := send_run e as _ g1 (fun x hx => hs x (List.mem_cons_of_mem _ hx)) h0 h1
    exact ⟨m1 ++ m2, by rw [← List.append_assoc]; exact g2⟩

theorem sendInv_new {W} (w : W) (l i a) : SendInv (Conn.new w (R.new l i a)) l [] :=
  ⟨rfl, (fun _ h => nomatch h), rfl, rfl⟩

end Casync.Remote
