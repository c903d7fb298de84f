import Verif.Spec.RemotePoll
import Verif.Props.Remote
import Verif.Lemmas.RemoteHello
import Verif.Lemmas.RemoteBye
import Verif.Lemmas.RemoteBuf
/-!
C68: waiting for the other side.
-/
namespace Casync.Remote.Props
open Casync Casync.Remote Casync.Remote.Spec ChunkFile

theorem sendRequest_poll {r : R} (_h : (sendRequest r).1 = .ok .poll) :
    (sendRequest r).2.input = r.input ∧ (sendRequest r).2.frameSize = r.frameSize ∧ (sendRequest r).2.state = r.state := by
  unfold sendRequest
  split
  · exact ⟨rfl, rfl, rfl⟩
  split
  · exact ⟨rfl, rfl, rfl⟩
  split
  · exact ⟨rfl, rfl, rfl⟩
  simp only
  split <;> exact ⟨rfl, rfl, rfl⟩

theorem sendFile_poll {r : R} {a : Bool} {g : Res Bytes} (h : (sendFile r a g).1 = .ok .poll) : (sendFile r a g).2 = r := by
  unfold sendFile at h ⊢
  by_cases h1 : (!sendsFile r a) = true
  · rw [if_pos h1]
  rw [if_neg h1] at h ⊢
  by_cases h2 : r.state ≠ .running
  · rw [if_pos h2]
  rw [if_neg h2] at h ⊢
  by_cases h3 : (r.file a).complete = true
  · rw [if_pos h3]
  rw [if_neg h3] at h ⊢
  by_cases h4 : r.output.length > BUFFER_LOW
  · rw [if_pos h4]
  rw [if_neg h4] at h ⊢
  by_cases h5 : (!(r.file a).fd) = true
  · rw [if_pos h5]
  rw [if_neg h5] at h ⊢
  cases g with
  | err x => cases h
  | ub => cases h
  | ok d =>
    simp only at h
    by_cases h6 : d.length > ChunkFile.BUF
    · rw [if_pos h6] at h; cases h
    rw [if_neg h6] at h
    by_cases h7 : d = []
    · rw [if_pos h7] at h; cases h
    · rw [if_neg h7] at h; cases h

theorem read_poll {r : R} {g : Option Bytes} (h : (Remote.read r g).1 = .ok .poll) : (Remote.read r g).2 = r := by
  unfold Remote.read at h ⊢
  by_cases h1 : r.input.length ≥ readSize r
  · rw [if_pos h1]
  rw [if_neg h1] at h ⊢
  simp only at h ⊢
  cases g with
  | none => rfl
  | some d =>
    simp only at h ⊢
    by_cases h2 : d.length > readSize r - r.input.length
    · rw [if_pos h2]
    rw [if_neg h2] at h ⊢
    by_cases h3 : d = []
    · rw [if_pos h3]
    · rw [if_neg h3] at h; cases h

theorem message_poll {W} {e : World W} {w : W} {r : R} (hs : r.state ≠ .eof) (h : (processMessage e w r).1 = .ok .poll) :
    Incomplete (processMessage e w r).2.1.input ∧ (processMessage e w r).2.1.state ≠ .eof := by
  rcases frame_or_not r.input with ⟨f, rest, hf, hi⟩ | hn
  · have hp := processMessage_frame e w r f rest hf hi hs
    have hne := dispatch_ne_poll e w r f
    generalize dispatch e w r f = z at hp hne
    obtain ⟨y, r', w'⟩ := z
    cases y with
    | ok s => simp only at hp; rw [hp] at h; exact absurd h hne
    | err _ => simp only at hp; rw [hp] at h; cases h
    | peer _ => simp only at hp; rw [hp] at h; cases h
    | ub => simp only at hp; rw [hp] at h; cases h
  · obtain ⟨_, ⟨n, h2, _⟩, _⟩ := processMessage_none e w r hn
    rw [h2]
    exact ⟨hn, hs⟩

/-- What is known of an object when it waits. -/
theorem waiting_inv {W} {e : World W} {r : R} (h : Waiting e r) : r.state ≠ .eof ∧ Incomplete r.input ∧ r.input.length < readSize r := by
  obtain ⟨w, r0, a, h, rfl⟩ := h
  unfold step' at h ⊢
  by_cases h0 : r0.state = .eof
  · rw [if_pos h0] at h; cases h
  rw [if_neg h0] at h ⊢
  simp only at h ⊢
  by_cases h1 : (start (clearBuffers r0) a.openIndex a.openArchive).1 ≠ .ok .poll
  · rw [if_pos h1] at h; exact absurd h h1
  rw [if_neg h1] at h ⊢
  have s1 := (start_st (clearBuffers r0) a.openIndex a.openArchive).state
  generalize (start (clearBuffers r0) a.openIndex a.openArchive).2 = r1 at h s1 ⊢
  by_cases h2 : (write r1 a.accepted).1 ≠ .ok .poll
  · rw [if_pos h2] at h; exact absurd h h2
  rw [if_neg h2] at h ⊢
  have s2 := (write_st r1 a.accepted).state
  generalize (write r1 a.accepted).2 = r2 at h s2 ⊢
  by_cases h3 : (sendHello r2).1 ≠ .ok .poll
  · rw [if_pos h3] at h; exact absurd h h3
  rw [if_neg h3] at h ⊢
  have s3 := (sendHello_st r2).state
  generalize (sendHello r2).2 = r3 at h s3 ⊢
  by_cases h4 : (processMessage e w r3).1 ≠ .ok .poll
  · rw [if_pos h4] at h; exact absurd h h4
  rw [if_neg h4] at h ⊢
  have h4' : (processMessage e w r3).1 = .ok .poll := Decidable.not_not.1 h4
  have hs3 : r3.state ≠ .eof := by rw [s3, s2, s1]; exact h0
  have hp := C32_progress e w r3 hs3 h4'
  simp only at hp
  obtain ⟨hi, hs4⟩ := message_poll hs3 h4'
  generalize (processMessage e w r3).2.1 = r4 at h hp hi hs4 ⊢
  by_cases h5 : (sendRequest r4).1 ≠ .ok .poll
  · rw [if_pos h5] at h; exact absurd h h5
  rw [if_neg h5] at h ⊢
  obtain ⟨q1, q2, q3⟩ := sendRequest_poll (Decidable.not_not.1 h5)
  generalize (sendRequest r4).2 = r5 at h q1 q2 q3 ⊢
  by_cases h6 : (sendFile r5 false a.indexData).1 ≠ .ok .poll
  · rw [if_pos h6] at h; exact absurd h h6
  rw [if_neg h6] at h ⊢
  have q6 := sendFile_poll (Decidable.not_not.1 h6)
  rw [q6] at h ⊢
  by_cases h7 : (sendFile r5 true a.archiveData).1 ≠ .ok .poll
  · rw [if_pos h7] at h; exact absurd h h7
  rw [if_neg h7] at h ⊢
  have q7 := sendFile_poll (Decidable.not_not.1 h7)
  rw [q7] at h ⊢
  have q8 := read_poll h
  simp only at q8 ⊢
  rw [q8]
  refine ⟨by rw [q3]; exact hs4, by rw [q1]; exact hi, ?_⟩
  have hr : readSize r5 = readSize r4 := by unfold readSize; rw [q2]
  rw [q1, hr]
  exact hp

theorem start_output (r : R) (a b) : (start r a b).2.output = r.output := by
  have ho : ∀ (r : R) (a b x), (fileOpen r a b x).2.output = r.output := by
    intro r a b x
    unfold fileOpen
    simp only
    split; · rfl
    split; · rfl
    split; · rfl
    cases a <;> cases x <;> rfl
  have hw : ∀ (r : R) (a x), (openIfWanted r a x).2.output = r.output := by
    intro r a x
    unfold openIfWanted
    split; · exact ho ..
    split; · exact ho ..
    rfl
  unfold start
  split; · rfl
  split; · rfl
  split; · rfl
  have h1 := hw r false a
  generalize openIfWanted r false a = z at h1
  obtain ⟨x, r1⟩ := z
  cases x with
  | ok _ =>
    simp only
    have h2 := hw r1 true b
    generalize openIfWanted r1 true b = z at h2
    obtain ⟨x, r2⟩ := z
    cases x <;> exact h2.trans h1
  | err _ => exact h1
  | ub => exact h1

/-- **C68.** A step does not say that it has to wait when bytes have arrived (`got`), or when there is something to send and the transport took
some of it (`accepted`). -/
theorem C68_not_idle {W} (e : World W) (w : W) (r : R) (a : Answers) (h : (step' e w r a).1 = .ok .poll) :
    a.got = none ∧ (r.output = [] ∨ a.accepted = none) := by
  unfold step' at h
  by_cases h0 : r.state = .eof
  · rw [if_pos h0] at h; cases h
  rw [if_neg h0] at h
  simp only at h
  have so := start_output (clearBuffers r) a.openIndex a.openArchive
  have s1 := (start_st (clearBuffers r) a.openIndex a.openArchive).state
  by_cases h1 : (start (clearBuffers r) a.openIndex a.openArchive).1 ≠ .ok .poll
  · rw [if_pos h1] at h; exact absurd h h1
  rw [if_neg h1] at h
  generalize (start (clearBuffers r) a.openIndex a.openArchive).2 = r1 at h so s1
  have s2 := (write_st r1 a.accepted).state
  by_cases h2 : (write r1 a.accepted).1 ≠ .ok .poll
  · rw [if_pos h2] at h; exact absurd h h2
  rw [if_neg h2] at h
  have hacc : r.output = [] ∨ a.accepted = none := by
    have h2' := Decidable.not_not.1 h2
    unfold Remote.write at h2'
    by_cases g0 : r1.output = []
    · left; rw [so] at g0; exact g0
    · rw [if_neg g0] at h2'
      right
      cases hn : a.accepted with
      | none => rfl
      | some n =>
        rw [hn] at h2'
        simp only at h2'
        by_cases g1 : n > r1.output.length
        · rw [if_pos g1] at h2'; cases h2'
        rw [if_neg g1] at h2'
        split at h2' <;> cases h2'
  refine ⟨?_, hacc⟩
  generalize (write r1 a.accepted).2 = r2 at h s2
  have s3 := (sendHello_st r2).state
  by_cases h3 : (sendHello r2).1 ≠ .ok .poll
  · rw [if_pos h3] at h; exact absurd h h3
  rw [if_neg h3] at h
  generalize (sendHello r2).2 = r3 at h s3
  by_cases h4 : (processMessage e w r3).1 ≠ .ok .poll
  · rw [if_pos h4] at h; exact absurd h h4
  rw [if_neg h4] at h
  have h4' : (processMessage e w r3).1 = .ok .poll := Decidable.not_not.1 h4
  have hs3 : r3.state ≠ .eof := by rw [s3, s2, s1]; exact h0
  have hp := C32_progress e w r3 hs3 h4'
  simp only at hp
  generalize (processMessage e w r3).2.1 = r4 at h hp
  by_cases h5 : (sendRequest r4).1 ≠ .ok .poll
  · rw [if_pos h5] at h; exact absurd h h5
  rw [if_neg h5] at h
  obtain ⟨q1, q2, _⟩ := sendRequest_poll (Decidable.not_not.1 h5)
  generalize (sendRequest r4).2 = r5 at h q1 q2
  by_cases h6 : (sendFile r5 false a.indexData).1 ≠ .ok .poll
  · rw [if_pos h6] at h; exact absurd h h6
  rw [if_neg h6, sendFile_poll (Decidable.not_not.1 h6)] at h
  by_cases h7 : (sendFile r5 true a.archiveData).1 ≠ .ok .poll
  · rw [if_pos h7] at h; exact absurd h h7
  rw [if_neg h7, sendFile_poll (Decidable.not_not.1 h7)] at h
  have hr : readSize r5 = readSize r4 := by unfold readSize; rw [q2]
  have hlt : ¬ r5.input.length ≥ readSize r5 := by rw [q1, hr]; omega
  simp only at h
  unfold Remote.read at h
  rw [if_neg hlt] at h
  cases hg : a.got with
  | none => rfl
  | some d =>
    rw [hg] at h
    simp only at h
    split at h
    · cases h
    split at h <;> cases h

/-- **C68.** One that waits waits for something, and is woken by any byte that arrives; and by room for what it has to send, if there is
something. -/
theorem C68_woken {W} (e : World W) (r : R) (h : Waiting e r) (incoming : Bytes) (room : Bool) :
    Blocked r incoming room ↔ incoming = [] ∧ (r.output = [] ∨ room = false) := by
  obtain ⟨h1, _, h3⟩ := waiting_inv h
  unfold Blocked pollSet
  rw [if_neg h1]
  simp only
  rw [if_pos h3, if_neg (by simp)]
  constructor
  · rintro ⟨ps, hp, hn⟩
    injection hp with hp
    injection hp with hp
    subst hp
    refine ⟨?_, ?_⟩
    · have := hn (.input true) (by simp)
      simpa [Ready] using this
    · by_cases ho : r.output = []
      · exact .inl ho
      · right
        have hl : r.output.length > 0 := List.length_pos_iff.2 ho
        have := hn (.output true) (by rw [if_pos hl]; simp)
        simpa [Ready] using this
  · rintro ⟨rfl, ho⟩
    refine ⟨_, rfl, ?_⟩
    intro p hp
    rcases List.mem_append.1 hp with hp | hp
    · rw [List.mem_singleton.1 hp]; exact fun h => h.2 rfl
    · by_cases hl : r.output.length > 0
      · rw [if_pos hl] at hp
        rw [List.mem_singleton.1 hp]
        rcases ho with ho | ho
        · rw [ho] at hl; simp at hl
        · exact fun h => by rw [ho] at h; cases h.2
      · rw [if_neg hl] at hp; cases hp

/-- The received bytes of one whose input is not a complete frame, when they are all of the messages of the other. -/
theorem log_all {log : List Bytes} {ms : List Msg} {recv inp : Bytes} (h : Split recv log inp) (hi : Incomplete inp)
    (hw : recv = (ms.map encode).flatten) (hf : ∀ m ∈ ms, WF m ∧ (encode m).length ≤ 16777216) : log = ms.map encode ∧ inp = [] := by
  obtain ⟨p, t, h1, h2⟩ := log_of_wire (rest := []) h (by rw [List.append_nil, hw]) hf
  subst h1 h2
  have h3 := h.1
  rw [hw, List.map_append, List.flatten_append] at h3
  have h4 := List.append_cancel_left h3
  cases t with
  | nil => exact ⟨by simp, by rw [← h4]; rfl⟩
  | cons m t =>
    exfalso
    refine hi (encode m) ⟨(t.map encode).flatten, by rw [← h4]; simp⟩ ?_
    have := (hf m (by simp)).2
    rw [encode_fr] at this ⊢
    rw [fr_length] at this
    exact fr_isFrame _ _ this

/-- **C68.** Two sides of a connection, each of which waits for the other, and nobody is woken: then nothing is on the way, nothing waits to be
sent, and each has taken all the messages of the other. In whatever way the bytes were cut, and however little (`cap`, `cap'`) the transport
holds. -/
theorem C68_no_deadlock {W V} (e : World W) (e' : World V) (w : W) (v : V) (l l' : Nat) (i b i' b' : Bool) (as as' : List Act)
    (hs : ∀ x ∈ as, Sensible x) (hs' : ∀ x ∈ as', Sensible x) (h0 : l ≠ 0) (h0' : l' ≠ 0) (h1 : l < 2 ^ 64 - 1) (h1' : l' < 2 ^ 64 - 1)
    (cap cap' : Nat) (hc : 0 < cap) (hc' : 0 < cap') (way way' : Bytes) :
    let a := (Conn.new w (R.new l i b)).run e as
    let a' := (Conn.new v (R.new l' i' b')).run e' as'
    a.sent = a'.received ++ way → a'.sent = a.received ++ way' → Waiting e a.r → Waiting e' a'.r →
    Blocked a.r way' (way.length < cap) → Blocked a'.r way (way'.length < cap') →
    way = [] ∧ way' = [] ∧ a.r.output = [] ∧ a'.r.output = [] ∧ a.r.input = [] ∧ a'.r.input = [] ∧
      ∃ ms ms' : List Msg, a'.log = ms.map encode ∧ a.log = ms'.map encode ∧ ms.filter (fun m => !isRequest m) = a.said ∧
        ms'.filter (fun m => !isRequest m) = a'.said := by
  intro a a' hw hw' hq hq' hb hb'
  obtain ⟨b1, b2⟩ := (C68_woken e a.r hq _ _).1 hb
  obtain ⟨b3, b4⟩ := (C68_woken e' a'.r hq' _ _).1 hb'
  subst b1 b3
  have o1 : a.r.output = [] := by
    rcases b2 with h | h
    · exact h
    · simp only [List.length_nil, decide_eq_false_iff_not] at h; omega
  have o2 : a'.r.output = [] := by
    rcases b4 with h | h
    · exact h
    · simp only [List.length_nil, decide_eq_false_iff_not] at h; omega
  rw [List.append_nil] at hw hw'
  obtain ⟨ms, m1, m2, m3⟩ := C48_sent e w l i b as hs h0 h1
  obtain ⟨ms', n1, n2, n3⟩ := C48_sent e' v l' i' b' as' hs' h0' h1'
  have m1 : a.sent ++ a.r.output = (ms.map encode).flatten := m1
  have n1 : a'.sent ++ a'.r.output = (ms'.map encode).flatten := n1
  rw [o1, List.append_nil, hw] at m1
  rw [o2, List.append_nil, hw'] at n1
  obtain ⟨g1, g2⟩ := log_all (C32_stream e' v l' i' b' as') (waiting_inv hq').2.1 m1 m2
  obtain ⟨k1, k2⟩ := log_all (C32_stream e w l i b as) (waiting_inv hq).2.1 n1 n2
  exact ⟨rfl, rfl, o1, o2, k2, g2, ms, ms', g1, k1, m3, n3⟩

/-- **C68.** Several remotes are waited for together: whatever any of them is waiting for is asked for. -/
theorem C68_together (rs : List R) (n : Nat) (hn : n < rs.length) : ∃ ps, syncPollSet rs = .ok ps ∧
    (PollFd.input (rs[n].input.length < readSize rs[n]) ∈ (ps.filter (·.1 = n)).map (·.2)) ∧
    (PollFd.output (rs[n].output ≠ []) ∈ (ps.filter (·.1 = n)).map (·.2)) := by
  unfold syncPollSet
  rw [if_neg (by rintro rfl; simp at hn)]
  refine ⟨_, rfl, ?_, ?_⟩
  · refine List.mem_map.2 ⟨(n, _), List.mem_filter.2 ⟨List.mem_flatMap.2 ⟨(rs[n], n), ?_, List.mem_map.2 ⟨_, List.mem_cons_self, rfl⟩⟩, by simp⟩, rfl⟩
    rw [List.mem_zipIdx_iff_getElem?]; simp [hn]
  · refine List.mem_map.2 ⟨(n, .output (ioEvents rs[n]).2), List.mem_filter.2 ⟨List.mem_flatMap.2 ⟨(rs[n], n), ?_, List.mem_map.2 ⟨_, List.mem_cons_of_mem _ List.mem_cons_self, rfl⟩⟩, by simp⟩, ?_⟩
    · rw [List.mem_zipIdx_iff_getElem?]; simp [hn]
    · unfold ioEvents; cases rs[n].output <;> simp

theorem told_request (high : Bool) : ∀ (ids : List Bytes) (r : R) {s : Step}, (processRequest r high ids).1 = .ok s → s = .request
  | [], r, s, h => by injection h with h; exact h.symm
  | id :: ids, r, s, h => by
    unfold processRequest at h
    generalize enqueue r.queue id high false = z at h
    obtain ⟨x, q⟩ := z
    cases x with
    | ok _ => exact told_request high ids _ h
    | err _ => cases h
    | ub => cases h

/-- **C48.** What the caller is told of a message that was taken: of requests, of data and ends of files, of chunks that are new, of the end. -/
theorem C48_told {W} (e : World W) (w : W) (r : R) (m : Msg) (s : Step) (h : (Remote.process e w r m).1 = .ok s) :
    match m with
    | .hello _ => s = .step
    | .file a _ => s = if a then .readArchive else .readIndex
    | .fileEof a => s = if a then .readArchiveEof else .readIndexEof
    | .request _ _ => s = .request
    | .chunk _ _ _ => s = .chunk ∨ s = .step
    | .missing _ => s = .chunk ∨ s = .step
    | .goodbye => s = .finished
    | .abort _ _ => False := by
  unfold Remote.process at h
  cases m with
  | hello f =>
    simp only [processHello] at h ⊢
    repeat' split at h
    all_goals first | exact (by injection h with h; exact h.symm) | cases h
  | file a d =>
    simp only [processFile] at h ⊢
    by_cases h1 : (r.file a).complete = true
    · rw [if_pos h1] at h; cases h
    rw [if_neg h1] at h
    by_cases h2 : (r.file a).fd = true
    · rw [if_pos h2] at h
      cases hw : e.write w a d with
      | mk x w' => rw [hw] at h; cases x <;> first | exact (by injection h with h; exact h.symm) | cases h
    · rw [if_neg h2] at h; injection h with h; exact h.symm
  | fileEof a =>
    simp only [processFileEof] at h ⊢
    by_cases h1 : (r.file a).complete = true
    · rw [if_pos h1] at h; cases h
    · rw [if_neg h1] at h; injection h with h; exact h.symm
  | request high ids => exact told_request high ids r h
  | chunk id c d =>
    simp only [processChunk] at h ⊢
    by_cases h1 : (!r.queue.cache) = true
    · rw [if_pos h1] at h; cases h
    rw [if_neg h1] at h
    cases hw : e.save w id (if c then .compressed else .uncompressed) d with
    | mk x w' => 
      rw [hw] at h
      cases x with
      | ok _ => injection h with h; exact .inl h.symm
      | ub => cases h
      | err y => cases y <;> first | exact (by injection h with h; exact .inr h.symm) | cases h
  | missing id =>
    simp only [processMissing] at h ⊢
    by_cases h1 : (!r.queue.cache) = true
    · rw [if_pos h1] at h; cases h
    rw [if_neg h1] at h
    cases hw : e.missing w id with
    | mk x w' =>
      rw [hw] at h
      cases x with
      | ok _ => injection h with h; exact .inl h.symm
      | ub => cases h
      | err y => cases y <;> first | exact (by injection h with h; exact .inr h.symm) | cases h
  | goodbye =>
    simp only [processGoodbye] at h ⊢
    generalize fileInstall e w r false = z at h
    obtain ⟨x, r1, w1⟩ := z
    cases x with
    | err _ => cases h
    | ub => cases h
    | ok _ =>
      simp only at h
      generalize fileInstall e w1 r1 true = z at h
      obtain ⟨x, r2, w2⟩ := z
      cases x with
      | err _ => cases h
      | ub => cases h
      | ok _ => injection h with h; exact h.symm
  | abort x t =>
    simp only [processAbort] at h
    split at h <;> cases h

/-- **C48.** The greeting is sent at most once, in any history. -/
theorem C48_hello_once {W} (e : World W) (w : W) (l : Nat) (i b : Bool) (as : List Act) :
    ((((Conn.new w (R.new l i b)).run e as).said).filter (fun m => match m with | .hello _ => true | _ => false)).length ≤ 1 := by
  have h := Hello.run_hello e as (Conn.new w (R.new l i b)) rfl
  have h1 : (fun m : Msg => match m with | .hello _ => true | _ => false) = Hello.isHello := by funext m; cases m <;> rfl
  rw [h1, h]
  split <;> omega

/-- **C48.** The last message, GOODBYE or ABORT, is sent at most once, in any history. -/
theorem C48_bye_once {W} (e : World W) (w : W) (l : Nat) (i b : Bool) (as : List Act) :
    ((((Conn.new w (R.new l i b)).run e as).said).filter (fun m => match m with | .goodbye => true | .abort _ _ => true | _ => false)).length ≤ 1 := by
  have h := Bye.run_bye e as (Conn.new w (R.new l i b)) rfl
  have h1 : (fun m : Msg => match m with | .goodbye => true | .abort _ _ => true | _ => false) = Bye.isEnd := by funext m; cases m <;> rfl
  rw [h1, h]
  split <;> omega

/-- **C48.** Sending is finished when the last message was said and everything was sent, and not before. -/
theorem C48_finished {W} (e : World W) (w : W) (l : Nat) (i b : Bool) (as : List Act) (n : Nat) :
    let c := (Conn.new w (R.new l i b)).run e as
    (Remote.write c.r (some n)).1 = .ok .finished ↔
      (∃ m ∈ c.said, m = .goodbye ∨ ∃ x s, m = .abort x s) ∧ c.r.output ≠ [] ∧ n = c.r.output.length := by
  intro c
  have h : (c.said.filter Bye.isEnd).length = (if c.r.sentGoodbye then 1 else 0) := Bye.run_bye e as (Conn.new w (R.new l i b)) rfl
  have hm : (∃ m ∈ c.said, m = .goodbye ∨ ∃ x s, m = .abort x s) ↔ c.r.sentGoodbye = true := by
    have h2 : c.r.sentGoodbye = true ↔ c.said.filter Bye.isEnd ≠ [] := by
      cases hg : c.r.sentGoodbye with
      | true => rw [hg] at h; simp only [if_true] at h; exact ⟨(fun _ h3 => by rw [h3] at h; cases h), fun _ => rfl⟩
      | false =>
        rw [hg] at h
        exact ⟨(fun h => by cases h), fun h3 => absurd (List.length_eq_zero_iff.1 h) h3⟩
    rw [h2]
    constructor
    · rintro ⟨m, hm, hx⟩ h3
      have : m ∈ c.said.filter Bye.isEnd := List.mem_filter.2 ⟨hm, by rcases hx with rfl | ⟨_, _, rfl⟩ <;> rfl⟩
      rw [h3] at this; cases this
    · intro h3
      obtain ⟨m, t, h4⟩ := List.exists_cons_of_ne_nil h3
      have h5 : m ∈ c.said.filter Bye.isEnd := by rw [h4]; exact List.mem_cons_self
      obtain ⟨h6, h7⟩ := List.mem_filter.1 h5
      refine ⟨m, h6, ?_⟩
      cases m <;> first | exact .inl rfl | exact .inr ⟨_, _, rfl⟩ | cases h7
  rw [hm]
  unfold Remote.write
  by_cases h0 : c.r.output = []
  · rw [if_pos h0]; exact ⟨(fun h => by cases h), fun h => absurd h0 h.2.1⟩
  rw [if_neg h0]
  simp only
  have hl : 0 < c.r.output.length := List.length_pos_iff.2 h0
  by_cases h1 : n > c.r.output.length
  · rw [if_pos h1]; exact ⟨(fun h => by cases h), fun h => by omega⟩
  rw [if_neg h1]
  have hd : c.r.output.drop n = [] ↔ n = c.r.output.length := by
    rw [List.drop_eq_nil_iff]; omega
  by_cases h2 : n = c.r.output.length
  · have hd' := hd.2 h2
    cases hg : c.r.sentGoodbye with
    | false => simp
    | true => simp [h2, h0]
  · have hd' : ¬ c.r.output.drop n = [] := fun h => h2 (hd.1 h)
    cases hg : c.r.sentGoodbye with
    | false => simp
    | true => simp [hd', h2]

/-- **C48.** Before the other side's greeting was taken, nothing but the greeting and the end of the connection is said; and no request. -/
theorem C48_not_before {W} (e : World W) (w : W) (r : R) (a : Act) (h : r.state ≠ .running) :
    (∀ m ∈ speaks r a (Remote.act e w r a).1, (∃ f, m = .hello f) ∨ m = .goodbye ∨ ∃ x s, m = .abort x s) ∧
      (a = .sendRequest → (Remote.act e w r a).2.1.output = r.output) := by
  have hc : canPutChunk r ≠ .ok true := by
    unfold canPutChunk
    by_cases h1 : r.state = .eof
    · rw [if_pos h1]; intro h; cases h
    rw [if_neg h1]
    split
    · intro h; cases h
    intro h; cases h
  have hf : ∀ a, canPutFile r a ≠ .ok true := by
    intro a
    unfold canPutFile
    split
    · intro h; cases h
    split
    · intro h; cases h
    split
    · intro h; cases h
    intro h; cases h
  constructor
  · intro m hm
    cases a with
    | sendHello =>
      left; refine ⟨r.localFlags, ?_⟩
      generalize (Remote.act e w r .sendHello).1 = x at hm
      unfold speaks at hm; split at hm <;> first | exact List.mem_singleton.1 hm | contradiction | cases hm
    | goodbye =>
      right; left
      generalize (Remote.act e w r .goodbye).1 = x at hm
      unfold speaks at hm; split at hm <;> first | exact List.mem_singleton.1 hm | contradiction | cases hm
    | abort x t =>
      right; right; refine ⟨x, t, ?_⟩
      generalize (Remote.act e w r (.abort x t)).1 = y at hm
      unfold speaks at hm; split at hm <;> first | contradiction | (rename_i he; injection he with h1 h2; subst h1 h2; exact List.mem_singleton.1 hm) | (cases hm; done)
    | sendFile a g =>
      exfalso
      have h2 : (Remote.act e w r (.sendFile a g)).1 = .ok .poll := by
        show (sendFile r a g).1 = _
        unfold sendFile
        split
        · rfl
        rfl
      rw [h2] at hm; cases g <;> cases hm
    | putChunk id c d =>
      exfalso
      have h2 : ∀ s, (Remote.act e w r (.putChunk id c d)).1 ≠ .ok s := by
        intro s
        show Rc.ofRes (putChunk r id c d).1 ≠ _
        unfold putChunk
        repeat' split
        all_goals first | contradiction | (intro h; cases h)
      cases hx : (Remote.act e w r (.putChunk id c d)).1 with
      | ok s => exact h2 s hx
      | err _ => rw [hx] at hm; cases hm
      | peer _ => rw [hx] at hm; cases hm
      | ub => rw [hx] at hm; cases hm
    | putMissing id =>
      exfalso
      have h2 : ∀ s, (Remote.act e w r (.putMissing id)).1 ≠ .ok s := by
        intro s
        show Rc.ofRes (putMissing r id).1 ≠ _
        unfold putMissing
        repeat' split
        all_goals first | contradiction | (intro h; cases h)
      cases hx : (Remote.act e w r (.putMissing id)).1 with
      | ok s => exact h2 s hx
      | err _ => rw [hx] at hm; cases hm
      | peer _ => rw [hx] at hm; cases hm
      | ub => rw [hx] at hm; cases hm
    | putFile a d =>
      exfalso
      have h2 : ∀ s, (Remote.act e w r (.putFile a d)).1 ≠ .ok s := by
        intro s
        show Rc.ofRes (putFile r a d).1 ≠ _
        have := hf a
        unfold putFile
        repeat' split
        all_goals first | contradiction | (intro h; cases h)
      cases hx : (Remote.act e w r (.putFile a d)).1 with
      | ok s => exact h2 s hx
      | err _ => rw [hx] at hm; cases hm
      | peer _ => rw [hx] at hm; cases hm
      | ub => rw [hx] at hm; cases hm
    | putFileEof a =>
      exfalso
      have h2 : ∀ s, (Remote.act e w r (.putFileEof a)).1 ≠ .ok s := by
        intro s
        show Rc.ofRes (putFileEof r a).1 ≠ _
        have := hf a
        unfold putFileEof
        repeat' split
        all_goals first | contradiction | (intro h; cases h)
      cases hx : (Remote.act e w r (.putFileEof a)).1 with
      | ok s => exact h2 s hx
      | err _ => rw [hx] at hm; cases hm
      | peer _ => rw [hx] at hm; cases hm
      | ub => rw [hx] at hm; cases hm
    | _ => cases hm
  · rintro rfl
    show (sendRequest r).2.output = _
    unfold sendRequest
    split
    · rfl
    rfl

/-- **C49.** What the caller reads of the index or archive: data as long as there is some, and the end only when the other side has said so. -/
theorem C49_read_end (r : R) (a : Bool) :
    (readFile r a = .ok none → (r.file a).complete = true ∧ (r.file a).buffer = []) ∧
    (∀ d, readFile r a = .ok (some d) → d = (r.file a).buffer ∧ d ≠ []) ∧
    (readFile r a = .err .EAGAIN → (r.file a).complete = false) := by
  unfold readFile
  split
  · exact ⟨(fun h => by cases h), (fun _ h => by cases h), (fun h => by cases h)⟩
  simp only
  split
  · exact ⟨(fun h => by cases h), (fun _ h => by cases h), (fun h => by cases h)⟩
  by_cases h1 : (r.file a).buffer = []
  · rw [if_pos h1]
    cases (r.file a).complete <;> simp only [if_true, Bool.false_eq_true, if_false]
    · exact ⟨(fun h => by cases h), (fun _ h => by cases h), fun _ => trivial⟩
    · exact ⟨fun _ => ⟨trivial, h1⟩, (fun _ h => by cases h), (fun h => by cases h)⟩
  · rw [if_neg h1]
    refine ⟨(fun h => by cases h), fun d h => ?_, (fun h => by cases h)⟩
    injection h with h; injection h with h
    exact ⟨h.symm, h ▸ h1⟩

/-- **C49.** Data of the index or archive that the object keeps for the caller after a step is that of one message that was taken in this very
step, and the caller was told: none is left from before, and none is kept back. -/
theorem C49_fresh {W} (e : World W) (w : W) (r : R) (ans : Answers) (a : Bool) (hs : r.state ≠ .eof)
    (hb : ((step' e w r ans).2.1.file a).buffer ≠ []) :
    (step' e w r ans).1 = .ok (if a then .readArchive else .readIndex) ∧
      ∃ rest, r.input = encode (.file a ((step' e w r ans).2.1.file a).buffer) ++ rest := by
  unfold step' at hb ⊢
  rw [if_neg hs] at hb ⊢
  simp only at hb ⊢
  have c0 : ((clearBuffers r).file a).buffer = [] := by cases a <;> rfl
  have b1 := Buf.start_sb (clearBuffers r) ans.openIndex ans.openArchive a
  have n1 := (start_in (clearBuffers r) ans.openIndex ans.openArchive).1
  have n0 : (clearBuffers r).input = r.input := rfl
  rw [c0] at b1
  rw [n0] at n1
  by_cases h1 : (start (clearBuffers r) ans.openIndex ans.openArchive).1 ≠ .ok .poll
  · rw [if_pos h1] at hb; exact absurd b1 hb
  rw [if_neg h1] at hb ⊢
  generalize (start (clearBuffers r) ans.openIndex ans.openArchive).2 = r1 at hb b1 n1 ⊢
  have b2 := Buf.write_sb r1 ans.accepted a
  have n2 := (write_in r1 ans.accepted).1
  rw [b1] at b2
  rw [n1] at n2
  by_cases h2 : (write r1 ans.accepted).1 ≠ .ok .poll
  · rw [if_pos h2] at hb; exact absurd b2 hb
  rw [if_neg h2] at hb ⊢
  generalize (write r1 ans.accepted).2 = r2 at hb b2 n2 ⊢
  have b3 := Buf.sendHello_sb r2 a
  have n3 := (sendHello_in r2).1
  rw [b2] at b3
  rw [n2] at n3
  by_cases h3 : (sendHello r2).1 ≠ .ok .poll
  · rw [if_pos h3] at hb; exact absurd b3 hb
  rw [if_neg h3] at hb ⊢
  generalize (sendHello r2).2 = r3 at hb b3 n3 ⊢
  rcases Buf.message_sb e w r3 with h | ⟨a', d, rest, m1, m2, m3⟩
  · have b4 := h a
    rw [b3] at b4
    by_cases h4 : (processMessage e w r3).1 ≠ .ok .poll
    · rw [if_pos h4] at hb; exact absurd b4 hb
    rw [if_neg h4] at hb
    generalize (processMessage e w r3).2.1 = r4 at hb b4
    exfalso
    have b5 := Buf.sendRequest_sb r4 a
    rw [b4] at b5
    by_cases h5 : (sendRequest r4).1 ≠ .ok .poll
    · rw [if_pos h5] at hb; exact hb b5
    rw [if_neg h5] at hb
    generalize (sendRequest r4).2 = r5 at hb b5
    have b6 := Buf.sendFile_sb r5 false ans.indexData a
    rw [b5] at b6
    by_cases h6 : (sendFile r5 false ans.indexData).1 ≠ .ok .poll
    · rw [if_pos h6] at hb; exact hb b6
    rw [if_neg h6] at hb
    generalize (sendFile r5 false ans.indexData).2 = r6 at hb b6
    have b7 := Buf.sendFile_sb r6 true ans.archiveData a
    rw [b6] at b7
    by_cases h7 : (sendFile r6 true ans.archiveData).1 ≠ .ok .poll
    · rw [if_pos h7] at hb; exact hb b7
    rw [if_neg h7] at hb
    generalize (sendFile r6 true ans.archiveData).2 = r7 at hb b7
    have b8 := Buf.read_sb r7 ans.got a
    rw [b7] at b8
    exact hb b8
  · have h4 : (processMessage e w r3).1 ≠ .ok .poll := by
      rw [m2]; cases a' <;> (intro h; cases h)
    rw [if_pos h4] at hb ⊢
    have b4 := m3 a
    rw [b3] at b4
    by_cases ha : a = a'
    · subst ha
      rw [if_pos rfl] at b4
      refine ⟨m2, rest, ?_⟩
      rw [b4]
      rw [← n3]; exact m1
    · rw [if_neg ha] at b4
      exact absurd b4 hb

/-- What the system calls answer when there is nothing to do. -/
def idle : Answers := ⟨.ok (), .ok (), .ok [], .ok [], none, none⟩

/-- A side that takes chunks (64) or gives them (1), after the greetings. -/
def greeted (other : Nat) : List Act := [.sendHello, .write (some 24), .read (some (encode (.hello other))), .message]

/-- The client. -/
def client : Conn Disk := (Conn.new disk0 (R.new 64 false false)).run disk (greeted 1)
/-- The server. -/
def server : Conn Disk := (Conn.new disk0 (R.new 1 false false)).run disk (greeted 64)

theorem same {x y : R} (h1 : x.state = y.state ∧ x.localFlags = y.localFlags ∧ x.remoteFlags = y.remoteFlags ∧ x.input = y.input ∧ x.frameSize = y.frameSize ∧
    x.output = y.output ∧ x.index = y.index ∧ x.archive = y.archive ∧ x.lastChunk = y.lastChunk ∧
    x.sentHello = y.sentHello ∧ x.sentGoodbye = y.sentGoodbye) (h2 : x.queue = y.queue) : x = y := by
  cases x; cases y
  simp only at h1 h2
  obtain ⟨rfl, rfl, rfl, rfl, rfl, rfl, rfl, rfl, rfl, rfl, rfl⟩ := h1
  rw [h2]

theorem client_waits : Waiting disk client.r := ⟨disk0, client.r, idle, by decide +kernel, same (by decide +kernel) (by rfl)⟩
theorem server_waits : Waiting disk server.r := ⟨disk0, server.r, idle, by decide +kernel, same (by decide +kernel) (by rfl)⟩

/-- All hypotheses of `C68_no_deadlock` are met by a client and a server that have greeted one another and have nothing to do. -/
example : client.sent = server.received ++ [] ∧ server.sent = client.received ++ [] ∧ Waiting disk client.r ∧ Waiting disk server.r ∧
      Blocked client.r [] (([] : Bytes).length < 100) ∧ Blocked server.r [] (([] : Bytes).length < 100) ∧
      (∀ x ∈ greeted 1, Sensible x) ∧ (∀ x ∈ greeted 64, Sensible x) := by
  have o1 : client.r.output = [] := by decide +kernel
  have o2 : server.r.output = [] := by decide +kernel
  exact ⟨by decide +kernel, by decide +kernel, client_waits, server_waits, (C68_woken disk _ client_waits _ _).2 ⟨rfl, .inl o1⟩,
    (C68_woken disk _ server_waits _ _).2 ⟨rfl, .inl o2⟩, by simp [greeted, Sensible], by simp [greeted, Sensible]⟩

/-- And one of them is woken by a byte. -/
example : ¬ Blocked client.r [0] true := by
  intro h
  have := (C68_woken disk _ client_waits _ _).1 h
  cases this.1

/-- `C49_fresh` speaks of a real case: a client that wants the index, no file, and data arrives. -/
def reader : Conn Disk := (Conn.new disk0 (R.new 128 false false)).run disk [.sendHello, .write (some 24), .read (some (encode (.hello 4))), .message,
  .read (some (encode (.file false [1, 2, 3]) ++ [7]))]
example : ((step' disk disk0 reader.r idle).2.1.file false).buffer = [1, 2, 3] ∧ reader.r.state ≠ .eof := by decide +kernel

/-- `C48_finished` too: one that says goodbye. -/
example : (Remote.write ((Conn.new disk0 (R.new 128 false false)).run disk [.sendHello, .write (some 24), .goodbye]).r (some 16)).1 =
    .ok .finished := by decide +kernel

end Casync.Remote.Props
