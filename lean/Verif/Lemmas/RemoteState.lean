import Verif.Lemmas.RemoteFile
/-!
What stays the same on a connection, and the sending side of a file transfer.
-/
namespace Casync.Remote
open Casync ChunkFile Spec

/-- State and flags stay, and complete files stay complete. -/
structure St (r r' : R) : Prop where
  state : r'.state = r.state
  remote : r'.remoteFlags = r.remoteFlags
  localF : r'.localFlags = r.localFlags
  compl : ∀ a, (r.file a).complete = true → (r'.file a).complete = true

theorem st_refl (r : R) : St r r := ⟨rfl, rfl, rfl, fun _ h => h⟩

theorem St.trans {a b c : R} (h : St a b) (h' : St b c) : St a c :=
  ⟨h'.state.trans h.state, h'.remote.trans h.remote, h'.localF.trans h.localF, fun x hx => h'.compl x (h.compl x hx)⟩

theorem st_of {r r' : R} (h1 : r'.state = r.state) (h2 : r'.remoteFlags = r.remoteFlags) (h3 : r'.localFlags = r.localFlags)
    (h4 : r'.index = r.index) (h5 : r'.archive = r.archive) : St r r' := ⟨h1, h2, h3, fun a h => by rw [file_congr h4 h5]; exact h⟩

theorem st_setFile (r : R) (a : Bool) (f : File) (h : (r.file a).complete = true → f.complete = true) : St r (r.setFile a f) :=
  ⟨by cases a <;> rfl, by cases a <;> rfl, by cases a <;> rfl, fun y hy => by
    rw [file_setFile]
    by_cases e : y = a
    · rw [if_pos e]; subst e; exact h hy
    · rw [if_neg e]; exact hy⟩

theorem fileOpen_st (r : R) (a b x) : St r (fileOpen r a b x).2 := by
  unfold fileOpen
  simp only
  split; · exact st_refl r
  split; · exact st_refl r
  split; · exact st_refl r
  cases b <;> cases x <;> exact st_setFile r a _ (fun h => h)

theorem openIfWanted_st (r : R) (a x) : St r (openIfWanted r a x).2 := by
  unfold openIfWanted
  split; · exact fileOpen_st ..
  split; · exact fileOpen_st ..
  exact st_refl r

theorem start_st (r : R) (a b) : St r (start r a b).2 := by
  unfold start
  split; · exact st_refl r
  split; · exact st_refl r
  split; · exact st_refl r
  have h1 := openIfWanted_st r false a
  generalize openIfWanted r false a = z at h1
  obtain ⟨x, r1⟩ := z
  cases x with
  | ok _ =>
    simp only
    have h2 := openIfWanted_st r1 true b
    generalize openIfWanted r1 true b = z at h2
    obtain ⟨x, r2⟩ := z
    cases x <;> exact h1.trans h2
  | err _ => exact h1
  | ub => exact h1

theorem write_st (r : R) (n) : St r (write r n).2 := by
  unfold write
  split; · exact st_refl r
  split; · exact st_refl r
  split; · exact st_refl r
  simp only
  split <;> exact (st_of rfl rfl rfl rfl rfl)

theorem sendHello_st (r : R) : St r (sendHello r).2 := by
  unfold sendHello
  split <;> exact (st_of rfl rfl rfl rfl rfl)

theorem sendFile_st (r : R) (a d) : St r (sendFile r a d).2 := by
  unfold sendFile
  split; · exact st_refl r
  split; · exact st_refl r
  split; · exact st_refl r
  split; · exact st_refl r
  split; · exact st_refl r
  cases d with
  | err _ => exact st_refl r
  | ub => exact st_refl r
  | ok d =>
    simp only
    split; · exact st_refl r
    split
    · cases a
      · exact ⟨rfl, rfl, rfl, fun y h => by cases y; rfl; exact h⟩
      · exact ⟨rfl, rfl, rfl, fun y h => by cases y; exact h; rfl⟩
    · exact (st_of rfl rfl rfl rfl rfl)

theorem sendRequest_st (r : R) : St r (sendRequest r).2 := by
  unfold sendRequest
  split; · exact st_refl r
  split; · exact st_refl r
  split; · exact st_refl r
  simp only
  generalize requestLoop 4096 r.queue none none [] = z
  obtain ⟨x, b, ids, q⟩ := z
  cases x <;> exact (st_of rfl rfl rfl rfl rfl)

theorem putChunk_st (r : R) (id c d) : St r (putChunk r id c d).2 := by
  unfold putChunk
  split; · exact st_refl r
  split; · exact st_refl r
  split; · exact st_refl r
  split; · exact st_refl r
  cases canPutChunk r with
  | err _ => exact st_refl r
  | ub => exact st_refl r
  | ok b =>
    cases b with
    | false => exact st_refl r
    | true => simp only; split <;> exact (st_of rfl rfl rfl rfl rfl)

theorem putMissing_st (r : R) (id) : St r (putMissing r id).2 := by
  unfold putMissing
  split; · exact st_refl r
  cases canPutChunk r with
  | err _ => exact st_refl r
  | ub => exact st_refl r
  | ok b => cases b <;> exact (st_of rfl rfl rfl rfl rfl)

theorem putFile_st (r : R) (a d) : St r (putFile r a d).2 := by
  unfold putFile
  split; · exact st_refl r
  split; · exact st_refl r
  cases canPutFile r a with
  | err _ => exact st_refl r
  | ub => exact st_refl r
  | ok b =>
    cases b with
    | false => exact st_refl r
    | true => simp only; split <;> exact (st_of rfl rfl rfl rfl rfl)

theorem putFileEof_st (r : R) (a) : St r (putFileEof r a).2 := by
  unfold putFileEof
  split; · exact st_refl r
  cases canPutFile r a with
  | err _ => exact st_refl r
  | ub => exact st_refl r
  | ok b =>
    cases b with
    | false => exact st_refl r
    | true =>
      cases a
      · exact ⟨rfl, rfl, rfl, fun y h => by cases y; rfl; exact h⟩
      · exact ⟨rfl, rfl, rfl, fun y h => by cases y; exact h; rfl⟩

theorem fileInstall_st {W} (e : World W) (w : W) (r : R) (a) : St r (fileInstall e w r a).2.1 := by
  unfold fileInstall
  simp only
  split; · exact st_refl r
  cases e.rename w a with
  | mk x w' => cases x <;> first | exact st_setFile r a _ (fun h => h) | exact st_refl r

theorem goodbye_st {W} (e : World W) (w : W) (r : R) : St r (goodbye e w r).2.1 := by
  unfold goodbye
  split; · exact st_refl r
  split; · exact st_refl r
  have h1 := fileInstall_st e w r false
  generalize fileInstall e w r false = z at h1
  obtain ⟨x, r1, w1⟩ := z
  cases x with
  | ok _ =>
    simp only
    have h2 := fileInstall_st e w1 r1 true
    generalize fileInstall e w1 r1 true = z at h2
    obtain ⟨x, r2, w2⟩ := z
    cases x with
    | ok _ => exact (h1.trans h2).trans (st_of rfl rfl rfl rfl rfl)
    | err _ => exact h1.trans h2
    | ub => exact h1.trans h2
  | err _ => exact h1
  | ub => exact h1

theorem abort_st (r : R) (x s) : St r (abort r x s).2 := by
  unfold abort
  split; · exact st_refl r
  split; · exact st_refl r
  split; · exact st_refl r
  exact (st_of rfl rfl rfl rfl rfl)

theorem read_st (r : R) (d) : St r (read r d).2 := by
  unfold read
  split; · exact st_refl r
  cases d with
  | none => exact st_refl r
  | some d =>
    simp only
    split; · exact st_refl r
    split; · exact st_refl r
    exact st_of rfl rfl rfl rfl rfl

/-- Only a message changes the state or the flags of the peer. -/
theorem act_st {W} (e : World W) (w : W) (r : R) (a : Act) (h2 : a ≠ .message) : St r (act e w r a).2.1 := by
  cases a with
  | clear => exact ⟨rfl, rfl, rfl, fun y h => by cases y <;> exact h⟩
  | start a b => exact start_st ..
  | write n => exact write_st ..
  | sendHello => exact sendHello_st ..
  | message => exact absurd rfl h2
  | sendRequest => exact sendRequest_st ..
  | sendFile a d => exact sendFile_st ..
  | read d => exact read_st ..
  | putChunk id c d => exact putChunk_st ..
  | putMissing id => exact putMissing_st ..
  | putFile a d => exact putFile_st ..
  | putFileEof a => exact putFileEof_st ..
  | goodbye => exact goodbye_st ..
  | abort x s => exact abort_st ..
  | queue o => exact st_of rfl rfl rfl rfl rfl

theorem has_bit (f k : Nat) : has f (2 ^ k) = f.testBit k := by
  unfold has
  cases h : f.testBit k with
  | true =>
    have : f &&& 2 ^ k ≠ 0 := by
      intro h0
      have := congrArg (fun n => n.testBit k) h0
      simp [h] at this
    simpa using this
  | false =>
    have : f &&& 2 ^ k = 0 := by
      apply Nat.eq_of_testBit_eq
      intro i
      rw [Nat.testBit_and, Nat.testBit_two_pow, Nat.zero_testBit]
      by_cases e : k = i
      · subst e; rw [h]; rfl
      · simp [e]
    rw [this]; rfl

theorem compatible_iff (ops services : Nat) : compatible ops services = true ↔ Served ops services := by
  unfold compatible Served
  have b0 : has services READABLE_STORE = services.testBit 0 := has_bit services 0
  have b1 : has services WRITABLE_STORE = services.testBit 1 := has_bit services 1
  have b2 : has services READABLE_INDEX = services.testBit 2 := has_bit services 2
  have b3 : has services WRITABLE_INDEX = services.testBit 3 := has_bit services 3
  have b4 : has services READABLE_ARCHIVE = services.testBit 4 := has_bit services 4
  have b5 : has services WRITABLE_ARCHIVE = services.testBit 5 := has_bit services 5
  have b6 : has ops PULL_CHUNKS = ops.testBit 6 := has_bit ops 6
  have b7 : has ops PULL_INDEX = ops.testBit 7 := has_bit ops 7
  have b8 : has ops PULL_ARCHIVE = ops.testBit 8 := has_bit ops 8
  have b9 : has ops PUSH_CHUNKS = ops.testBit 9 := has_bit ops 9
  have b10 : has ops PUSH_INDEX = ops.testBit 10 := has_bit ops 10
  have b12 : has ops PUSH_ARCHIVE = ops.testBit 12 := has_bit ops 12
  rw [b0, b1, b2, b3, b4, b5, b6, b7, b8, b9, b10, b12]
  cases services.testBit 0 <;> cases services.testBit 1 <;> cases services.testBit 2 <;> cases services.testBit 3 <;>
    cases services.testBit 4 <;> cases services.testBit 5 <;> cases ops.testBit 6 <;> cases ops.testBit 7 <;> cases ops.testBit 8 <;>
    cases ops.testBit 9 <;> cases ops.testBit 10 <;> cases ops.testBit 12 <;> decide

theorem permitted_iff (r : R) (m : Msg) : allowed r (typeOf m) = some true ↔ Permitted r.state r.localFlags r.remoteFlags m := by
  have l6 : has r.localFlags PULL_CHUNKS = r.localFlags.testBit 6 := has_bit _ 6
  have l7 : has r.localFlags PULL_INDEX = r.localFlags.testBit 7 := has_bit _ 7
  have l8 : has r.localFlags PULL_ARCHIVE = r.localFlags.testBit 8 := has_bit _ 8
  have l9 : has r.localFlags PUSH_CHUNKS = r.localFlags.testBit 9 := has_bit _ 9
  have m6 : has r.remoteFlags PULL_CHUNKS = r.remoteFlags.testBit 6 := has_bit _ 6
  have m9 : has r.remoteFlags PUSH_CHUNKS = r.remoteFlags.testBit 9 := has_bit _ 9
  have m10 : has r.remoteFlags PUSH_INDEX = r.remoteFlags.testBit 10 := has_bit _ 10
  have m12 : has r.remoteFlags PUSH_ARCHIVE = r.remoteFlags.testBit 12 := has_bit _ 12
  have ix : some (decide (r.state = .running) && (has r.localFlags PULL_INDEX || has r.remoteFlags PUSH_INDEX)) = some true ↔
      r.state = .running ∧ (r.localFlags.testBit 7 ∨ r.remoteFlags.testBit 10) := by rw [l7, m10]; simp
  have ar : some (decide (r.state = .running) && (has r.localFlags PULL_ARCHIVE || has r.remoteFlags PUSH_ARCHIVE)) = some true ↔
      r.state = .running ∧ (r.localFlags.testBit 8 ∨ r.remoteFlags.testBit 12) := by rw [l8, m12]; simp
  have rq : some (decide (r.state = .running) && (has r.localFlags PUSH_CHUNKS || has r.remoteFlags PULL_CHUNKS)) = some true ↔
      r.state = .running ∧ (r.localFlags.testBit 9 ∨ r.remoteFlags.testBit 6) := by rw [l9, m6]; simp
  have ch : some (decide (r.state = .running) && (has r.localFlags PULL_CHUNKS || has r.remoteFlags PUSH_CHUNKS)) = some true ↔
      r.state = .running ∧ (r.localFlags.testBit 6 ∨ r.remoteFlags.testBit 9) := by rw [l6, m9]; simp
  cases m with
  | hello f =>
    show some (decide (r.state = .hello)) = some true ↔ r.state = .hello
    simp
  | file a d => cases a; exact ix; exact ar
  | fileEof a => cases a; exact ix; exact ar
  | request _ _ => exact rq
  | chunk _ _ _ => exact ch
  | missing _ => exact ch
  | goodbye =>
    show some (decide (r.state = .running)) = some true ↔ r.state = .running
    simp
  | abort _ _ => exact ⟨fun _ => trivial, fun _ => rfl⟩

/-- The flags fit. -/
def Good (r : R) : Prop := r.state ≠ .hello → Served r.remoteFlags r.localFlags ∧ Served r.localFlags r.remoteFlags ∧ r.remoteFlags ≤ 0x1fff ∧
  (r.remoteFlags ||| r.localFlags) &&& 0x17c0 ≠ 0

theorem good_st {r r' : R} (h : Good r) (s : St r r') : Good r' := by
  intro hs
  rw [s.remote, s.localF]
  exact h (by rw [← s.state]; exact hs)

theorem processHello_ok (r r' : R) (fl : Nat) (s : Step) : processHello r fl = (.ok s, r') ↔
    s = .step ∧ r' = { r with remoteFlags := fl, state := .running } ∧ fl ≤ 0x1fff ∧
    (fl.testBit 11 → fl.testBit 10 ∧ fl.testBit 9) ∧ Served fl r.localFlags ∧ Served r.localFlags fl ∧
    (fl ||| r.localFlags) &&& 0x17c0 ≠ 0 := by
  have b9 : has fl PUSH_CHUNKS = fl.testBit 9 := has_bit fl 9
  have b10 : has fl PUSH_INDEX = fl.testBit 10 := has_bit fl 10
  have b11 : has fl PUSH_INDEX_CHUNKS = fl.testBit 11 := has_bit fl 11
  unfold processHello
  by_cases h1 : fl > FLAGS_MAX
  · rw [if_pos h1]
    exact ⟨(fun h => by injection h with h; cases h), fun ⟨_, _, h, _⟩ => absurd h1 (Nat.not_lt.2 h)⟩
  rw [if_neg h1, b9, b10, b11]
  by_cases h2 : (fl.testBit 11 && !(fl.testBit 10 && fl.testBit 9)) = true
  · rw [if_pos h2]
    refine ⟨(fun h => by injection h with h; cases h), fun ⟨_, _, _, h, _⟩ => ?_⟩
    simp only [Bool.and_eq_true, Bool.not_eq_true'] at h2
    have := h h2.1
    rw [this.1, this.2] at h2
    cases h2.2
  rw [if_neg h2]
  have h2' : fl.testBit 11 → fl.testBit 10 ∧ fl.testBit 9 := by
    intro h
    rw [h] at h2
    simpa using h2
  by_cases h3 : (!compatible fl r.localFlags) = true
  · rw [if_pos h3]
    refine ⟨(fun h => by injection h with h; cases h), fun ⟨_, _, _, _, h, _⟩ => ?_⟩
    rw [(compatible_iff _ _).2 h] at h3; cases h3
  rw [if_neg h3]
  by_cases h4 : (!compatible r.localFlags fl) = true
  · rw [if_pos h4]
    refine ⟨(fun h => by injection h with h; cases h), fun ⟨_, _, _, _, _, h, _⟩ => ?_⟩
    rw [(compatible_iff _ _).2 h] at h4; cases h4
  rw [if_neg h4]
  by_cases h5 : (fl ||| r.localFlags) &&& OPERATIONS = 0
  · rw [if_pos h5]
    exact ⟨(fun h => by injection h with h; cases h), fun ⟨_, _, _, _, _, _, h⟩ => absurd h5 h⟩
  rw [if_neg h5]
  constructor
  · intro h
    injection h with g1 g2
    injection g1 with g1
    exact ⟨g1.symm, g2.symm, Nat.not_lt.1 h1, h2', (compatible_iff _ _).1 (by simpa using h3), (compatible_iff _ _).1 (by simpa using h4), h5⟩
  · rintro ⟨rfl, rfl, _⟩; rfl

theorem processGoodbye_st {W} (e : World W) (w : W) (r : R) : ∀ a, (r.file a).complete = true → ((processGoodbye e w r).2.1.file a).complete = true := by
  intro a ha
  unfold processGoodbye
  have h1 := fileInstall_st e w r false
  generalize fileInstall e w r false = z at h1
  obtain ⟨x, r1, w1⟩ := z
  cases x with
  | err _ => exact h1.compl a ha
  | ub => exact h1.compl a ha
  | ok _ =>
    simp only
    have h2 := fileInstall_st e w1 r1 true
    generalize fileInstall e w1 r1 true = z at h2
    obtain ⟨x, r2, w2⟩ := z
    cases x with
    | err _ => exact (h1.trans h2).compl a ha
    | ub => exact (h1.trans h2).compl a ha
    | ok _ =>
      have := (h1.trans h2).compl a ha
      cases a <;> exact this

/-- A message: either state and flags stay (a goodbye ends the connection), or it was a hello. -/
theorem process_st {W} (e : World W) (w : W) (r : R) (m : Msg) :
    (∀ a, (r.file a).complete = true → ((process e w r m).2.1.file a).complete = true) ∧ (process e w r m).2.1.localFlags = r.localFlags ∧
    ((∀ f, m ≠ .hello f) → (process e w r m).2.1.remoteFlags = r.remoteFlags ∧ ((process e w r m).2.1.state = r.state ∨ m = .goodbye)) := by
  have hl := (process_out e w r m).2
  have same : ∀ r', St r r' → (∀ a, (r.file a).complete = true → (r'.file a).complete = true) ∧ r'.localFlags = r.localFlags ∧
      ((∀ f, m ≠ .hello f) → r'.remoteFlags = r.remoteFlags ∧ (r'.state = r.state ∨ m = .goodbye)) :=
    fun r' s => ⟨s.compl, s.localF, fun _ => ⟨s.remote, .inl s.state⟩⟩
  cases m with
  | hello fl =>
    refine ⟨fun a ha => ?_, hl, fun h => absurd rfl (h fl)⟩
    simp only [process]
    generalize hz : processHello r fl = z
    obtain ⟨x, r'⟩ := z
    unfold processHello at hz
    split at hz; · injection hz with _ hz; subst hz; exact ha
    split at hz; · injection hz with _ hz; subst hz; exact ha
    split at hz; · injection hz with _ hz; subst hz; exact ha
    split at hz; · injection hz with _ hz; subst hz; exact ha
    split at hz; · injection hz with _ hz; subst hz; exact ha
    injection hz with _ hz; subst hz; cases a <;> exact ha
  | file a d =>
    refine same _ ?_
    simp only [process, processFile]
    split; · exact st_refl r
    split
    · cases e.write w a d with
      | mk x w' => cases x <;> exact st_refl r
    · exact st_setFile r a _ (fun h => h)
  | fileEof a =>
    refine same _ ?_
    simp only [process, processFileEof]
    split; · exact st_refl r
    exact st_setFile r a _ (fun _ => rfl)
  | request h ids =>
    have k := processRequest_keeps h ids r
    exact same _ ⟨k.state, k.remote, k.localF, fun a ha => by rw [← ha]; exact k.complete a⟩
  | chunk id c d =>
    refine same _ ?_
    simp only [process, processChunk]
    split; · exact st_refl r
    generalize e.save w id _ d = z
    obtain ⟨x, w'⟩ := z
    cases x with
    | ok u => exact st_of rfl rfl rfl rfl rfl
    | err e => cases e <;> exact st_of rfl rfl rfl rfl rfl
    | ub => exact st_of rfl rfl rfl rfl rfl
  | missing id =>
    refine same _ ?_
    simp only [process, processMissing]
    split; · exact st_refl r
    generalize e.missing w id = z
    obtain ⟨x, w'⟩ := z
    cases x with
    | ok u => exact st_refl r
    | err e => cases e <;> exact st_refl r
    | ub => exact st_refl r
  | goodbye =>
    refine ⟨processGoodbye_st e w r, hl, fun _ => ⟨?_, .inr rfl⟩⟩
    simp only [process, processGoodbye]
    have h1 := fileInstall_st e w r false
    generalize fileInstall e w r false = z at h1
    obtain ⟨x, r1, w1⟩ := z
    cases x with
    | err _ => exact h1.remote
    | ub => exact h1.remote
    | ok _ =>
      simp only
      have h2 := fileInstall_st e w1 r1 true
      generalize fileInstall e w1 r1 true = z at h2
      obtain ⟨x, r2, w2⟩ := z
      cases x <;> exact (h1.trans h2).remote
  | abort x s => exact same _ (st_refl r)

/-- A complete frame: either it is refused and nothing changes but what a failing message did, or it is a message. -/
theorem dispatch_cases {W} (e : World W) (w : W) (r : R) {f : Bytes} (hf : IsFrame f) :
    dispatch e w r f = (.err .EBADMSG, r, w) ∨
    ∃ m, f = encode m ∧ WF m ∧ allowed r (typeOf m) = some true ∧ dispatch e w r f = process e w r m := by
  obtain ⟨t, b, rfl, ht, hb⟩ := isFrame_fr hf
  unfold dispatch
  rw [rd_fr8 _ _ ht]
  simp only
  cases ha : allowed r t with
  | none => exact .inl rfl
  | some x =>
    cases x with
    | false => exact .inl rfl
    | true =>
      simp only
      obtain ⟨o, ho, hs⟩ := validate_says t ht b hb
      rw [ho]
      cases o with
      | none => exact .inl rfl
      | some m =>
        obtain ⟨h1, h2, h3⟩ := (hs m).1 rfl
        exact .inr ⟨m, by rw [encode_fr, h1, h2], h3, by rw [h1]; exact ha, rfl⟩

/-- What `ca_remote_process_message` does to the object, up to the receive buffer: nothing, or what the message at the front does. -/
theorem message_cases {W} (e : World W) (w : W) (r : R) :
    (∃ i n, (processMessage e w r).2.1 = withIn r i n) ∨
    ∃ m i n, WF m ∧ allowed r (typeOf m) = some true ∧ (processMessage e w r).2.1 = withIn (process e w r m).2.1 i n ∧
      (processMessage e w r).1 = (process e w r m).1 ∧ (processMessage e w r).2.2 = (process e w r m).2.2 := by
  by_cases heof : r.state = .eof
  · left
    have hp : processMessage e w r = (.ok .poll, r, w) := by unfold processMessage; rw [if_pos heof]
    exact ⟨r.input, r.frameSize, by rw [hp]; rfl⟩
  rcases frame_or_not r.input with ⟨f, rest, hf, hi⟩ | hn
  · have hp := processMessage_frame e w r f rest hf hi heof
    rcases dispatch_cases e w r hf with h | ⟨m, -, hw, ha, h⟩
    · left; rw [h] at hp; exact ⟨r.input, r.frameSize, by rw [hp]; rfl⟩
    · right
      rw [h] at hp
      generalize hz : process e w r m = z at hp
      obtain ⟨y, r', w'⟩ := z
      cases y with
      | ok s => exact ⟨m, rest, 0, hw, ha, (by first | (rw [hp, hz]; done) | (rw [hp, hz]; rfl)), by rw [hp, hz], by rw [hp, hz]⟩
      | err _ => exact ⟨m, r'.input, r'.frameSize, hw, ha, (by first | (rw [hp, hz]; done) | (rw [hp, hz]; rfl)), by rw [hp, hz], by rw [hp, hz]⟩
      | peer _ => exact ⟨m, r'.input, r'.frameSize, hw, ha, (by first | (rw [hp, hz]; done) | (rw [hp, hz]; rfl)), by rw [hp, hz], by rw [hp, hz]⟩
      | ub => exact ⟨m, r'.input, r'.frameSize, hw, ha, (by first | (rw [hp, hz]; done) | (rw [hp, hz]; rfl)), by rw [hp, hz], by rw [hp, hz]⟩
  · obtain ⟨_, ⟨n, h2, _⟩, _⟩ := processMessage_none e w r hn
    exact .inl ⟨r.input, n, h2⟩

theorem good_act {W} (e : World W) (w : W) (r : R) (a : Act) (h : Good r) : Good (act e w r a).2.1 := by
  by_cases hm : a = .message
  · subst hm
    show Good (processMessage e w r).2.1
    rcases message_cases e w r with ⟨i, n, hr⟩ | ⟨m, i, n, hw, ha, hr, _⟩
    · rw [hr]; exact h
    · rw [hr]
      show Good (process e w r m).2.1
      obtain ⟨_, h2, h3⟩ := process_st e w r m
      cases m with
      | hello fl =>
        simp only [process]
        generalize hz : processHello r fl = z
        obtain ⟨x, r'⟩ := z
        have hst : r.state = .hello := allowed_hello ha
        cases x with
        | ok s =>
          obtain ⟨_, hr', h1, _, h2, h3, h4⟩ := (processHello_ok r r' fl s).1 hz
          subst hr'
          exact fun _ => ⟨h2, h3, h1, h4⟩
        | _ =>
          have : r' = r := by
            unfold processHello at hz
            split at hz; · injection hz with _ hz; exact hz.symm
            split at hz; · injection hz with _ hz; exact hz.symm
            split at hz; · injection hz with _ hz; exact hz.symm
            split at hz; · injection hz with _ hz; exact hz.symm
            split at hz; · injection hz with _ hz; exact hz.symm
            injection hz with hz; cases hz
          subst this; exact h
      | abort x s => exact h
      | _ =>
        have hrun := allowed_running ha (fun _ h => nomatch h) (fun _ _ h => nomatch h)
        obtain ⟨g1, _⟩ := h3 (fun _ h => nomatch h)
        intro _
        rw [g1, h2]
        exact h (by rw [hrun]; exact fun h => nomatch h)
  · exact good_st h (act_st e w r a hm)

theorem good_run {W} (e : World W) : ∀ (as : List Act) (c : Conn W), Good c.r → Good (c.run e as).r
  | [], _, h => h
  | a :: as, c, h => good_run e as _ (good_act e c.w c.r a h)

/-- A call says at most one thing. -/
theorem speaks_length (b : R) (x : Act) (y : Rc) : (speaks b x y).length ≤ 1 := by
  unfold speaks
  split <;> simp

/-- The sending side of a file: nothing of it is said after its end. -/
structure SayInv {W} (c : Conn W) (a : Bool) : Prop where
  compl : Ended a c.said → (c.r.file a).complete = true
  last : ∀ p t, c.said = p ++ t → Ended a p → fileData a c.said = fileData a p

theorem say_act {W} (e : World W) (c : Conn W) (x : Act) (a : Bool) (h : SayInv c a) : SayInv (c.act e x) a := by
  -- every call keeps complete files complete
  have mono : (c.r.file a).complete = true → ((act e c.w c.r x).2.1.file a).complete = true := by
    by_cases hm : x = .message
    · subst hm
      intro hc
      show ((processMessage e c.w c.r).2.1.file a).complete = true
      rcases message_cases e c.w c.r with ⟨i, n, hr⟩ | ⟨m, i, n, _, _, hr, _⟩
      · rw [hr, withIn_file]; exact hc
      · rw [hr, withIn_file]; exact (process_st e c.w c.r m).1 a hc
    · exact (act_st e c.w c.r x hm).compl a
  -- what is said about this file
  have say : ∀ m ∈ speaks c.r x (act e c.w c.r x).1, (∀ d, m = .file a d → (c.r.file a).complete = false) ∧
      (m = .fileEof a → ((act e c.w c.r x).2.1.file a).complete = true) := by
    intro m hm
    cases x with
    | sendFile y got =>
      cases got with
      | err _ => cases hm
      | ub => cases hm
      | ok d =>
        have hz : (act e c.w c.r (.sendFile y (.ok d))).1 = (sendFile c.r y (.ok d)).1 := rfl
        have hz2 : (act e c.w c.r (.sendFile y (.ok d))).2.1 = (sendFile c.r y (.ok d)).2 := rfl
        rw [hz] at hm
        rw [hz2]
        unfold sendFile at hm ⊢
        by_cases h1 : (!sendsFile c.r y) = true
        · rw [if_pos h1] at hm; cases hm
        rw [if_neg h1] at hm ⊢
        by_cases h2 : c.r.state ≠ .running
        · rw [if_pos h2] at hm; cases hm
        rw [if_neg h2] at hm ⊢
        by_cases h3 : (c.r.file y).complete = true
        · rw [if_pos h3] at hm; cases hm
        rw [if_neg h3] at hm ⊢
        by_cases h4 : c.r.output.length > BUFFER_LOW
        · rw [if_pos h4] at hm; cases hm
        rw [if_neg h4] at hm ⊢
        by_cases h5 : (!(c.r.file y).fd) = true
        · rw [if_pos h5] at hm; cases y <;> cases hm
        rw [if_neg h5] at hm ⊢
        simp only at hm ⊢
        by_cases h6 : d.length > BUF
        · rw [if_pos h6] at hm; cases hm
        rw [if_neg h6] at hm ⊢
        by_cases h7 : d = []
        · rw [if_pos h7] at hm ⊢
          simp only [speaks, if_pos h7, List.mem_singleton] at hm
          subst hm
          refine ⟨(fun d hd => nomatch hd), fun he => ?_⟩
          injection he with he; subst he
          rw [file_setFile, if_pos rfl]
        · rw [if_neg h7] at hm ⊢
          simp only [speaks, if_neg h7, List.mem_singleton] at hm
          subst hm
          refine ⟨fun d' hd => ?_, fun he => nomatch he⟩
          injection hd with hd _; subst hd; simpa using h3
    | putFile y d =>
      have hz : (act e c.w c.r (.putFile y d)).1 = .ofRes (putFile c.r y d).1 := rfl
      rw [hz] at hm
      have hok : (putFile c.r y d).1 = .ok () := by
        cases hx : (putFile c.r y d).1 with
        | ok u => rfl
        | err _ => rw [hx] at hm; cases hm
        | ub => rw [hx] at hm; cases hm
      rw [hok] at hm
      have hm' : m = .file y d := List.mem_singleton.1 hm
      subst hm'
      refine ⟨fun d' hd => ?_, fun he => nomatch he⟩
      injection hd with hd _; subst hd
      unfold putFile at hok
      split at hok; · cases hok
      by_cases h1 : (!sendsFile c.r y) = true
      · rw [if_pos h1] at hok; cases hok
      rw [if_neg h1] at hok
      cases hcc : (c.r.file y).complete with
      | false => rfl
      | true =>
        have : canPutFile c.r y ≠ .ok true := by
          unfold canPutFile
          rw [if_neg h1]
          split; · exact fun h => nomatch h
          first
            | exact fun h => nomatch h
            | (rw [if_pos hcc]; exact fun h => nomatch h)
        cases hcp : canPutFile c.r y with
        | err _ => rw [hcp] at hok; cases hok
        | ub => rw [hcp] at hok; cases hok
        | ok b =>
          cases b with
          | true => exact absurd hcp this
          | false => rw [hcp] at hok; cases hok
    | putFileEof y =>
      have hz : (act e c.w c.r (.putFileEof y)).1 = .ofRes (putFileEof c.r y).1 := rfl
      have hz2 : (act e c.w c.r (.putFileEof y)).2.1 = (putFileEof c.r y).2 := rfl
      rw [hz] at hm
      rw [hz2]
      have hok : (putFileEof c.r y).1 = .ok () := by
        cases hx : (putFileEof c.r y).1 with
        | ok u => rfl
        | err _ => rw [hx] at hm; cases hm
        | ub => rw [hx] at hm; cases hm
      rw [hok] at hm
      have hm' : m = .fileEof y := List.mem_singleton.1 hm
      subst hm'
      refine ⟨(fun d' hd => nomatch hd), fun he => ?_⟩
      injection he with he; subst he
      unfold putFileEof at hok ⊢
      split at hok; · cases hok
      rename_i h1
      rw [if_neg h1]
      cases hcp : canPutFile c.r y with
      | err _ => rw [hcp] at hok; cases hok
      | ub => rw [hcp] at hok; cases hok
      | ok b =>
        cases b with
        | false => rw [hcp] at hok; cases hok
        | true =>
          simp only
          rw [file_setFile, if_pos rfl]
    | clear => cases hm
    | start _ _ => cases hm
    | write _ => cases hm
    | message => cases hm
    | sendRequest => cases hm
    | read d => cases d <;> cases hm
    | queue _ => cases hm
    | sendHello =>
      have hm' : m ∈ speaks c.r .sendHello (sendHello c.r).1 := hm
      unfold sendHello at hm'
      split at hm'
      · cases hm'
      · rw [List.mem_singleton.1 hm']; exact ⟨(fun _ h => nomatch h), (fun h => nomatch h)⟩
    | putChunk id cc d =>
      have hm' : m ∈ speaks c.r (.putChunk id cc d) (.ofRes (putChunk c.r id cc d).1) := hm
      cases hx : (putChunk c.r id cc d).1 with
      | ok u => rw [hx] at hm'; rw [List.mem_singleton.1 hm']; exact ⟨(fun _ h => nomatch h), (fun h => nomatch h)⟩
      | err _ => rw [hx] at hm'; cases hm'
      | ub => rw [hx] at hm'; cases hm'
    | putMissing id =>
      have hm' : m ∈ speaks c.r (.putMissing id) (.ofRes (putMissing c.r id).1) := hm
      cases hx : (putMissing c.r id).1 with
      | ok u => rw [hx] at hm'; rw [List.mem_singleton.1 hm']; exact ⟨(fun _ h => nomatch h), (fun h => nomatch h)⟩
      | err _ => rw [hx] at hm'; cases hm'
      | ub => rw [hx] at hm'; cases hm'
    | goodbye =>
      have hm' : m ∈ speaks c.r .goodbye (.ofRes (goodbye e c.w c.r).1) := hm
      cases hx : (goodbye e c.w c.r).1 with
      | ok u => rw [hx] at hm'; rw [List.mem_singleton.1 hm']; exact ⟨(fun _ h => nomatch h), (fun h => nomatch h)⟩
      | err _ => rw [hx] at hm'; cases hm'
      | ub => rw [hx] at hm'; cases hm'
    | abort y s =>
      have hm' : m ∈ speaks c.r (.abort y s) (.ofRes (abort c.r y s).1) := hm
      cases hx : (abort c.r y s).1 with
      | ok u => rw [hx] at hm'; rw [List.mem_singleton.1 hm']; exact ⟨(fun _ h => nomatch h), (fun h => nomatch h)⟩
      | err _ => rw [hx] at hm'; cases hm'
      | ub => rw [hx] at hm'; cases hm'
  have one : ∀ m ∈ speaks c.r x (act e c.w c.r x).1, speaks c.r x (act e c.w c.r x).1 = [m] := by
    intro m hm
    have hl := speaks_length c.r x (act e c.w c.r x).1
    generalize speaks c.r x (act e c.w c.r x).1 = l at hl hm
    match l, hl, hm with
    | [y], _, hm => rw [List.mem_singleton.1 hm]
  have hsaid : (c.act e x).said = c.said ++ speaks c.r x (act e c.w c.r x).1 := rfl
  have hr : (c.act e x).r = (act e c.w c.r x).2.1 := rfl
  rw [← hr] at mono say
  generalize speaks c.r x (act e c.w c.r x).1 = new at say one hsaid
  cases new with
  | nil =>
    rw [List.append_nil] at hsaid
    exact ⟨fun he => mono (h.compl (by rw [← hsaid]; exact he)), fun p t hp he => by rw [hsaid] at hp ⊢; exact h.last p t hp he⟩
  | cons m rest =>
    have h1 := one m List.mem_cons_self
    rw [h1] at hsaid say
    obtain ⟨s1, s2⟩ := say m List.mem_cons_self
    refine ⟨fun he => ?_, fun p t hp he => ?_⟩
    · rw [hsaid, ended_append] at he
      rcases he with he | he
      · exact mono (h.compl he)
      · exact s2 he
    · rw [hsaid] at hp ⊢
      -- either the prefix is everything, or it is a prefix of what was said before
      rcases List.eq_nil_or_concat t with rfl | ⟨t', y, rfl⟩
      · rw [List.append_nil] at hp; rw [hp]
      · rw [List.concat_eq_append, ← List.append_assoc] at hp
        obtain ⟨g1, g2⟩ := List.append_inj' hp rfl
        rw [fileData_append, h.last p t' g1 he]
        have hE : Ended a c.said := by rw [g1]; exact List.mem_append.2 (.inl he)
        have : ∀ d, m ≠ .file a d := by
          intro d hd
          have := s1 d hd
          rw [h.compl hE] at this; cases this
        rw [fileData_other a this, List.append_nil]

theorem say_run {W} (e : World W) (a : Bool) : ∀ (as : List Act) (c : Conn W), SayInv c a → SayInv (c.run e as) a
  | [], _, h => h
  | x :: as, c, h => say_run e a as _ (say_act e c x a h)

end Casync.Remote
