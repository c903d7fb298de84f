import Verif.Lemmas.RemoteSend
/-!
The transfer of an index or archive file.
-/
namespace Casync.Remote
open Casync ChunkFile Spec

/-- A frame that is accepted is a message that is allowed. -/
theorem dispatch_ok {W} {e : World W} {w w' : W} {r r' : R} {f : Bytes} {s : Step} (hf : IsFrame f) (h : dispatch e w r f = (.ok s, r', w')) :
    ∃ m, f = encode m ∧ WF m ∧ allowed r (typeOf m) = some true ∧ process e w r m = (.ok s, r', w') := by
  obtain ⟨t, b, rfl, ht, hb⟩ := isFrame_fr hf
  unfold dispatch at h
  rw [rd_fr8 _ _ ht] at h
  simp only at h
  cases ha : allowed r t with
  | none => rw [ha] at h; cases h
  | some x =>
    rw [ha] at h
    cases x with
    | false => cases h
    | true =>
      simp only at h
      obtain ⟨o, ho, hs⟩ := validate_says t ht b hb
      rw [ho] at h
      cases o with
      | none => cases h
      | some m =>
        obtain ⟨h1, h2, h3⟩ := (hs m).1 rfl
        exact ⟨m, by rw [encode_fr, h1, h2], h3, by rw [h1]; exact ha, h⟩

/-- And the other way round. -/
theorem dispatch_encode {W} (e : World W) (w : W) (r : R) (m : Msg) (hm : Fit m) (ha : allowed r (typeOf m) = some true) :
    dispatch e w r (encode m) = process e w r m := by
  have ht : typeOf m < 2 ^ 64 := by
    cases m with
    | file a _ => cases a <;> (simp only [typeOf]; decide)
    | fileEof a => cases a <;> (simp only [typeOf]; decide)
    | _ => simp only [typeOf]; decide
  obtain ⟨o, ho, hs⟩ := validate_says (typeOf m) ht (body m) hm.2
  have : o = some m := (hs m).2 ⟨rfl, rfl, hm.1⟩
  subst this
  unfold dispatch
  rw [encode_fr, rd_fr8 _ _ ht]
  simp only
  rw [ha]
  simp only
  rw [ho]

/-- The parts of the object that the transfer of a file depends on. -/
structure Keeps (r r' : R) : Prop where
  state : r'.state = r.state
  remote : r'.remoteFlags = r.remoteFlags
  localF : r'.localFlags = r.localFlags
  temp : ∀ a, (r'.file a).temp = (r.file a).temp
  complete : ∀ a, (r'.file a).complete = (r.file a).complete

theorem keeps_refl (r : R) : Keeps r r := ⟨rfl, rfl, rfl, fun _ => rfl, fun _ => rfl⟩

theorem Keeps.trans {a b c : R} (h : Keeps a b) (h' : Keeps b c) : Keeps a c :=
  ⟨h'.state.trans h.state, h'.remote.trans h.remote, h'.localF.trans h.localF, fun x => (h'.temp x).trans (h.temp x),
    fun x => (h'.complete x).trans (h.complete x)⟩

theorem file_congr {r r' : R} (h1 : r'.index = r.index) (h2 : r'.archive = r.archive) (a) : r'.file a = r.file a := by
  cases a <;> assumption

theorem keeps_of {r r' : R} (h1 : r'.state = r.state) (h2 : r'.remoteFlags = r.remoteFlags) (h3 : r'.localFlags = r.localFlags)
    (h4 : r'.index = r.index) (h5 : r'.archive = r.archive) : Keeps r r' :=
  ⟨h1, h2, h3, fun a => by rw [file_congr h4 h5], fun a => by rw [file_congr h4 h5]⟩

theorem file_setFile (r : R) (a b : Bool) (f : File) : (r.setFile a f).file b = if b = a then f else r.file b := by
  cases a <;> cases b <;> rfl

theorem sends_congr {r r' : R} (h1 : r'.remoteFlags = r.remoteFlags) (h2 : r'.localFlags = r.localFlags) (a) : sendsFile r' a = sendsFile r a := by
  unfold sendsFile; rw [h1, h2]

/-- The state of a transfer: `ms` are the messages that were accepted so far. -/
structure FileInv {W} (content : W → Bool → Bytes) (final : W → Bool → Option Bytes) (a : Bool) (f0 : Option Bytes) (w : W) (r : R)
    (ms : List Msg) : Prop where
  hello : r.state = .hello → ms = [] ∧ ∀ x, (r.file x).complete = false ∧ (r.file x).temp = false
  temp : ∀ x, (r.file x).temp = true → sendsFile r x = false
  compl : ∀ x, (r.file x).complete = true → sendsFile r x = false → Ended x ms
  ended : ∀ x, Ended x ms → (r.file x).complete = true
  content : content w a = fileData a ms
  final : final w a = f0 ∨ (Ended a ms ∧ final w a = some (fileData a ms))

theorem FileInv.keeps {W} {content final a f0} {w : W} {r r' : R} {ms} (h : FileInv content final a f0 w r ms) (k : Keeps r r') :
    FileInv content final a f0 w r' ms where
  hello hs := by
    have := h.hello (by rw [← k.state]; exact hs)
    exact ⟨this.1, fun x => by rw [k.complete, k.temp]; exact this.2 x⟩
  temp x hx := by rw [sends_congr k.remote k.localF]; exact h.temp x (by rw [← k.temp]; exact hx)
  compl x hx hs := h.compl x (by rw [← k.complete]; exact hx) (by rw [← sends_congr k.remote k.localF]; exact hs)
  ended x hx := by rw [k.complete]; exact h.ended x hx
  content := h.content
  final := h.final

theorem fileOpen_inv {W} {content final a f0} {w : W} {r : R} {ms} (h : FileInv content final a f0 w r ms) (x wr : Bool) (ok)
    (hw : wr = true → sendsFile r x = false) : FileInv content final a f0 w (fileOpen r x wr ok).2 ms := by
  unfold fileOpen
  simp only
  by_cases h0 : r.state ≠ .running
  · rw [if_pos h0]; exact h
  rw [if_neg h0]
  split; · exact h
  split; · exact h
  have hrun : r.state = .running := by simpa using h0
  have key : ∀ f : File, f.complete = (r.file x).complete → (f.temp = true → (r.file x).temp = true ∨ wr = true) →
      FileInv content final a f0 w (r.setFile x f) ms := by
    intro f hc ht
    have hs : ∀ y, sendsFile (r.setFile x f) y = sendsFile r y := fun y => sends_congr (by cases x <;> rfl) (by cases x <;> rfl) y
    refine ⟨fun hh => ?_, fun y hy => ?_, fun y hy hy' => ?_, fun y hy => ?_, h.content, h.final⟩
    · rw [show (r.setFile x f).state = r.state by cases x <;> rfl, hrun] at hh; cases hh
    · rw [hs]
      rw [file_setFile] at hy
      by_cases e : y = x
      · rw [if_pos e] at hy; subst e
        rcases ht hy with h1 | h1
        · exact h.temp y h1
        · exact hw h1
      · rw [if_neg e] at hy; exact h.temp y hy
    · rw [hs] at hy'
      rw [file_setFile] at hy
      by_cases e : y = x
      · rw [if_pos e] at hy; subst e; exact h.compl y (hc ▸ hy) hy'
      · rw [if_neg e] at hy; exact h.compl y hy hy'
    · rw [file_setFile]
      by_cases e : y = x
      · rw [if_pos e]; subst e; rw [hc]; exact h.ended y hy
      · rw [if_neg e]; exact h.ended y hy
  cases wr with
  | true => cases ok <;> exact key _ rfl (fun _ => .inr rfl)
  | false => cases ok <;> exact key _ rfl (fun ht => .inl ht)

theorem openIfWanted_inv {W} {content final a f0} {w : W} {r : R} {ms} (h : FileInv content final a f0 w r ms) (x : Bool) (ok) :
    FileInv content final a f0 w (openIfWanted r x ok).2 ms := by
  unfold openIfWanted
  by_cases h1 : sendsFile r x = true
  · rw [if_pos h1]; exact fileOpen_inv h x false ok (fun h => nomatch h)
  rw [if_neg h1]
  split
  · exact fileOpen_inv h x true ok (fun _ => by simpa using h1)
  · exact h

theorem start_inv {W} {content final a f0} {w : W} {r : R} {ms} (h : FileInv content final a f0 w r ms) (i b) :
    FileInv content final a f0 w (start r i b).2 ms := by
  unfold start
  split; · exact h
  split; · exact h
  split; · exact h
  have h1 := openIfWanted_inv h false i
  generalize openIfWanted r false i = z at h1
  obtain ⟨x, r1⟩ := z
  cases x with
  | ok _ =>
    simp only
    have h2 := openIfWanted_inv h1 true b
    generalize openIfWanted r1 true b = z at h2
    obtain ⟨x, r2⟩ := z
    cases x <;> exact h2
  | err _ => exact h1
  | ub => exact h1

/-- Setting `complete` on a file that is being sent. -/
theorem complete_inv {W} {content final a f0} {w : W} {r r' : R} {ms} (h : FileInv content final a f0 w r ms) (x : Bool)
    (hs : sendsFile r x = true) (hrun : r.state = .running) (h1 : r'.state = r.state) (h2 : r'.remoteFlags = r.remoteFlags)
    (h3 : r'.localFlags = r.localFlags) (h4 : ∀ y, r'.file y = if y = x then { r.file x with complete := true } else r.file y) :
    FileInv content final a f0 w r' ms := by
  refine ⟨fun hh => ?_, fun y hy => ?_, fun y hy hy' => ?_, fun y hy => ?_, h.content, h.final⟩
  · rw [h1, hrun] at hh; cases hh
  · rw [sends_congr h2 h3]
    rw [h4] at hy
    by_cases e : y = x
    · rw [if_pos e] at hy; subst e; exact h.temp y hy
    · rw [if_neg e] at hy; exact h.temp y hy
  · rw [sends_congr h2 h3] at hy'
    rw [h4] at hy
    by_cases e : y = x
    · subst e; rw [hs] at hy'; cases hy'
    · rw [if_neg e] at hy; exact h.compl y hy hy'
  · rw [h4]
    by_cases e : y = x
    · rw [if_pos e]
    · rw [if_neg e]; exact h.ended y hy

theorem sendFile_inv {W} {content final a f0} {w : W} {r : R} {ms} (h : FileInv content final a f0 w r ms) (x : Bool) (got) :
    FileInv content final a f0 w (sendFile r x got).2 ms := by
  unfold sendFile
  by_cases h1 : (!sendsFile r x) = true
  · rw [if_pos h1]; exact h
  rw [if_neg h1]
  by_cases h0 : r.state ≠ .running
  · rw [if_pos h0]; exact h
  rw [if_neg h0]
  split; · exact h
  split; · exact h
  split; · exact h
  cases got with
  | err _ => exact h
  | ub => exact h
  | ok d =>
    simp only
    split; · exact h
    split
    · refine complete_inv h x (by simpa using h1) (by simpa using h0) (by cases x <;> rfl) (by cases x <;> rfl) (by cases x <;> rfl) ?_
      intro y; cases x <;> cases y <;> rfl
    · exact h.keeps (keeps_of rfl rfl rfl rfl rfl)

theorem putFileEof_inv {W} {content final a f0} {w : W} {r : R} {ms} (h : FileInv content final a f0 w r ms) (x : Bool) :
    FileInv content final a f0 w (putFileEof r x).2 ms := by
  unfold putFileEof
  by_cases h1 : (!sendsFile r x) = true
  · rw [if_pos h1]; exact h
  rw [if_neg h1]
  have hrun : canPutFile r x = .ok true → r.state = .running := by
    unfold canPutFile
    rw [if_neg h1]
    intro hc
    by_cases hs : r.state = .running
    · exact hs
    · split at hc
      · cases hc
      · split at hc
        · cases hc
        · first | cases hc | (rw [if_pos hs] at hc; cases hc)
  generalize hz : canPutFile r x = z at hrun
  cases z with
  | err _ => exact h
  | ub => exact h
  | ok b =>
    cases b with
    | false => exact h
    | true =>
      refine complete_inv h x (by simpa using h1) (hrun rfl) (by cases x <;> rfl) (by cases x <;> rfl) (by cases x <;> rfl) ?_
      intro y; cases x <;> cases y <;> rfl

theorem fileInstall_inv {W} {e : World W} {content final} (laws : Laws e content final) {a f0} {w : W} {r : R} {ms}
    (h : FileInv content final a f0 w r ms) (x : Bool) :
    FileInv content final a f0 (fileInstall e w r x).2.2 (fileInstall e w r x).2.1 ms := by
  unfold fileInstall
  simp only
  by_cases h1 : (!(r.file x).complete || !(r.file x).temp || !(r.file x).path) = true
  · rw [if_pos h1]; exact h
  rw [if_neg h1]
  simp only [Bool.or_eq_true, Bool.not_eq_true', not_or, Bool.not_eq_false] at h1
  obtain ⟨⟨hc, ht⟩, -⟩ := h1
  have hend : Ended x ms := h.compl x hc (h.temp x ht)
  have hcont : content (e.rename w x).2 a = fileData a ms := by rw [laws.rename_content]; exact h.content
  generalize hz : e.rename w x = z at hcont
  obtain ⟨y, w'⟩ := z
  have failed : y ≠ .ok () → FileInv content final a f0 w' r ms := by
    intro hy
    have := laws.rename_err w x (by rw [hz]; exact hy)
    rw [hz] at this
    refine { h with content := hcont, final := ?_ }
    rw [this]; exact h.final
  cases y with
  | err _ => exact failed (fun h => nomatch h)
  | ub => exact failed (fun h => nomatch h)
  | ok u =>
    have hfin := laws.rename_ok w x w' hz
    have h' : FileInv content final a f0 w' r ms := by
      refine { h with content := hcont, final := ?_ }
      rw [hfin]
      simp only
      by_cases e : a = x
      · rw [if_pos e]
        right
        subst e
        exact ⟨hend, by rw [h.content]⟩
      · rw [if_neg e]; exact h.final
    refine ⟨fun hh => ?_, fun y hy => ?_, fun y hy hy' => ?_, fun y hy => ?_, h'.content, h'.final⟩
    · rw [show (r.setFile x { r.file x with temp := false }).state = r.state by cases x <;> rfl] at hh
      have := (h.hello hh).2 x
      rw [hc] at this; cases this.1
    · rw [file_setFile] at hy
      rw [sends_congr (r := r) (by cases x <;> rfl) (by cases x <;> rfl)]
      by_cases e : y = x
      · rw [if_pos e] at hy; cases hy
      · rw [if_neg e] at hy; exact h.temp y hy
    · rw [file_setFile] at hy
      rw [sends_congr (r := r) (by cases x <;> rfl) (by cases x <;> rfl)] at hy'
      by_cases e : y = x
      · subst e; exact hend
      · rw [if_neg e] at hy; exact h.compl y hy hy'
    · rw [file_setFile]
      by_cases e : y = x
      · rw [if_pos e]; exact hc
      · rw [if_neg e]; exact h.ended y hy

/-- Two files installed one after the other. -/
theorem install2_inv {W} {e : World W} {content final} (laws : Laws e content final) {a f0} {w : W} {r : R} {ms}
    (h : FileInv content final a f0 w r ms) :
    FileInv content final a f0 (processGoodbye e w r).2.2 { (processGoodbye e w r).2.1 with state := r.state } ms ∧
    FileInv content final a f0 (goodbye e w r).2.2 (goodbye e w r).2.1 ms ∧ (fileInstall e w r false).2.1.state = r.state ∧
    (∀ w' r', fileInstall e w r false = (.ok (), r', w') → (fileInstall e w' r' true).2.1.state = r.state) := by
  have st : ∀ (w : W) (r : R) x, (fileInstall e w r x).2.1.state = r.state := by
    intro w r x
    unfold fileInstall
    simp only
    split; · rfl
    cases e.rename w x with
    | mk y w' => cases y <;> cases x <;> rfl
  have h1 := fileInstall_inv laws h false
  have s1 := st w r false
  have ks : ∀ (r1 : R), r1.state = r.state → ∀ w1, FileInv content final a f0 w1 r1 ms →
      FileInv content final a f0 w1 { r1 with state := r.state } ms := by
    intro r1 hs w1 hi
    exact hi.keeps (keeps_of hs.symm rfl rfl rfl rfl)
  refine ⟨?_, ?_, s1, fun w' r' hz => by have := st w' r' true; rw [hz] at s1; exact this.trans s1⟩
  · unfold processGoodbye
    generalize fileInstall e w r false = z at h1 s1
    obtain ⟨x, r1, w1⟩ := z
    cases x with
    | err _ => exact ks r1 s1 w1 h1
    | ub => exact ks r1 s1 w1 h1
    | ok _ =>
      simp only
      have h2 := fileInstall_inv laws h1 true
      have s2 := st w1 r1 true
      generalize fileInstall e w1 r1 true = z at h2 s2
      obtain ⟨x, r2, w2⟩ := z
      cases x with
      | err _ => exact ks r2 (s2.trans s1) w2 h2
      | ub => exact ks r2 (s2.trans s1) w2 h2
      | ok _ => exact ks r2 (s2.trans s1) w2 h2
  · unfold goodbye
    split; · exact h
    split; · exact h
    generalize fileInstall e w r false = z at h1 s1
    obtain ⟨x, r1, w1⟩ := z
    cases x with
    | err _ => exact h1
    | ub => exact h1
    | ok _ =>
      simp only
      have h2 := fileInstall_inv laws h1 true
      generalize fileInstall e w1 r1 true = z at h2
      obtain ⟨x, r2, w2⟩ := z
      cases x with
      | err _ => exact h2
      | ub => exact h2
      | ok _ => exact h2.keeps (keeps_of rfl rfl rfl rfl rfl)

theorem fileData_append (a : Bool) (x y : List Msg) : fileData a (x ++ y) = fileData a x ++ fileData a y := by
  simp [fileData]

theorem fileData_other (a : Bool) {m : Msg} (h : ∀ d, m ≠ .file a d) : fileData a [m] = [] := by
  cases m with
  | file a' d =>
    by_cases e : a' = a
    · subst e; exact absurd rfl (h d)
    · simp [fileData, e]
  | _ => simp [fileData]

theorem ended_append (a : Bool) (ms : List Msg) (m : Msg) : Ended a (ms ++ [m]) ↔ Ended a ms ∨ m = .fileEof a := by
  simp only [Ended, List.mem_append, List.mem_singleton]
  exact ⟨fun h => h.imp id Eq.symm, fun h => h.imp id Eq.symm⟩

/-- A message that has nothing to do with files. -/
theorem other_inv {W} {content final a f0} {w w' : W} {r r' : R} {ms} {m : Msg} (h : FileInv content final a f0 w r ms) (k : Keeps r r')
    (hc : content w' = content w) (hf : final w' = final w) (hst : r.state ≠ .hello) (h1 : ∀ x d, m ≠ .file x d) (h2 : ∀ x, m ≠ .fileEof x) :
    FileInv content final a f0 w' r' (ms ++ [m]) where
  hello hs := by rw [k.state] at hs; exact absurd hs hst
  temp := (h.keeps k).temp
  compl x hx hs := (ended_append x ms m).2 (.inl ((h.keeps k).compl x hx hs))
  ended x hx := (h.keeps k).ended x (((ended_append x ms m).1 hx).resolve_right (h2 x))
  content := by rw [hc, fileData_append, fileData_other a (h1 a), List.append_nil]; exact h.content
  final := by
    rw [hf, fileData_append, fileData_other a (h1 a), List.append_nil]
    exact h.final.imp id (fun ⟨g1, g2⟩ => ⟨(ended_append a ms m).2 (.inl g1), g2⟩)

theorem processRequest_keeps (high : Bool) : ∀ (ids : List Bytes) (r : R), Keeps r (processRequest r high ids).2
  | [], r => keeps_refl r
  | id :: ids, r => by
    unfold processRequest
    cases enqueue r.queue id high false with
    | mk x q => cases x with
      | ok b => exact Keeps.trans (b := { r with queue := q }) (keeps_of rfl rfl rfl rfl rfl) (processRequest_keeps high ids { r with queue := q })
      | err _ => exact keeps_of rfl rfl rfl rfl rfl
      | ub => exact keeps_of rfl rfl rfl rfl rfl

theorem allowed_running' {r : R} {t : Nat} (h : allowed r t = some true) (h1 : t ≠ HELLO) (h2 : t ≠ ABORT) : r.state = .running := by
  unfold allowed at h
  rw [if_neg h1] at h
  split at h
  · injection h with h; simp only [Bool.and_eq_true, decide_eq_true_eq] at h; exact h.1
  split at h
  · injection h with h; simp only [Bool.and_eq_true, decide_eq_true_eq] at h; exact h.1
  split at h
  · injection h with h; simp only [Bool.and_eq_true, decide_eq_true_eq] at h; exact h.1
  split at h
  · injection h with h; simp only [Bool.and_eq_true, decide_eq_true_eq] at h; exact h.1
  split at h
  · injection h with h; simp only [decide_eq_true_eq] at h; exact h
  first | cases h | (rw [if_neg h2] at h; cases h)

theorem allowed_hello {r : R} (h : allowed r HELLO = some true) : r.state = .hello := by
  unfold allowed at h
  rw [if_pos rfl] at h
  injection h with h; simpa using h

theorem allowed_running {r : R} {m : Msg} (h : allowed r (typeOf m) = some true) (h1 : ∀ f, m ≠ .hello f) (h2 : ∀ x s, m ≠ .abort x s) :
    r.state = .running := by
  cases m with
  | hello f => exact absurd rfl (h1 f)
  | abort x s => exact absurd rfl (h2 x s)
  | file a d => cases a <;> exact allowed_running' h (by simp only [typeOf]; decide) (by simp only [typeOf]; decide)
  | fileEof a => cases a <;> exact allowed_running' h (by simp only [typeOf]; decide) (by simp only [typeOf]; decide)
  | _ => exact allowed_running' h (by simp only [typeOf]; decide) (by simp only [typeOf]; decide)

theorem allowed_receives {r : R} {x : Bool} {d : Bytes} (h : allowed r (typeOf (.file x d)) = some true) : receivesFile r x = true := by
  cases x with
  | false =>
    have h' : some (decide (r.state = .running) && (has r.localFlags PULL_INDEX || has r.remoteFlags PUSH_INDEX)) = some true := h
    injection h' with h'
    rw [Bool.and_eq_true, Bool.or_comm] at h'
    exact h'.2
  | true =>
    have h' : some (decide (r.state = .running) && (has r.localFlags PULL_ARCHIVE || has r.remoteFlags PUSH_ARCHIVE)) = some true := h
    injection h' with h'
    rw [Bool.and_eq_true, Bool.or_comm] at h'
    exact h'.2

/-- A message that was accepted. -/
theorem process_inv {W} {e : World W} {content final} (laws : Laws e content final) {a f0} {w w' : W} {r r' : R} {ms} {m : Msg} {s : Step}
    (h : FileInv content final a f0 w r ms) (ha : allowed r (typeOf m) = some true) (hfd : r.state = .running → receivesFile r a = true → (r.file a).fd = true)
    (hp : process e w r m = (.ok s, r', w')) : FileInv content final a f0 w' r' (ms ++ [m]) := by
  cases m with
  | hello fl =>
    have hst : r.state = .hello := allowed_hello ha
    simp only [process, processHello] at hp
    split at hp; · cases hp
    split at hp; · cases hp
    split at hp; · cases hp
    split at hp; · cases hp
    split at hp; · cases hp
    injection hp with h1 h2; injection h2 with h2 h3
    subst h2 h3
    obtain ⟨g1, g2⟩ := h.hello hst
    subst g1
    refine ⟨(fun hh => nomatch hh), fun x hx => ?_, fun x hx => ?_, fun x hx => ?_, ?_, ?_⟩
    · have : (r.file x).temp = true := by cases x <;> exact hx
      rw [(g2 x).2] at this; cases this
    · have : (r.file x).complete = true := by cases x <;> exact hx
      rw [(g2 x).1] at this; cases this
    · simp [Ended] at hx
    · rw [h.content]; simp [fileData]
    · rcases h.final with h | ⟨h, _⟩
      · exact .inl h
      · simp [Ended] at h
  | file x d =>
    have hrun := allowed_running ha (fun _ h => nomatch h) (fun _ _ h => nomatch h)
    simp only [process, processFile] at hp
    by_cases hcpl : (r.file x).complete = true
    · rw [if_pos hcpl] at hp; cases hp
    rw [if_neg hcpl] at hp
    have base : ∀ (w2 : W) (r2 : R), Keeps r r2 → content w2 a = (if x = a then content w a ++ d else content w a) → final w2 = final w →
        FileInv content final a f0 w2 r2 (ms ++ [.file x d]) := by
      intro w2 r2 k hc hf
      have hnE : x = a → ¬ Ended a ms := fun e he => hcpl (by rw [e]; exact h.ended a he)
      refine ⟨fun hh => ?_, (h.keeps k).temp, fun y hy hs => ?_, fun y hy => ?_, ?_, ?_⟩
      · rw [k.state, hrun] at hh; cases hh
      · exact (ended_append y ms _).2 (.inl ((h.keeps k).compl y hy hs))
      · exact (h.keeps k).ended y (((ended_append y ms _).1 hy).resolve_right (fun h => nomatch h))
      · rw [hc, fileData_append, h.content]
        by_cases e : x = a
        · simp [fileData, e]
        · simp [fileData, e]
      · rw [hf, fileData_append]
        rcases h.final with g | ⟨g1, g2⟩
        · exact .inl g
        · right
          refine ⟨(ended_append a ms _).2 (.inl g1), ?_⟩
          have e : x ≠ a := fun e => hnE e g1
          rw [g2]; simp [fileData, e]
    by_cases hd : (r.file x).fd = true
    · rw [if_pos hd] at hp
      generalize hz : e.write w x d = z at hp
      obtain ⟨y, w2⟩ := z
      cases y with
      | err _ => cases hp
      | ub => cases hp
      | ok u =>
        simp only at hp
        injection hp with h1 h2; injection h2 with h2 h3
        subst h2 h3
        refine base _ _ (keeps_refl r) ?_ ?_
        · rw [laws.write_ok w x d w2 hz]
          simp only
          by_cases e : a = x
          · rw [if_pos e, if_pos e.symm]
          · rw [if_neg e, if_neg (fun h => e h.symm)]
        · have := laws.write_final w x d; rw [hz] at this; exact this
    · rw [if_neg hd] at hp
      injection hp with h1 h2; injection h2 with h2 h3
      subst h2 h3
      have e : x ≠ a := fun e => hd (by rw [e]; exact hfd hrun (e ▸ allowed_receives ha))
      refine base _ _ ⟨by cases x <;> rfl, by cases x <;> rfl, by cases x <;> rfl, fun y => ?_, fun y => ?_⟩ (by rw [if_neg e]) rfl
      · cases x <;> cases y <;> rfl
      · cases x <;> cases y <;> rfl
  | fileEof x =>
    have hrun := allowed_running ha (fun _ h => nomatch h) (fun _ _ h => nomatch h)
    simp only [process, processFileEof] at hp
    by_cases hcpl : (r.file x).complete = true
    · rw [if_pos hcpl] at hp; cases hp
    rw [if_neg hcpl] at hp
    injection hp with h1 h2; injection h2 with h2 h3
    subst h2 h3
    refine ⟨fun hh => ?_, fun y hy => ?_, fun y hy hs => ?_, fun y hy => ?_, ?_, ?_⟩
    · rw [show (r.setFile x { r.file x with complete := true }).state = r.state by cases x <;> rfl, hrun] at hh; cases hh
    · rw [sends_congr (r := r) (by cases x <;> rfl) (by cases x <;> rfl)]
      exact h.temp y (by cases x <;> cases y <;> exact hy)
    · rw [sends_congr (r := r) (by cases x <;> rfl) (by cases x <;> rfl)] at hs
      by_cases e : y = x
      · exact (ended_append y ms _).2 (.inr (by rw [e]))
      · rw [file_setFile, if_neg e] at hy
        exact (ended_append y ms _).2 (.inl (h.compl y hy hs))
    · rw [file_setFile]
      by_cases e : y = x
      · rw [if_pos e]
      · rw [if_neg e]
        exact h.ended y (((ended_append y ms _).1 hy).resolve_right (fun h => e (by injection h with h; exact h.symm)))
    · rw [fileData_append, fileData_other a (m := .fileEof x) (fun d h => nomatch h), List.append_nil]; exact h.content
    · rw [fileData_append, fileData_other a (m := .fileEof x) (fun d h => nomatch h), List.append_nil]
      exact h.final.imp id (fun ⟨g1, g2⟩ => ⟨(ended_append a ms _).2 (.inl g1), g2⟩)
  | request p ids =>
    have hrun := allowed_running ha (fun _ h => nomatch h) (fun _ _ h => nomatch h)
    simp only [process] at hp
    have hk := processRequest_keeps p ids r
    injection hp with h1 h2; injection h2 with h2 h3
    subst h2 h3
    exact other_inv h hk rfl rfl (by rw [hrun]; exact fun h => nomatch h) (fun _ _ h => nomatch h) (fun _ h => nomatch h)
  | chunk id c d =>
    have hrun := allowed_running ha (fun _ h => nomatch h) (fun _ _ h => nomatch h)
    simp only [process, processChunk] at hp
    split at hp; · cases hp
    have key : ∀ w2, content w2 = content w → final w2 = final w →
        FileInv content final a f0 w2 { r with lastChunk := some id } (ms ++ [.chunk id c d]) := fun w2 g1 g2 =>
      other_inv h (keeps_of rfl rfl rfl rfl rfl) g1 g2 (by rw [hrun]; exact fun h => nomatch h) (fun _ _ h => nomatch h) (fun _ h => nomatch h)
    have l1 := laws.save_content w id (if c then .compressed else .uncompressed) d
    have l2 := laws.save_final w id (if c then .compressed else .uncompressed) d
    generalize e.save w id _ d = z at hp l1 l2
    obtain ⟨y, w2⟩ := z
    cases y with
    | ok u =>
      injection hp with h1 h2; injection h2 with h2 h3
      subst h2 h3; exact key _ l1 l2
    | err x =>
      cases x <;> first
        | (injection hp with h1 h2; injection h2 with h2 h3; subst h2 h3; exact key _ l1 l2)
        | (injection hp with h1 h2; cases h1)
    | ub => cases hp
  | missing id =>
    have hrun := allowed_running ha (fun _ h => nomatch h) (fun _ _ h => nomatch h)
    simp only [process, processMissing] at hp
    split at hp; · cases hp
    have key : ∀ w2, content w2 = content w → final w2 = final w →
        FileInv content final a f0 w2 r (ms ++ [.missing id]) := fun w2 g1 g2 =>
      other_inv h (keeps_refl r) g1 g2 (by rw [hrun]; exact fun h => nomatch h) (fun _ _ h => nomatch h) (fun _ h => nomatch h)
    have l1 := laws.missing_content w id
    have l2 := laws.missing_final w id
    generalize e.missing w id = z at hp l1 l2
    obtain ⟨y, w2⟩ := z
    cases y with
    | ok u =>
      injection hp with h1 h2; injection h2 with h2 h3
      subst h2 h3; exact key _ l1 l2
    | err x =>
      cases x <;> first
        | (injection hp with h1 h2; injection h2 with h2 h3; subst h2 h3; exact key _ l1 l2)
        | (injection hp with h1 h2; cases h1)
    | ub => cases hp
  | goodbye =>
    have hrun := allowed_running ha (fun _ h => nomatch h) (fun _ _ h => nomatch h)
    have hi := (install2_inv laws h).1
    have hg : processGoodbye e w r = (.ok s, r', w') := hp
    have hst : r'.state = .eof := by
      unfold processGoodbye at hg
      generalize fileInstall e w r false = z at hg
      obtain ⟨x, r1, w1⟩ := z
      cases x with
      | err _ => cases hg
      | ub => cases hg
      | ok _ =>
        simp only at hg
        generalize fileInstall e w1 r1 true = z at hg
        obtain ⟨x, r2, w2⟩ := z
        cases x with
        | err _ => cases hg
        | ub => cases hg
        | ok _ =>
          injection hg with h1 h2; injection h2 with h2 h3
          rw [← h2]
    rw [hg] at hi
    simp only at hi
    have hi' := other_inv (m := .goodbye) hi (keeps_refl _) rfl rfl (by rw [show ({ r' with state := r.state } : R).state = r.state from rfl, hrun]; exact fun h => nomatch h)
      (fun _ _ h => nomatch h) (fun _ h => nomatch h)
    exact ⟨(fun hh => by rw [hst] at hh; cases hh), fun x hx => hi'.temp x (by cases x <;> exact hx),
      fun x hx hs => hi'.compl x (by cases x <;> exact hx) hs, fun x hx => by have := hi'.ended x hx; cases x <;> exact this, hi'.content, hi'.final⟩
  | abort x t =>
    simp only [process, processAbort] at hp
    split at hp <;> (injection hp with h1; cases h1)

/-- One call of an orderly history. -/
theorem file_act {W} {e : World W} {content final} (laws : Laws e content final) {a f0} {c : Conn W} {ms}
    (h : FileInv content final a f0 c.w c.r ms) (hl : c.log = ms.map encode) (x : Act)
    (ho : x = .message → (∃ s, (act e c.w c.r x).1 = .ok s) ∧ (c.r.state = .running → receivesFile c.r a = true → (c.r.file a).fd = true)) :
    ∃ ms', FileInv content final a f0 (c.act e x).w (c.act e x).r (ms ++ ms') ∧ (c.act e x).log = (ms ++ ms').map encode ∧ ∀ m ∈ ms', WF m := by
  have plain : x ≠ .message → FileInv content final a f0 (c.act e x).w (c.act e x).r ms →
      ∃ ms', FileInv content final a f0 (c.act e x).w (c.act e x).r (ms ++ ms') ∧ (c.act e x).log = (ms ++ ms').map encode ∧ ∀ m ∈ ms', WF m := by
    intro hx hi
    refine ⟨[], by rw [List.append_nil]; exact hi, ?_, fun _ h => nomatch h⟩
    simp only [Conn.act, consumed_nil _ _ _ hx, List.append_nil]; exact hl
  cases x with
  | clear =>
    refine plain (fun h => nomatch h) (h.keeps ⟨rfl, rfl, rfl, fun y => ?_, fun y => ?_⟩) <;> cases y <;> rfl
  | start i b => exact plain (fun h => nomatch h) (start_inv h i b)
  | write n =>
    refine plain (fun h => nomatch h) (h.keeps ?_)
    show Keeps c.r (write c.r n).2
    unfold write
    split; · exact keeps_refl _
    cases n with
    | none => exact keeps_refl _
    | some n =>
      simp only
      split; · exact keeps_refl _
      split <;> exact keeps_of rfl rfl rfl rfl rfl
  | sendHello =>
    refine plain (fun h => nomatch h) (h.keeps ?_)
    show Keeps c.r (sendHello c.r).2
    unfold sendHello
    split
    · exact keeps_refl _
    · exact keeps_of rfl rfl rfl rfl rfl
  | message =>
    obtain ⟨⟨s, hs⟩, hfd⟩ := ho rfl
    have hs' : (processMessage e c.w c.r).1 = .ok s := hs
    by_cases heof : c.r.state = .eof
    · have hp : processMessage e c.w c.r = (.ok .poll, c.r, c.w) := by unfold processMessage; rw [if_pos heof]
      refine ⟨[], ?_, ?_, fun _ h => nomatch h⟩
      · rw [List.append_nil]; simp only [Conn.act, act, hp]; exact h
      · simp only [Conn.act, act, hp, consumed, List.append_nil]; exact hl
    rcases frame_or_not c.r.input with ⟨f, rest, hf, hi⟩ | hn
    · have hp := processMessage_frame e c.w c.r f rest hf hi heof
      have hne := dispatch_ne_poll e c.w c.r f
      generalize hz : dispatch e c.w c.r f = z at hp hne
      obtain ⟨y, r', w'⟩ := z
      cases y with
      | ok s' =>
        simp only at hp
        obtain ⟨m, rfl, hwf, hal, hpr⟩ := dispatch_ok hf hz
        refine ⟨[m], ?_, ?_, fun x hx => by rw [List.mem_singleton.1 hx]; exact hwf⟩
        · simp only [Conn.act, act, hp]
          exact (process_inv laws h hal hfd hpr).keeps (keeps_of rfl rfl rfl rfl rfl)
        · simp only [Conn.act, act, hp, List.map_append, List.map_cons, List.map_nil]
          rw [hl]
          have ht : c.r.input.take (c.r.input.length - rest.length) = encode m := by
            rw [hi, List.length_append, Nat.add_sub_cancel]; exact List.take_left' rfl
          cases s' <;> first | exact absurd rfl hne | exact congrArg (fun t => ms.map encode ++ [t]) ht
      | err _ => rw [hp] at hs'; cases hs'
      | peer _ => rw [hp] at hs'; cases hs'
      | ub => rw [hp] at hs'; cases hs'
    · obtain ⟨h1, ⟨n, h2, h3⟩, h4, -⟩ := processMessage_none e c.w c.r hn
      refine ⟨[], ?_, ?_, fun _ h => nomatch h⟩
      · rw [List.append_nil]
        show FileInv content final a f0 (processMessage e c.w c.r).2.2 (processMessage e c.w c.r).2.1 ms
        rw [h1, h2]
        exact h.keeps (keeps_of rfl rfl rfl rfl rfl)
      · simp only [Conn.act, act, List.append_nil]
        rcases h4 with h4 | h4 <;> rw [h4] <;> simp [consumed, hl]
  | sendRequest =>
    refine plain (fun h => nomatch h) (h.keeps ?_)
    show Keeps c.r (sendRequest c.r).2
    unfold sendRequest
    split; · exact keeps_refl _
    split; · exact keeps_refl _
    split; · exact keeps_refl _
    simp only
    generalize requestLoop 4096 c.r.queue none none [] = z
    obtain ⟨x, b, ids, q⟩ := z
    cases x <;> exact keeps_of rfl rfl rfl rfl rfl
  | sendFile y d => exact plain (fun h => nomatch h) (sendFile_inv h y d)
  | read d =>
    refine plain (fun h => nomatch h) (h.keeps ?_)
    show Keeps c.r (read c.r d).2
    unfold read
    split; · exact keeps_refl _
    cases d with
    | none => exact keeps_refl _
    | some d =>
      simp only
      split; · exact keeps_refl _
      split; · exact keeps_refl _
      exact keeps_of rfl rfl rfl rfl rfl
  | putChunk id cc d =>
    refine plain (fun h => nomatch h) (h.keeps ?_)
    show Keeps c.r (putChunk c.r id cc d).2
    unfold putChunk
    split; · exact keeps_refl _
    split; · exact keeps_refl _
    split; · exact keeps_refl _
    split; · exact keeps_refl _
    cases canPutChunk c.r with
    | err _ => exact keeps_refl _
    | ub => exact keeps_refl _
    | ok b =>
      cases b with
      | false => exact keeps_refl _
      | true => simp only; split <;> exact keeps_of rfl rfl rfl rfl rfl
  | putMissing id =>
    refine plain (fun h => nomatch h) (h.keeps ?_)
    show Keeps c.r (putMissing c.r id).2
    unfold putMissing
    split; · exact keeps_refl _
    cases canPutChunk c.r with
    | err _ => exact keeps_refl _
    | ub => exact keeps_refl _
    | ok b => cases b <;> exact keeps_of rfl rfl rfl rfl rfl
  | putFile y d =>
    refine plain (fun h => nomatch h) (h.keeps ?_)
    show Keeps c.r (putFile c.r y d).2
    unfold putFile
    split; · exact keeps_refl _
    split; · exact keeps_refl _
    cases canPutFile c.r y with
    | err _ => exact keeps_refl _
    | ub => exact keeps_refl _
    | ok b =>
      cases b with
      | false => exact keeps_refl _
      | true => simp only; split <;> exact keeps_of rfl rfl rfl rfl rfl
  | putFileEof y => exact plain (fun h => nomatch h) (putFileEof_inv h y)
  | goodbye => exact plain (fun h => nomatch h) (install2_inv laws h).2.1
  | abort y t =>
    refine plain (fun h => nomatch h) (h.keeps ?_)
    show Keeps c.r (abort c.r y t).2
    unfold abort
    split; · exact keeps_refl _
    split; · exact keeps_refl _
    split; · exact keeps_refl _
    exact keeps_of rfl rfl rfl rfl rfl
  | queue o => exact plain (fun h => nomatch h) (h.keeps (keeps_of rfl rfl rfl rfl rfl))

theorem file_run {W} {e : World W} {content final} (laws : Laws e content final) {a f0} : ∀ (as : List Act) {c : Conn W} {ms},
    FileInv content final a f0 c.w c.r ms → c.log = ms.map encode → (∀ m ∈ ms, WF m) → Orderly e a c as →
    ∃ ms', FileInv content final a f0 (c.run e as).w (c.run e as).r ms' ∧ (c.run e as).log = ms'.map encode ∧ ∀ m ∈ ms', WF m
  | [], c, ms, h, hl, hw, _ => ⟨ms, h, hl, hw⟩
  | x :: xs, c, ms, h, hl, hw, ho => by
    obtain ⟨m1, g1, g2, g3⟩ := file_act laws h hl x ho.1
    refine file_run laws xs g1 g2 (fun m hm => ?_) ho.2
    rcases List.mem_append.1 hm with hm | hm
    · exact hw m hm
    · exact g3 m hm

end Casync.Remote
