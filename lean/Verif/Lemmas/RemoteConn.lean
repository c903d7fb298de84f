import Verif.Lemmas.RemoteRun
/-!
What each call does to the receive and the send buffer.
-/
namespace Casync.Remote
open Casync ChunkFile Spec

/-- The receive buffer is left alone. -/
def SameIn (r r' : R) : Prop := r'.input = r.input ∧ r'.frameSize = r.frameSize

theorem sameIn_refl (r : R) : SameIn r r := ⟨rfl, rfl⟩

theorem SameIn.trans {a b c : R} (h : SameIn a b) (h' : SameIn b c) : SameIn a c := ⟨h'.1.trans h.1, h'.2.trans h.2⟩

theorem sameIn_setFile (r : R) (a f) : SameIn r (r.setFile a f) := by cases a <;> exact ⟨rfl, rfl⟩

theorem fileOpen_in (r : R) (a b x) : SameIn r (fileOpen r a b x).2 := by
  unfold fileOpen
  simp only
  split; · exact sameIn_refl r
  split; · exact sameIn_refl r
  split; · exact sameIn_refl r
  cases x <;> exact sameIn_setFile ..

theorem openIfWanted_in (r : R) (a x) : SameIn r (openIfWanted r a x).2 := by
  unfold openIfWanted
  split; · exact fileOpen_in ..
  split; · exact fileOpen_in ..
  exact sameIn_refl r

theorem start_in (r : R) (a b) : SameIn r (start r a b).2 := by
  unfold start
  split; · exact sameIn_refl r
  split; · exact sameIn_refl r
  split; · exact sameIn_refl r
  have h1 := openIfWanted_in r false a
  generalize openIfWanted r false a = z at h1
  obtain ⟨x, r1⟩ := z
  cases x with
  | ok _ =>
    simp only
    have h2 := openIfWanted_in r1 true b
    generalize openIfWanted r1 true b = z at h2
    obtain ⟨x, r2⟩ := z
    cases x <;> exact h1.trans h2
  | err _ => exact h1
  | ub => exact h1

theorem write_in (r : R) (n) : SameIn r (write r n).2 := by
  unfold write
  split; · exact sameIn_refl r
  split; · exact sameIn_refl r
  split; · exact sameIn_refl r
  simp only
  split <;> exact ⟨rfl, rfl⟩

theorem sendHello_in (r : R) : SameIn r (sendHello r).2 := by
  unfold sendHello
  split <;> exact ⟨rfl, rfl⟩

theorem sendFile_in (r : R) (a d) : SameIn r (sendFile r a d).2 := by
  unfold sendFile
  split; · exact sameIn_refl r
  split; · exact sameIn_refl r
  split; · exact sameIn_refl r
  split; · exact sameIn_refl r
  split; · exact sameIn_refl r
  cases d with
  | err _ => exact sameIn_refl r
  | ub => exact sameIn_refl r
  | ok d =>
    simp only
    split; · exact sameIn_refl r
    split
    · cases a <;> exact ⟨rfl, rfl⟩
    · exact ⟨rfl, rfl⟩

theorem sendRequest_in (r : R) : SameIn r (sendRequest r).2 := by
  unfold sendRequest
  split; · exact sameIn_refl r
  split; · exact sameIn_refl r
  split; · exact sameIn_refl r
  simp only
  generalize requestLoop 4096 r.queue none none [] = z
  obtain ⟨x, b, ids, q⟩ := z
  cases x <;> exact ⟨rfl, rfl⟩

theorem putChunk_in (r : R) (id c d) : SameIn r (putChunk r id c d).2 := by
  unfold putChunk
  split; · exact sameIn_refl r
  split; · exact sameIn_refl r
  split; · exact sameIn_refl r
  split; · exact sameIn_refl r
  cases canPutChunk r with
  | err _ => exact sameIn_refl r
  | ub => exact sameIn_refl r
  | ok b =>
    cases b with
    | false => exact sameIn_refl r
    | true => simp only; split <;> exact ⟨rfl, rfl⟩

theorem putMissing_in (r : R) (id) : SameIn r (putMissing r id).2 := by
  unfold putMissing
  split; · exact sameIn_refl r
  cases canPutChunk r with
  | err _ => exact sameIn_refl r
  | ub => exact sameIn_refl r
  | ok b => cases b <;> exact ⟨rfl, rfl⟩

theorem putFile_in (r : R) (a d) : SameIn r (putFile r a d).2 := by
  unfold putFile
  split; · exact sameIn_refl r
  split; · exact sameIn_refl r
  cases canPutFile r a with
  | err _ => exact sameIn_refl r
  | ub => exact sameIn_refl r
  | ok b =>
    cases b with
    | false => exact sameIn_refl r
    | true => simp only; split <;> exact ⟨rfl, rfl⟩

theorem putFileEof_in (r : R) (a) : SameIn r (putFileEof r a).2 := by
  unfold putFileEof
  split; · exact sameIn_refl r
  cases canPutFile r a with
  | err _ => exact sameIn_refl r
  | ub => exact sameIn_refl r
  | ok b =>
    cases b with
    | false => exact sameIn_refl r
    | true => cases a <;> exact ⟨rfl, rfl⟩

theorem fileInstall_sameIn {W} (e : World W) (w : W) (r : R) (a) : SameIn r (fileInstall e w r a).2.1 := by
  unfold fileInstall
  simp only
  split; · exact sameIn_refl r
  cases e.rename w a with
  | mk x w' => cases x <;> first | exact sameIn_setFile .. | exact sameIn_refl r

theorem goodbye_in {W} (e : World W) (w : W) (r : R) : SameIn r (goodbye e w r).2.1 := by
  unfold goodbye
  split; · exact sameIn_refl r
  split; · exact sameIn_refl r
  have h1 := fileInstall_sameIn e w r false
  generalize fileInstall e w r false = z at h1
  obtain ⟨x, r1, w1⟩ := z
  cases x with
  | ok _ =>
    simp only
    have h2 := fileInstall_sameIn e w1 r1 true
    generalize fileInstall e w1 r1 true = z at h2
    obtain ⟨x, r2, w2⟩ := z
    cases x with
    | ok _ => exact (h1.trans h2)
    | err _ => exact h1.trans h2
    | ub => exact h1.trans h2
  | err _ => exact h1
  | ub => exact h1

theorem abort_in (r : R) (x s) : SameIn r (abort r x s).2 := by
  unfold abort
  split; · exact sameIn_refl r
  split; · exact sameIn_refl r
  split; · exact sameIn_refl r
  exact ⟨rfl, rfl⟩

/-- Only reading and processing touch the receive buffer. -/
theorem act_in {W} (e : World W) (w : W) (r : R) (a : Act) (h1 : ∀ d, a ≠ .read d) (h2 : a ≠ .message) : SameIn r (act e w r a).2.1 := by
  cases a with
  | clear => exact ⟨rfl, rfl⟩
  | start a b => exact start_in ..
  | write n => exact write_in ..
  | sendHello => exact sendHello_in ..
  | message => exact absurd rfl h2
  | sendRequest => exact sendRequest_in ..
  | sendFile a d => exact sendFile_in ..
  | read d => exact absurd rfl (h1 d)
  | putChunk id c d => exact putChunk_in ..
  | putMissing id => exact putMissing_in ..
  | putFile a d => exact putFile_in ..
  | putFileEof a => exact putFileEof_in ..
  | goodbye => exact goodbye_in ..
  | abort x s => exact abort_in ..
  | queue o => exact ⟨rfl, rfl⟩

/-- What is known about the receive side at any time. -/
structure RecvInv {W} (c : Conn W) : Prop where
  split : Split c.received c.log c.r.input
  size : c.r.frameSize ≤ 16777216
  len : c.r.input.length ≤ 16777216

theorem recvInv_new {W} (w : W) (l i a) : RecvInv (Conn.new w (R.new l i a)) :=
  ⟨⟨rfl, fun _ hf => nomatch hf⟩, Nat.zero_le _, Nat.zero_le _⟩

theorem consumed_nil (r r' : R) (a : Act) (h : a ≠ .message) (x) : consumed r r' a x = [] := by
  cases a <;> first | rfl | exact absurd rfl h

theorem arrived_nil (a : Act) (h : ∀ d, a ≠ .read d) (x) : arrived a x = [] := by
  cases a <;> first | rfl | exact absurd rfl (h _)

theorem recv_act {W} (e : World W) (c : Conn W) (a : Act) (h : RecvInv c) : RecvInv (c.act e a) := by
  by_cases hm : a = .message
  · subst hm
    have ha : (c.act e .message).received = c.received := by simp [Conn.act, arrived]
    rcases frame_or_not c.r.input with ⟨f, rest, hf, hi⟩ | hn
    · by_cases hs : c.r.state = .eof
      · have hp : processMessage e c.w c.r = (.ok .poll, c.r, c.w) := by unfold processMessage; rw [if_pos hs]
        have hr : (c.act e .message).r = c.r := by simp only [Conn.act, act, hp]
        have hl : (c.act e .message).log = c.log := by simp only [Conn.act, act, hp, consumed, List.append_nil]
        exact ⟨by rw [ha, hl, hr]; exact h.split, by rw [hr]; exact h.size, by rw [hr]; exact h.len⟩
      · have hp := processMessage_frame e c.w c.r f rest hf hi hs
        have hne := dispatch_ne_poll e c.w c.r f
        have hin := dispatch_input e c.w c.r f
        generalize dispatch e c.w c.r f = z at hp hne hin
        obtain ⟨x, r', w'⟩ := z
        cases x with
        | ok s =>
          have hr : (c.act e .message).r = withIn r' rest 0 := by simp only [Conn.act, act, hp]
          have ht : c.r.input.take (c.r.input.length - rest.length) = f := by
            rw [hi, List.length_append, Nat.add_sub_cancel]; exact List.take_left' rfl
          have hl : (c.act e .message).log = c.log ++ [f] := by
            simp only [Conn.act, act, hp]
            cases s <;> first | exact absurd rfl hne | exact congrArg (fun t => c.log ++ [t]) ht
          refine ⟨?_, ?_, ?_⟩
          · rw [ha, hl, hr]
            refine ⟨?_, fun g hg => ?_⟩
            · rw [h.split.1, hi]; simp [withIn]
            · rcases List.mem_append.1 hg with hg | hg
              · exact h.split.2 g hg
              · rw [List.mem_singleton.1 hg]; exact hf
          · rw [hr]; exact Nat.zero_le _
          · rw [hr]; have := h.len; rw [hi] at this; simp [withIn] at this ⊢; omega
        | err x =>
          have hr : (c.act e .message).r = r' := by simp only [Conn.act, act, hp]
          have hl : (c.act e .message).log = c.log := by simp only [Conn.act, act, hp, consumed, List.append_nil]
          exact ⟨by rw [ha, hl, hr, hin.1]; exact h.split, by rw [hr, hin.2]; exact h.size, by rw [hr, hin.1]; exact h.len⟩
        | peer x =>
          have hr : (c.act e .message).r = r' := by simp only [Conn.act, act, hp]
          have hl : (c.act e .message).log = c.log := by simp only [Conn.act, act, hp, consumed, List.append_nil]
          exact ⟨by rw [ha, hl, hr, hin.1]; exact h.split, by rw [hr, hin.2]; exact h.size, by rw [hr, hin.1]; exact h.len⟩
        | ub =>
          have hr : (c.act e .message).r = r' := by simp only [Conn.act, act, hp]
          have hl : (c.act e .message).log = c.log := by simp only [Conn.act, act, hp, consumed, List.append_nil]
          exact ⟨by rw [ha, hl, hr, hin.1]; exact h.split, by rw [hr, hin.2]; exact h.size, by rw [hr, hin.1]; exact h.len⟩
    · obtain ⟨h1, ⟨n, h2, h3⟩, h4, -⟩ := processMessage_none e c.w c.r hn
      have hr : (c.act e .message).r = { c.r with frameSize := n } := h2
      have hl : (c.act e .message).log = c.log := by
        simp only [Conn.act, act]
        rcases h4 with h4 | h4 <;> rw [h4] <;> simp [consumed]
      refine ⟨by rw [ha, hl, hr]; exact h.split, ?_, by rw [hr]; exact h.len⟩
      rw [hr]
      show n ≤ 16777216
      by_cases hn : n = c.r.frameSize
      · rw [hn]; exact h.size
      · exact (h3 hn).2
  · have hl : (c.act e a).log = c.log := by simp only [Conn.act, consumed_nil _ _ _ hm, List.append_nil]
    by_cases hd : ∃ d, a = .read d
    · obtain ⟨d, rfl⟩ := hd
      have hr : (c.act e (.read d)).r = (read c.r d).2 := rfl
      have hrecv : (c.act e (.read d)).received = c.received ++ arrived (.read d) (read c.r d).1 := rfl
      have goal : Split (c.act e (.read d)).received (c.act e (.read d)).log (read c.r d).2.input ∧ (read c.r d).2.frameSize = c.r.frameSize ∧
          (read c.r d).2.input.length ≤ 16777216 := by
        rw [hl, hrecv]
        unfold read
        by_cases h1 : c.r.input.length ≥ readSize c.r
        · rw [if_pos h1]
          refine ⟨?_, rfl, h.len⟩
          cases d with
          | none => simp only [arrived, List.append_nil]; exact h.split
          | some d => simp only [arrived, List.append_nil]; exact h.split
        · rw [if_neg h1]
          cases d with
          | none => simp only [arrived, List.append_nil]; exact ⟨h.split, trivial, h.len⟩
          | some d =>
            simp only
            by_cases h2 : d.length > readSize c.r - c.r.input.length
            · rw [if_pos h2]; simp only [arrived, List.append_nil]; exact ⟨h.split, trivial, h.len⟩
            · rw [if_neg h2]
              by_cases h3 : d = []
              · rw [if_pos h3]; simp only [arrived, List.append_nil]; exact ⟨h.split, trivial, h.len⟩
              · rw [if_neg h3]
                simp only [arrived]
                refine ⟨⟨?_, h.split.2⟩, trivial, ?_⟩
                · rw [h.split.1, List.append_assoc]
                · have hsz : readSize c.r ≤ 16777216 := Nat.max_le.2 ⟨h.size, by decide⟩
                  rw [List.length_append]; omega
      refine ⟨?_, ?_, ?_⟩
      · exact goal.1
      · exact (goal.2.1 : (read c.r d).2.frameSize = _) ▸ h.size
      · exact goal.2.2
    · have hd' : ∀ d, a ≠ .read d := fun d h => hd ⟨d, h⟩
      have hin := act_in e c.w c.r a hd' hm
      have ha : (c.act e a).received = c.received := by simp only [Conn.act, arrived_nil _ hd', List.append_nil]
      have hi : (c.act e a).r.input = c.r.input := hin.1
      have hf : (c.act e a).r.frameSize = c.r.frameSize := hin.2
      exact ⟨by rw [ha, hl, hi]; exact h.split, by rw [hf]; exact h.size, by rw [hi]; exact h.len⟩

theorem recv_run {W} (e : World W) : ∀ (as : List Act) (c : Conn W), RecvInv c → RecvInv (c.run e as)
  | [], _, h => h
  | a :: as, c, h => recv_run e as _ (recv_act e c a h)

/-- What `ca_remote_dequeue_request` delivers has 32 bytes. -/
theorem parse_len {v id : Bytes} (h : ChunkId.parse v = .ok (some id)) : id.length = 32 := by
  unfold ChunkId.parse at h
  obtain ⟨r, hr, h⟩ := Res.bind_eq_ok.1 h
  cases r with
  | none => cases h
  | some id' =>
    simp only at h
    obtain ⟨c, hc, h⟩ := Res.bind_eq_ok.1 h
    split at h
    · cases h
    · have := Option.some.inj (Res.ok.inj h); subst this
      exact ((ChunkId.parseLoop_ok _ _ _ _).1 hr).1

theorem dequeueLoop_len (only : Option Bool) : ∀ (fuel : Nat) (q : Q) (id : Bytes) (p : Bool) (q' : Q),
    dequeueLoop only fuel q = (.ok (id, p), q') → id.length = 32 ∧ (∀ x, only = some x → p = x)
  | 0, q, id, p, q', h => by cases h
  | fuel + 1, q, id, p, q', h => by
    unfold dequeueLoop at h
    cases hp : pick q only with
    | none => rw [hp] at h; cases h
    | some high =>
      rw [hp] at h
      simp only at h
      split at h
      · exact dequeueLoop_len only fuel _ id p q' h
      · cases hc : ChunkId.parse _ with
        | err _ => rw [hc] at h; cases h
        | ub => rw [hc] at h; cases h
        | ok o =>
          rw [hc] at h
          cases o with
          | none => cases h
          | some id' =>
            simp only [Prod.mk.injEq, Res.ok.injEq] at h
            obtain ⟨⟨rfl, rfl⟩, rfl⟩ := h
            refine ⟨parse_len hc, fun x hx => ?_⟩
            unfold pick at hp
            rw [hx] at hp
            split at hp
            · rename_i h1; injection hp with hp; subst hp
              cases x
              · exact absurd rfl h1.2
              · rfl
            · split at hp
              · rename_i h1; injection hp with hp; subst hp
                cases x
                · rfl
                · exact absurd rfl h1.2
              · cases hp

theorem dequeue_len {q : Q} {only : Option Bool} {id : Bytes} {p : Bool} {q' : Q} (h : dequeue q only = (.ok (id, p), q')) :
    id.length = 32 ∧ (∀ x, only = some x → p = x) := by
  unfold dequeue at h
  split at h
  · cases h
  · exact dequeueLoop_len _ _ _ _ _ _ h

/-- One turn after the other: these ids leave the queue with priority `p`. -/
inductive Taken : Q → Option Bool → Bool → List Bytes → Q → Prop
  | nil (q only p) : Taken q only p [] q
  | cons {q only p id q' ids q''} : dequeue q only = (.ok (id, p), q') → Taken q' (some p) p ids q'' → Taken q only p (id :: ids) q''

theorem requestLoop_spec : ∀ (fuel : Nat) (q : Q) (first only : Option Bool) (ids : List Bytes),
    (∀ id ∈ ids, id.length = 32) → 24 + 32 * ids.length < 65536 + 32 →
    ((only = none ∧ first = none ∧ ids = []) ∨ (∃ p, only = some p ∧ first = some p ∧ ids ≠ [])) →
    let x := requestLoop fuel q first only ids
    (∀ id ∈ x.2.2.1, id.length = 32) ∧ 24 + 32 * x.2.2.1.length < 65536 + 32 + 32 ∧
    ((x.2.1 = none ∧ x.2.2.1 = []) ∨ (∃ p, x.2.1 = some p ∧ x.2.2.1 ≠ [])) ∧ (first ≠ none → x.2.1 = first)
  | 0, q, first, only, ids, h1, h2, h3 => by
    refine ⟨h1, by simp only [requestLoop]; omega, ?_, fun _ => rfl⟩
    rcases h3 with ⟨_, h, h'⟩ | ⟨p, _, h, h'⟩
    · exact .inl ⟨h, h'⟩
    · exact .inr ⟨p, h, h'⟩
  | fuel + 1, q, first, only, ids, h1, h2, h3 => by
    have stop : ∀ (x : Res Unit) (q' : Q), let z : Res Unit × Option Bool × List Bytes × Q := (x, first, ids, q');
        (∀ id ∈ z.2.2.1, id.length = 32) ∧ 24 + 32 * z.2.2.1.length < 65536 + 32 + 32 ∧
        ((z.2.1 = none ∧ z.2.2.1 = []) ∨ (∃ p, z.2.1 = some p ∧ z.2.2.1 ≠ [])) ∧ (first ≠ none → z.2.1 = first) := by
      intro x q'
      refine ⟨h1, by simp only; omega, ?_, fun _ => rfl⟩
      rcases h3 with ⟨_, h, h'⟩ | ⟨p, _, h, h'⟩
      · exact .inl ⟨h, h'⟩
      · exact .inr ⟨p, h, h'⟩
    unfold requestLoop
    generalize hz : dequeue q only = z
    obtain ⟨x, q'⟩ := z
    cases x with
    | err x => cases x <;> exact stop _ _
    | ub => exact stop _ _
    | ok v =>
      obtain ⟨id, hp⟩ := v
      obtain ⟨l32, same⟩ := dequeue_len hz
      simp only
      have g1 : ∀ i ∈ ids ++ [id], i.length = 32 := by
        intro i hi
        rcases List.mem_append.1 hi with hi | hi
        · exact h1 i hi
        · rw [List.mem_singleton.1 hi]; exact l32
      have g3 : first.or (some hp) = some hp := by
        rcases h3 with ⟨_, h, _⟩ | ⟨p, ho, h, _⟩
        · rw [h]; rfl
        · rw [h, same p ho]; rfl
      rw [g3]
      have hfirst : first ≠ none → some hp = first := by
        intro hf
        rcases h3 with ⟨_, h, _⟩ | ⟨p, ho, h, _⟩
        · exact absurd h hf
        · rw [h, same p ho]
      by_cases hb : 24 + 32 * (ids ++ [id]).length ≥ BUF
      · rw [if_pos hb]
        exact ⟨g1, by simp at hb ⊢; omega, .inr ⟨hp, rfl, by simp⟩, hfirst⟩
      · rw [if_neg hb]
        have hb' : ¬ 24 + 32 * (ids ++ [id]).length ≥ 65536 := hb
        have := requestLoop_spec fuel q' (some hp) (some hp) (ids ++ [id]) g1 (by omega) (.inr ⟨hp, rfl, rfl, by simp⟩)
        refine ⟨this.1, this.2.1, this.2.2.1, fun hf => ?_⟩
        rw [this.2.2.2 (by simp)]; exact hfirst hf

/-- The ids are those that left the queue, and they all had the priority in the header. -/
theorem requestLoop_taken : ∀ (fuel : Nat) (q : Q) (first only : Option Bool) (ids : List Bytes),
    ∃ ids', (requestLoop fuel q first only ids).2.2.1 = ids ++ ids' ∧
      ((ids' = [] ∧ (requestLoop fuel q first only ids).2.1 = first) ∨
        ∃ p qm, Taken q only p ids' qm ∧ (requestLoop fuel q first only ids).2.1 = first.or (some p))
  | 0, q, first, only, ids => ⟨[], (List.append_nil _).symm, .inl ⟨rfl, rfl⟩⟩
  | fuel + 1, q, first, only, ids => by
    unfold requestLoop
    generalize hz : dequeue q only = z
    obtain ⟨x, q'⟩ := z
    cases x with
    | err x => cases x <;> exact ⟨[], (List.append_nil _).symm, .inl ⟨rfl, rfl⟩⟩
    | ub => exact ⟨[], (List.append_nil _).symm, .inl ⟨rfl, rfl⟩⟩
    | ok v =>
      obtain ⟨id, hp⟩ := v
      simp only
      by_cases hb : 24 + 32 * (ids ++ [id]).length ≥ BUF
      · rw [if_pos hb]
        exact ⟨[id], rfl, .inr ⟨hp, q', .cons hz (.nil _ _ _), rfl⟩⟩
      · rw [if_neg hb]
        obtain ⟨ids', h1, h2⟩ := requestLoop_taken fuel q' (first.or (some hp)) (some hp) (ids ++ [id])
        refine ⟨id :: ids', by rw [h1]; simp, .inr ?_⟩
        rcases h2 with ⟨rfl, h2⟩ | ⟨p, qm, ht, h2⟩
        · exact ⟨hp, q', .cons hz (.nil _ _ _), h2⟩
        · cases ht with
          | nil => exact ⟨hp, q', .cons hz (.nil _ _ _), by rw [h2]; cases first <;> rfl⟩
          | cons hd ht' =>
            have := (dequeue_len hd).2 hp rfl
            subst this
            exact ⟨_, qm, .cons hz (.cons hd ht'), by rw [h2]; cases first <;> rfl⟩

end Casync.Remote
