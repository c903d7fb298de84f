import Verif.Spec.Remote
import Verif.Lemmas.RemoteState
/-!
C32 (framing), C48 (messages), C49 (transfer of the index and the archive) and the part of C43 that is about the protocol.

A history is a list of calls (`Act`) with arbitrary arguments and arbitrary answers of the operating system; `ca_remote_step` is a
history of up to nine of them (`C32_step_is_history`).
-/
namespace Casync.Remote.Props
open Casync Casync.Remote Casync.Remote.Spec ChunkFile

/-! ### C32: framing -/

/-- **C32** Whatever is called, in whatever order, however the bytes are cut: the bytes received are the frames taken, in this order
and without anything between them, and then what still waits in the buffer. -/
theorem C32_stream {W} (e : World W) (w : W) (l : Nat) (i b : Bool) (as : List Act) :
    let c := (Conn.new w (R.new l i b)).run e as
    Split c.received c.log c.r.input :=
  (recv_run e as _ (recvInv_new w l i b)).split

/-- **C32** Two connections (other calls, other cuts, other objects) that received the same bytes took the same frames, up to the one
that is behind; when nothing complete waits in either, exactly the same frames. -/
theorem C32_same_frames {W V} (e : World W) (e' : World V) (w : W) (v : V) (l l' : Nat) (i b i' b' : Bool) (as as' : List Act)
    (h : ((Conn.new w (R.new l i b)).run e as).received = ((Conn.new v (R.new l' i' b')).run e' as').received) :
    let c := (Conn.new w (R.new l i b)).run e as
    let c' := (Conn.new v (R.new l' i' b')).run e' as'
    (c.log <+: c'.log ∨ c'.log <+: c.log) ∧ (Incomplete c.r.input → Incomplete c'.r.input → c.log = c'.log ∧ c.r.input = c'.r.input) := by
  have h1 := C32_stream e w l i b as
  have h2 := C32_stream e' v l' i' b' as'
  simp only at h1 h2 ⊢
  rw [h] at h1
  have nt : ∀ (t : List Bytes) (s rest : Bytes), (∀ f ∈ t, IsFrame f) → s = t.flatten ++ rest → Incomplete s → t = [] := by
    intro t s rest ht hs hi
    cases t with
    | nil => rfl
    | cons f t =>
      exact absurd (ht f List.mem_cons_self) (hi f (by rw [hs, List.flatten_cons, List.append_assoc]; exact ⟨_, rfl⟩))
  rcases split_unique h1 h2 with ⟨t, g1, g2⟩ | ⟨t, g1, g2⟩
  · refine ⟨.inl ⟨t, g1.symm⟩, fun i1 _ => ?_⟩
    have := nt t _ _ (fun f hf => h2.2 f (by rw [g1]; exact List.mem_append.2 (.inr hf))) g2 i1
    subst this
    exact ⟨by rw [g1, List.append_nil], g2⟩
  · refine ⟨.inr ⟨t, g1.symm⟩, fun _ i2 => ?_⟩
    have := nt t _ _ (fun f hf => h1.2 f (by rw [g1]; exact List.mem_append.2 (.inr hf))) g2 i2
    subst this
    exact ⟨by rw [g1, List.append_nil], g2.symm⟩

/-- **C32** A frame is not interpreted before it is complete: nothing happens outside the object, and in it only the size of the frame is
noted. -/
theorem C32_not_before_complete {W} (e : World W) (w : W) (r : R) (h : Incomplete r.input) :
    (processMessage e w r).2.2 = w ∧ (∃ n, (processMessage e w r).2.1 = { r with frameSize := n }) ∧
    ((processMessage e w r).1 = .ok .poll ∨ (processMessage e w r).1 = .err .EBADMSG) := by
  obtain ⟨h1, ⟨n, h2, _⟩, h3, _⟩ := processMessage_none e w r h
  exact ⟨h1, ⟨n, h2⟩, h3⟩

/-- **C32** As soon as the size and the type of a frame are there, a size below 16 or above 16 MiB is refused, and nothing else is: with
an acceptable size the answer is to wait. -/
theorem C32_sizes {W} (e : World W) (w : W) (r : R) (hs : r.state ≠ .eof) (h16 : 16 ≤ r.input.length) :
    (rdLE (r.input.take 8) < 16 ∨ rdLE (r.input.take 8) > 16777216 → processMessage e w r = (.err .EBADMSG, r, w)) ∧
    (¬ (rdLE (r.input.take 8) < 16 ∨ rdLE (r.input.take 8) > 16777216) → Incomplete r.input → (processMessage e w r).1 = .ok .poll) := by
  refine ⟨fun h => ?_, fun h hi => ?_⟩
  · unfold processMessage
    rw [if_neg hs, if_neg (by omega), rd_zero (by omega)]
    simp only
    by_cases h1 : rdLE (r.input.take 8) < SIZE_MIN
    · rw [if_pos h1]
    · rw [if_neg h1, if_pos (h.resolve_left h1)]
  · obtain ⟨_, _, h3, h4, _⟩ := processMessage_none e w r hi
    rcases h3 with h3 | h3
    · exact h3
    · exact absurd (h4.1 h3).2.2 h

/-- **C32** What a complete frame does depends on the frame and the rest of the object only: not on what follows it in the buffer, nor on
how it got there. -/
theorem C32_next {W} (e : World W) (w : W) (r : R) (f rest rest' : Bytes) (n n' : Nat) (hf : IsFrame f) (hs : r.state ≠ .eof) :
    let x := processMessage e w { r with input := f ++ rest, frameSize := n }
    let x' := processMessage e w { r with input := f ++ rest', frameSize := n' }
    x.1 = x'.1 ∧ x.2.2 = x'.2.2 ∧ { x.2.1 with input := [], frameSize := 0 } = { x'.2.1 with input := [], frameSize := 0 } ∧
    (∀ s, x.1 = .ok s → s ≠ .poll ∧ x.2.1.input = rest) := by
  have key : ∀ (rest : Bytes) (n : Nat), ∃ i m, processMessage e w { r with input := f ++ rest, frameSize := n } =
      ((dispatch e w r f).1, withIn (dispatch e w r f).2.1 i m, (dispatch e w r f).2.2) ∧
      (∀ s, (dispatch e w r f).1 = .ok s → i = rest) := by
    intro rest n
    have h := processMessage_frame e w (withIn r (f ++ rest) n) f rest hf rfl hs
    rw [dispatch_in] at h
    have hne := dispatch_ne_poll e w r f
    generalize dispatch e w r f = z at h hne ⊢
    obtain ⟨y, r', w'⟩ := z
    cases y with
    | ok s => exact ⟨rest, 0, h, fun _ _ => rfl⟩
    | err _ => exact ⟨_, _, h, fun _ hh => nomatch hh⟩
    | peer _ => exact ⟨_, _, h, fun _ hh => nomatch hh⟩
    | ub => exact ⟨_, _, h, fun _ hh => nomatch hh⟩
  obtain ⟨i1, m1, h1, g1⟩ := key rest n
  obtain ⟨i2, m2, h2, g2⟩ := key rest' n'
  simp only
  rw [h1, h2]
  refine ⟨rfl, rfl, rfl, fun s hs => ⟨fun hp => ?_, g1 s hs⟩⟩
  subst hp
  exact dispatch_ne_poll e w r f hs

/-- Only receiving happens, and every frame is accepted. -/
def Receiving {W} (e : World W) (c : Conn W) : List Act → Prop
  | [] => True
  | x :: xs => ((∃ d, x = .read d) ∨ (x = .message ∧ ∃ s, (Remote.act e c.w c.r x).1 = .ok s)) ∧ Receiving e (c.act e x) xs

theorem deliver_append {W} (e : World W) : ∀ (fs : List Bytes) (w : W) (r : R) (f : Bytes), deliver e w r (fs ++ [f]) =
    ((dispatch e (deliver e w r fs).2 (deliver e w r fs).1 f).2.1, (dispatch e (deliver e w r fs).2 (deliver e w r fs).1 f).2.2)
  | [], _, _, _ => rfl
  | g :: fs, w, r, f => by
    show deliver e _ _ (fs ++ [f]) = _
    rw [deliver_append e fs]; rfl

/-- **C32** When only receiving happens, the state afterwards — of the object, apart from its receive buffer, and of the world — is what
the frames do one after the other, however they were cut and whenever they were looked at. -/
theorem C32_receive_only {W} (e : World W) (w : W) (r : R) (as : List Act) (h : Receiving e (Conn.new w r) as) :
    let c := (Conn.new w r).run e as
    c.w = (deliver e w r c.log).2 ∧
    { c.r with input := [], frameSize := 0 } = { (deliver e w r c.log).1 with input := [], frameSize := 0 } := by
  suffices H : ∀ (as : List Act) (c : Conn W), Receiving e c as →
      (c.w = (deliver e w r c.log).2 ∧ c.r = withIn (deliver e w r c.log).1 c.r.input c.r.frameSize) →
      ((c.run e as).w = (deliver e w r (c.run e as).log).2 ∧
        (c.run e as).r = withIn (deliver e w r (c.run e as).log).1 (c.run e as).r.input (c.run e as).r.frameSize) by
    obtain ⟨h1, h2⟩ := H as _ h ⟨rfl, rfl⟩
    refine ⟨h1, ?_⟩
    have := congrArg (fun x : R => { x with input := [], frameSize := 0 }) h2
    exact this
  intro as
  induction as with
  | nil => exact fun c _ hc => hc
  | cons x xs ih =>
    intro c hre hc
    refine ih (c.act e x) hre.2 ?_
    obtain ⟨hcw, hcr⟩ := hc
    rcases hre.1 with ⟨d, rfl⟩ | ⟨rfl, s, hs⟩
    · -- read
      have hl : (c.act e (.read d)).log = c.log := by simp [Conn.act, consumed]
      have hw : (c.act e (.read d)).w = c.w := rfl
      have hr' : (c.act e (.read d)).r = (read c.r d).2 := rfl
      rw [hl, hw, hr']
      refine ⟨hcw, ?_⟩
      have : ∃ i, (read c.r d).2 = withIn c.r i c.r.frameSize := by
        unfold read
        split
        · exact ⟨_, rfl⟩
        simp only
        split
        · exact ⟨_, rfl⟩
        · split
          · exact ⟨_, rfl⟩
          split
          · exact ⟨_, rfl⟩
          · exact ⟨_, rfl⟩
      obtain ⟨i, hi⟩ := this
      rw [hi]
      rw [hcr]
      rfl
    · have hz : act e c.w c.r .message = processMessage e c.w c.r := rfl
      rw [hz] at hs
      by_cases heof : c.r.state = .eof
      · have hp : processMessage e c.w c.r = (.ok .poll, c.r, c.w) := by unfold processMessage; rw [if_pos heof]
        have hl : (c.act e .message).log = c.log := by simp [Conn.act, hz, hp, consumed]
        have hw : (c.act e .message).w = c.w := by simp [Conn.act, hz, hp]
        have hr' : (c.act e .message).r = c.r := by simp [Conn.act, hz, hp]
        rw [hl, hw, hr']; exact ⟨hcw, hcr⟩
      rcases frame_or_not c.r.input with ⟨f, rest, hf, hi⟩ | hn
      · have hp := processMessage_frame e c.w c.r f rest hf hi heof
        rw [hcr, dispatch_in] at hp
        have hst : (deliver e w r c.log).1.state = c.r.state := by rw [hcr]; rfl
        have hda := deliver_append e c.log w r f
        rw [hcw] at hp hs
        have hne := dispatch_ne_poll e (deliver e w r c.log).2 (deliver e w r c.log).1 f
        generalize dispatch e (deliver e w r c.log).2 (deliver e w r c.log).1 f = z at hp hda hne
        obtain ⟨y, r', w'⟩ := z
        rw [← hcr] at hp
        have hy : ∃ s', y = .ok s' := by
          cases y with
          | ok s' => exact ⟨s', rfl⟩
          | err _ => simp only at hp; rw [hp] at hs; cases hs
          | peer _ => simp only at hp; rw [hp] at hs; cases hs
          | ub => simp only at hp; rw [hp] at hs; cases hs
        obtain ⟨s', rfl⟩ := hy
        simp only at hp hda
        have hss : s' ≠ .poll := fun h => hne (by rw [h])
        rw [← hcw] at hp
        have hl : (c.act e .message).log = c.log ++ [f] := by
          simp only [Conn.act, hz, hp]
          congr 1
          have : consumed c.r (withIn (withIn r' c.r.input c.r.frameSize) rest 0) .message (.ok s') =
              [c.r.input.take (c.r.input.length - rest.length)] := by
            cases s' <;> first | exact absurd rfl hss | rfl
          rw [this, hi]
          congr 1
          rw [List.length_append, Nat.add_sub_cancel, List.take_left' rfl]
        have hw : (c.act e .message).w = w' := by simp only [Conn.act, hz, hp]
        have hr' : (c.act e .message).r = withIn (withIn r' c.r.input c.r.frameSize) rest 0 := by simp only [Conn.act, hz, hp]
        rw [hl, hw, hr', hda]
        exact ⟨rfl, rfl⟩
      · obtain ⟨h1, ⟨n, h2, _⟩, h3, _⟩ := processMessage_none e c.w c.r hn
        have h3' : (processMessage e c.w c.r).1 = .ok .poll := by
          rcases h3 with h3 | h3
          · exact h3
          · rw [h3] at hs; cases hs
        have hl : (c.act e .message).log = c.log := by simp only [Conn.act, hz, h3', consumed, List.append_nil]
        have hw : (c.act e .message).w = c.w := by simp only [Conn.act, hz, h1]
        have hr' : (c.act e .message).r = { c.r with frameSize := n } := by simp only [Conn.act, hz, h2]
        rw [hl, hw, hr']
        refine ⟨hcw, ?_⟩
        rw [hcr]; rfl

/-- **C32** There is always room to receive the rest of a frame: when the engine waits, the next read may ask for at least one byte. -/
theorem C32_progress {W} (e : World W) (w : W) (r : R) (hs : r.state ≠ .eof) (h : (processMessage e w r).1 = .ok .poll) :
    let r' := (processMessage e w r).2.1
    r'.input.length < readSize r' := by
  rcases frame_or_not r.input with ⟨f, rest, hf, hi⟩ | hn
  · have hp := processMessage_frame e w r f rest hf hi hs
    have hne := dispatch_ne_poll e w r f
    generalize dispatch e w r f = z at hp hne
    obtain ⟨y, r', w'⟩ := z
    cases y with
    | ok s => simp only at hp; rw [hp] at h; exact absurd h hne
    | err _ => simp only at hp; rw [hp] at h; cases h
    | peer _ => simp only at hp; rw [hp] at h; cases h
    | ub => simp only at hp; rw [hp] at h; cases h
  · obtain ⟨_, ⟨n, h2, _⟩, _, _, h5⟩ := processMessage_none e w r hn
    have h5 := h5 hs h
    simp only
    rw [h2] at h5 ⊢
    have hmax : readSize { r with frameSize := n } = max n 1048576 := rfl
    rw [hmax]
    show r.input.length < max n 1048576
    have h5' : r.input.length < 16 ∨ r.input.length < n := h5
    omega

/-- **C32** What waits in the receive buffer never exceeds 16 MiB, whatever the peer announces. -/
theorem C32_bounded {W} (e : World W) (w : W) (l : Nat) (i b : Bool) (as : List Act) :
    ((Conn.new w (R.new l i b)).run e as).r.input.length ≤ 16777216 :=
  (recv_run e as _ (recvInv_new w l i b)).len

/-- The parts of `ca_remote_step`, in order. -/
def stepActs (a : Answers) : List Act :=
  [.clear, .start a.openIndex a.openArchive, .write a.accepted, .sendHello, .message, .sendRequest, .sendFile false a.indexData,
    .sendFile true a.archiveData, .read a.got]

/-- `ca_remote_step` is a history: the parts up to the first that does not say "poll". -/
theorem C32_step_is_history {W} (e : World W) (c : Conn W) (a : Answers) :
    ∃ n, (c.run e ((stepActs a).take n)).r = (step' e c.w c.r a).2.1 ∧ (c.run e ((stepActs a).take n)).w = (step' e c.w c.r a).2.2 := by
  unfold step'
  by_cases h0 : c.r.state = .eof
  · rw [if_pos h0]; exact ⟨0, rfl, rfl⟩
  rw [if_neg h0]
  simp only
  by_cases h1 : (start (clearBuffers c.r) a.openIndex a.openArchive).1 ≠ .ok .poll
  · rw [if_pos h1]; exact ⟨2, rfl, rfl⟩
  rw [if_neg h1]
  split
  · exact ⟨3, rfl, rfl⟩
  split
  · exact ⟨4, rfl, rfl⟩
  split
  · exact ⟨5, rfl, rfl⟩
  split
  · exact ⟨6, rfl, rfl⟩
  split
  · exact ⟨7, rfl, rfl⟩
  split
  · exact ⟨8, rfl, rfl⟩
  · exact ⟨9, rfl, rfl⟩

/-! ### C48: messages -/

/-- **C48** A frame is accepted as a message exactly if it is that message's encoding and the message makes sense; checking a frame never
reads outside of it. -/
theorem C48_understood (f : Bytes) (hf : IsFrame f) : ∃ t o, rd f 8 = .ok t ∧ validate t f = .ok o ∧
    ∀ m, o = some m ↔ f = encode m ∧ WF m := by
  obtain ⟨t, b, rfl, ht, hb⟩ := isFrame_fr hf
  obtain ⟨o, h1, h2⟩ := validate_says t ht b hb
  refine ⟨t, o, rd_fr8 t b ht, h1, fun m => (h2 m).trans ⟨fun ⟨h3, h4, h5⟩ => ⟨?_, h5⟩, fun ⟨h3, h5⟩ => ?_⟩⟩
  · rw [encode_fr, h3, h4]
  · rw [encode_fr] at h3
    have hl : b.length = (body m).length := by
      have := congrArg List.length h3
      rw [fr_length, fr_length] at this; omega
    have h6 : le64 t ++ b = le64 (typeOf m) ++ body m := by
      have := congrArg (List.drop 8) h3
      rwa [fr_drop8, fr_drop8] at this
    have hb : b = body m := (List.append_inj_right' h6 hl)
    refine ⟨?_, hb.symm, h5⟩
    have h7 : le64 t = le64 (typeOf m) := List.append_inj_left' h6 hl
    have h8 := congrArg rdLE h7
    have hm : typeOf m < 2 ^ 64 := by
      cases m with
      | file a _ => cases a <;> (simp only [typeOf]; decide)
      | fileEof a => cases a <;> (simp only [typeOf]; decide)
      | _ => simp only [typeOf]; decide
    rw [rdLE_le64 ht, rdLE_le64 hm] at h8
    exact h8.symm

/-- **C48** Different messages have different encodings. -/
theorem C48_injective (m m' : Msg) (hm : WF m) (hm' : WF m') (hl : (encode m).length ≤ 16777216) (h : encode m = encode m') : m = m' := by
  have hlen : (encode m).length = 16 + (body m).length := by rw [encode_fr, fr_length]
  obtain ⟨t, o, _, _, h3⟩ := C48_understood (encode m) (by rw [encode_fr]; exact fr_isFrame _ _ (by omega))
  have h1 := (h3 m).2 ⟨rfl, hm⟩
  have h2 := (h3 m').2 ⟨h, hm'⟩
  rw [h1] at h2
  exact Option.some.inj h2

/-- **C48** A frame that is accepted was permitted in the state of the connection and by the operations both sides agreed on; any other
frame is refused with `EBADMSG` and has no effect. -/
theorem C48_permitted {W} (e : World W) (w : W) (r : R) (f : Bytes) (hf : IsFrame f) :
    (∃ m, f = encode m ∧ WF m ∧ Permitted r.state r.localFlags r.remoteFlags m ∧ dispatch e w r f = process e w r m) ∨
    ((¬ ∃ m, f = encode m ∧ WF m ∧ Permitted r.state r.localFlags r.remoteFlags m) ∧ dispatch e w r f = (.err .EBADMSG, r, w)) := by
  by_cases h : ∃ m, f = encode m ∧ WF m ∧ Permitted r.state r.localFlags r.remoteFlags m
  · obtain ⟨m, h1, h2, h3⟩ := h
    subst h1
    refine .inl ⟨m, rfl, h2, h3, dispatch_encode e w r m ⟨h2, ?_⟩ ((permitted_iff r m).2 h3)⟩
    have := hf.2.1
    rw [encode_fr, fr_length] at this; exact this
  · refine .inr ⟨h, ?_⟩
    rcases dispatch_cases e w r hf with h1 | ⟨m, h1, h2, h3, _⟩
    · exact h1
    · exact absurd ⟨m, h1, h2, (permitted_iff r m).1 h3⟩ h

/-- **C48** A greeting is accepted exactly if its flags are known, consistent, everything the peer wants is offered here, everything wanted
here is offered by the peer, and there is something to do. -/
theorem C48_hello (r r' : R) (fl : Nat) (s : Step) : processHello r fl = (.ok s, r') ↔
    s = .step ∧ r' = { r with remoteFlags := fl, state := .running } ∧ fl ≤ 0x1fff ∧
    (fl.testBit 11 → fl.testBit 10 ∧ fl.testBit 9) ∧ Served fl r.localFlags ∧ Served r.localFlags fl ∧
    (fl ||| r.localFlags) &&& 0x17c0 ≠ 0 := processHello_ok r r' fl s

/-- **C48** After every history: a connection past its greeting has a peer with which it agrees. -/
theorem C48_agreed {W} (e : World W) (w : W) (l : Nat) (i b : Bool) (as : List Act) :
    let r := ((Conn.new w (R.new l i b)).run e as).r
    r.state ≠ .hello → Served r.remoteFlags r.localFlags ∧ Served r.localFlags r.remoteFlags ∧ r.remoteFlags ≤ 0x1fff ∧
      (r.remoteFlags ||| r.localFlags) &&& 0x17c0 ≠ 0 :=
  good_run e as _ (fun h => absurd rfl h)

/-- **C48** Everything ever sent, together with what waits to be sent, is the encodings of sensible messages of at most 16 MiB, one after
the other: those that successful calls were meant to send, in order, and requests from the queue. -/
theorem C48_sent {W} (e : World W) (w : W) (l : Nat) (i b : Bool) (as : List Act) (hs : ∀ x ∈ as, Sensible x) (h0 : l ≠ 0)
    (h1 : l < 2 ^ 64 - 1) :
    let c := (Conn.new w (R.new l i b)).run e as
    ∃ ms : List Msg, c.sent ++ c.r.output = (ms.map encode).flatten ∧ (∀ m ∈ ms, WF m ∧ (encode m).length ≤ 16777216) ∧
      ms.filter (fun m => !isRequest m) = c.said := by
  obtain ⟨ms, h⟩ := send_run e as _ (sendInv_new w l i b) hs h0 h1
  refine ⟨ms, h.out, fun m hm => ⟨(h.fit m hm).1, ?_⟩, h.said⟩
  rw [encode_fr, fr_length]; exact (h.fit m hm).2

/-- The frames taken from a prefix of what a sender sent. -/
theorem log_of_wire {log : List Bytes} {ms : List Msg} {recv inp rest : Bytes} (h : Split recv log inp)
    (hw : recv ++ rest = (ms.map encode).flatten) (hf : ∀ m ∈ ms, WF m ∧ (encode m).length ≤ 16777216) :
    ∃ p t, ms = p ++ t ∧ log = p.map encode := by
  have hF : ∀ f ∈ ms.map encode, IsFrame f := by
    intro f hff
    obtain ⟨m, hm, rfl⟩ := List.mem_map.1 hff
    have := (hf m hm).2
    rw [encode_fr] at this ⊢
    rw [fr_length] at this
    exact fr_isFrame _ _ this
  have h1 : Split (recv ++ rest) log (inp ++ rest) := ⟨by rw [h.1, List.append_assoc], h.2⟩
  have h2 : Split (recv ++ rest) (ms.map encode) [] := ⟨by rw [hw, List.append_nil], hF⟩
  rcases split_unique h1 h2 with ⟨t, g1, g2⟩ | ⟨t, g1, g2⟩
  · obtain ⟨p, q, hpq, hp, _⟩ := List.map_eq_append_iff.1 g1
    exact ⟨p, q, hpq, hp.symm⟩
  · have : t = [] := by
      cases t with
      | nil => rfl
      | cons f t =>
        have hf := h1.2 f (by rw [g1]; exact List.mem_append.2 (.inr List.mem_cons_self))
        have h16 := hf.1
        have := congrArg List.length g2
        simp only [List.length_nil, List.flatten_cons, List.length_append] at this
        omega
    subst this
    exact ⟨ms, [], by simp, by rw [g1, List.append_nil]⟩

/-- **C48** Two peers: if what one has received is a beginning of what the other has sent (the transport neither loses, reorders nor invents
bytes), then the frames it took are a beginning of the messages of the other, whatever both do. -/
theorem C48_end_to_end {W V} (e : World W) (e' : World V) (w : W) (v : V) (l l' : Nat) (i b i' b' : Bool) (as as' : List Act)
    (hs : ∀ x ∈ as, Sensible x) (h0 : l ≠ 0) (h1 : l < 2 ^ 64 - 1)
    (hrecv : ((Conn.new v (R.new l' i' b')).run e' as').received <+: ((Conn.new w (R.new l i b)).run e as).sent) :
    let sender := (Conn.new w (R.new l i b)).run e as
    let receiver := (Conn.new v (R.new l' i' b')).run e' as'
    ∃ ms p t : List Msg, ms = p ++ t ∧ ms.filter (fun m => !isRequest m) = sender.said ∧ (∀ m ∈ ms, WF m) ∧ receiver.log = p.map encode := by
  obtain ⟨ms, h2, h3, h4⟩ := C48_sent e w l i b as hs h0 h1
  obtain ⟨rest, hrest⟩ := hrecv
  have h5 := C32_stream e' v l' i' b' as'
  simp only at h2 h5 ⊢
  obtain ⟨p, t, h6, h7⟩ := log_of_wire h5 (rest := rest ++ ((Conn.new w (R.new l i b)).run e as).r.output)
    (by rw [← List.append_assoc, hrest, h2]) h3
  exact ⟨ms, p, t, h6, h4, fun m hm => (h3 m hm).1, h7⟩

/-- **C48** A request that is sent contains, in order, exactly ids that were taken from the queue, all of the announced priority. -/
theorem C48_requests (r : R) (h : (sendRequest r).1 = .ok .step) : ∃ p ids qm, Taken r.queue none p ids qm ∧ ids ≠ [] ∧
    (sendRequest r).2.output = r.output ++ encode (.request p ids) ∧ ∀ id ∈ ids, id.length = 32 := by
  unfold sendRequest at h ⊢
  split at h; · cases h
  rename_i h1
  rw [if_neg h1]
  split at h; · cases h
  rename_i h2
  rw [if_neg h2]
  split at h; · cases h
  rename_i h3
  rw [if_neg h3]
  obtain ⟨ids', k1, k2⟩ := requestLoop_taken 4096 r.queue none none []
  have k3 := requestLoop_spec 4096 r.queue none none [] (fun _ h => nomatch h) (by decide) (.inl ⟨rfl, rfl, rfl⟩)
  simp only at k3 h ⊢
  generalize requestLoop 4096 r.queue none none [] = x at *
  obtain ⟨rc, first, ids, q⟩ := x
  simp only at *
  rw [List.nil_append] at k1
  subst k1
  cases rc with
  | err _ => cases h
  | ub => cases h
  | ok u =>
    simp only at h ⊢
    by_cases hn : ids = []
    · rw [if_pos hn] at h; cases h
    rcases k2 with ⟨k2, _⟩ | ⟨p, qm, k2, k4⟩
    · exact absurd k2 hn
    refine ⟨p, ids, qm, k2, hn, ?_, k3.1⟩
    rw [if_neg hn, k4]
    show _ ++ requestFrame p ids = _
    rw [requestFrame_encode p ids k3.1]

/-! ### C49: transfer of the index and the archive -/

/-- **C49** The file that is received is under its final name only when its end was announced, and then it consists of exactly the pieces
that came: at every moment of every history the final name has what it had before, or the complete file. -/
theorem C49_final {W} (e : World W) (content : W → Bool → Bytes) (final : W → Bool → Option Bytes) (laws : Laws e content final)
    (a : Bool) (w : W) (hw : content w a = []) (l : Nat) (i b : Bool) (as : List Act)
    (ho : Orderly e a (Conn.new w (R.new l i b)) as) :
    let c := (Conn.new w (R.new l i b)).run e as
    ∃ ms : List Msg, c.log = ms.map encode ∧ (∀ m ∈ ms, WF m) ∧ content c.w a = fileData a ms ∧
      (final c.w a = final w a ∨ (Ended a ms ∧ final c.w a = some (fileData a ms))) := by
  have h0 : FileInv content final a (final w a) w (R.new l i b) [] := by
    refine ⟨fun _ => ⟨rfl, fun x => by cases x <;> exact ⟨rfl, rfl⟩⟩, fun x hx => ?_, fun x hx => ?_, (fun x hx => nomatch hx), hw, .inl rfl⟩
    · cases x <;> cases hx
    · cases x <;> cases hx
  obtain ⟨ms, h1, h2, h3⟩ := file_run (ms := []) laws as h0 rfl (fun _ h => nomatch h) ho
  exact ⟨ms, h2, h3, h1.content, h1.final⟩

theorem fileData_filter (a : Bool) : ∀ ms : List Msg, fileData a (ms.filter fun m => !isRequest m) = fileData a ms
  | [] => rfl
  | m :: ms => by
    have ih := fileData_filter a ms
    have hc : ∀ l, fileData a (m :: l) = fileData a [m] ++ fileData a l := fun l => fileData_append a [m] l
    cases hm : isRequest m with
    | true =>
      rw [List.filter_cons_of_neg (by rw [hm]; decide), ih, hc ms, fileData_other a (fun d hd => by rw [hd] at hm; cases hm), List.nil_append]
    | false => rw [List.filter_cons_of_pos (by rw [hm]; rfl), hc (ms.filter _), hc ms, ih]

/-- **C49** Two peers: the final name has what it had before, or exactly what the sender put, all of it: whatever the schedules, the cuts of
the transport and the other messages. -/
theorem C49_end_to_end {W V} (e : World W) (e' : World V) (content : V → Bool → Bytes) (final : V → Bool → Option Bytes)
    (laws : Laws e' content final) (a : Bool) (w : W) (v : V) (hv : content v a = []) (l l' : Nat) (i b i' b' : Bool) (as as' : List Act)
    (hs : ∀ x ∈ as, Sensible x) (h0 : l ≠ 0) (h1 : l < 2 ^ 64 - 1) (ho : Orderly e' a (Conn.new v (R.new l' i' b')) as')
    (hrecv : ((Conn.new v (R.new l' i' b')).run e' as').received <+: ((Conn.new w (R.new l i b)).run e as).sent) :
    let sender := (Conn.new w (R.new l i b)).run e as
    let receiver := (Conn.new v (R.new l' i' b')).run e' as'
    final receiver.w a = final v a ∨ (Ended a sender.said ∧ final receiver.w a = some (fileData a sender.said)) := by
  obtain ⟨ms, h2, h3, h4⟩ := C48_sent e w l i b as hs h0 h1
  obtain ⟨rest, hrest⟩ := hrecv
  have h5 := C32_stream e' v l' i' b' as'
  obtain ⟨mr, k1, k2, k3, k4⟩ := C49_final e' content final laws a v hv l' i' b' as' ho
  simp only at h2 h5 k1 k3 k4 ⊢
  obtain ⟨p, t, h6, h7⟩ := log_of_wire h5 (rest := rest ++ ((Conn.new w (R.new l i b)).run e as).r.output)
    (by rw [← List.append_assoc, hrest, h2]) h3
  have hmr : mr = p := by
    rw [k1] at h7
    have hp : ∀ m ∈ p, WF m ∧ (encode m).length ≤ 16777216 := fun m hm => h3 m (by rw [h6]; exact List.mem_append.2 (.inl hm))
    clear h5 k1 k3 k4 h6
    induction mr generalizing p with
    | nil => cases p with
      | nil => rfl
      | cons x p => cases h7
    | cons x mr ih => cases p with
      | nil => cases h7
      | cons y p =>
        simp only [List.map_cons, List.cons.injEq] at h7
        have hxy := C48_injective y x (hp y List.mem_cons_self).1 (k2 x List.mem_cons_self) (hp y List.mem_cons_self).2 h7.1.symm
        rw [ih (fun m hm => k2 m (List.mem_cons_of_mem _ hm)) p h7.2 (fun m hm => hp m (List.mem_cons_of_mem _ hm)), hxy]
  rcases k4 with k4 | ⟨k4, k5⟩
  · exact .inl k4
  · refine .inr ?_
    rw [hmr] at k4 k5
    have hsay := say_run e a as (Conn.new w (R.new l i b)) ⟨(fun h => nomatch h), fun p t hp he => by
      have hp' : ([] : List Msg) = p ++ t := hp
      have : p = [] := by cases p with
        | nil => rfl
        | cons _ _ => cases hp'
      rw [this] at he; cases he⟩
    rw [h6, List.filter_append] at h4
    have hE : Ended a (p.filter fun m => !isRequest m) := List.mem_filter.2 ⟨k4, rfl⟩
    have h8 := hsay.last _ _ h4.symm hE
    refine ⟨by rw [← h4]; exact List.mem_append.2 (.inl hE), ?_⟩
    rw [k5, h8, fileData_filter]

/-- **C49** Histories of `ca_remote_step` on an object with a path for the file are orderly as long as frames are accepted: before it looks
at a frame of a running connection it has opened the file. -/
theorem C49_step_orderly {W} (e : World W) (c : Conn W) (a : Bool) (x : Answers) (hp : (c.r.file a).path = true)
    (hok' : ∃ s, (step' e c.w c.r x).1 = .ok s) :
    ∃ n, (c.run e ((stepActs x).take n)).r = (step' e c.w c.r x).2.1 ∧ (c.run e ((stepActs x).take n)).w = (step' e c.w c.r x).2.2 ∧
      Orderly e a c ((stepActs x).take n) := by
  have nm : ∀ {y : Act} {c' : Conn W}, y ≠ .message → (y = .message →
      (∃ s, (Remote.act e c'.w c'.r y).1 = .ok s) ∧ (c'.r.state = .running → receivesFile c'.r a = true → (c'.r.file a).fd = true)) :=
    fun h h' => absurd h' h
  have hopen : ∀ (r : R) (y : Bool) (k : Res Unit), (openIfWanted r y k).1 = .ok () →
      ((openIfWanted r y k).2.state = r.state ∧ (openIfWanted r y k).2.remoteFlags = r.remoteFlags ∧ (openIfWanted r y k).2.localFlags = r.localFlags) ∧
      ((openIfWanted r y k).2.file (!y) = r.file (!y)) ∧
      ((r.file y).path = true → r.state = .running → receivesFile r y = true → ((openIfWanted r y k).2.file y).fd = true) := by
    intro r y k hk
    have hfo : ∀ wr, (fileOpen r y wr k).1 = .ok () →
        ((fileOpen r y wr k).2.state = r.state ∧ (fileOpen r y wr k).2.remoteFlags = r.remoteFlags ∧ (fileOpen r y wr k).2.localFlags = r.localFlags) ∧
        ((fileOpen r y wr k).2.file (!y) = r.file (!y)) ∧
        ((r.file y).path = true → r.state = .running → ((fileOpen r y wr k).2.file y).fd = true) := by
      intro wr hk
      unfold fileOpen at hk ⊢
      by_cases g1 : r.state ≠ .running
      · rw [if_pos g1]; exact ⟨⟨rfl, rfl, rfl⟩, rfl, fun _ h => absurd h g1⟩
      rw [if_neg g1] at hk ⊢
      by_cases g2 : (r.file y).fd = true
      · rw [if_pos g2]; exact ⟨⟨rfl, rfl, rfl⟩, rfl, fun _ _ => g2⟩
      rw [if_neg g2] at hk ⊢
      by_cases g3 : (!(r.file y).path) = true
      · rw [if_pos g3]; exact ⟨⟨rfl, rfl, rfl⟩, rfl, fun h _ => by rw [h] at g3; cases g3⟩
      rw [if_neg g3] at hk ⊢
      cases k with
      | err _ => cases hk
      | ub => cases hk
      | ok u =>
        simp only
        refine ⟨?_, ?_, fun _ _ => ?_⟩
        · cases y <;> exact ⟨rfl, rfl, rfl⟩
        · rw [file_setFile, if_neg (by cases y <;> decide)]
        · rw [file_setFile, if_pos rfl]
    unfold openIfWanted at hk ⊢
    by_cases g1 : sendsFile r y = true
    · rw [if_pos g1] at hk ⊢
      obtain ⟨a1, a2, a3⟩ := hfo false hk
      exact ⟨a1, a2, fun p s _ => a3 p s⟩
    rw [if_neg g1] at hk ⊢
    by_cases g2 : receivesFile r y = true
    · rw [if_pos g2] at hk ⊢
      obtain ⟨a1, a2, a3⟩ := hfo true hk
      exact ⟨a1, a2, fun p s _ => a3 p s⟩
    · rw [if_neg g2]; exact ⟨⟨rfl, rfl, rfl⟩, rfl, fun _ _ h => absurd h g2⟩
  have hstart : ∀ (r : R), (r.file a).path = true → (start r x.openIndex x.openArchive).1 = .ok .poll →
      (start r x.openIndex x.openArchive).2.state = .running → receivesFile (start r x.openIndex x.openArchive).2 a = true →
      ((start r x.openIndex x.openArchive).2.file a).fd = true := by
    intro r hpath hk
    unfold start at hk ⊢
    by_cases g1 : r.localFlags = NO_FLAGS
    · rw [if_pos g1] at hk; cases hk
    rw [if_neg g1] at hk ⊢
    split at hk; · cases hk
    rename_i g2; rw [if_neg g2]
    split at hk; · cases hk
    rename_i g3; rw [if_neg g3]
    have o1 := hopen r false x.openIndex
    generalize openIfWanted r false x.openIndex = z at o1 hk ⊢
    obtain ⟨y, r1⟩ := z
    cases y with
    | err _ => cases hk
    | ub => cases hk
    | ok u =>
      simp only at hk ⊢
      obtain ⟨⟨s1, s2, s3⟩, s4, s5⟩ := o1 rfl
      have o2 := hopen r1 true x.openArchive
      generalize openIfWanted r1 true x.openArchive = z at o2 hk ⊢
      obtain ⟨y, r2⟩ := z
      cases y with
      | err _ => cases hk
      | ub => cases hk
      | ok u =>
        obtain ⟨⟨t1, t2, t3⟩, t4, t5⟩ := o2 rfl
        simp only at s1 s2 s3 s4 s5 t1 t2 t3 t4 t5 ⊢
        intro hr hrec
        have e1 : receivesFile r2 a = receivesFile r1 a := by unfold receivesFile; rw [t2, t3]
        have e2 : receivesFile r1 a = receivesFile r a := by unfold receivesFile; rw [s2, s3]
        cases a with
        | false =>
          rw [show r2.file false = r1.file false from t4]
          exact s5 hpath (by rw [← s1, ← t1]; exact hr) (by rw [← e2, ← e1]; exact hrec)
        | true =>
          refine t5 ?_ (by rw [← t1]; exact hr) (by rw [← e1]; exact hrec)
          rw [show r1.file true = r.file true from s4]; exact hpath
  have hclear : ((clearBuffers c.r).file a).path = true := by cases a <;> exact hp
  have hwr : ∀ (r : R) (n), (write r n).2.file a = r.file a ∧ (write r n).2.state = r.state ∧ (write r n).2.remoteFlags = r.remoteFlags ∧
      (write r n).2.localFlags = r.localFlags := by
    intro r n
    unfold write
    split; · exact ⟨rfl, rfl, rfl, rfl⟩
    split; · exact ⟨rfl, rfl, rfl, rfl⟩
    split; · exact ⟨rfl, rfl, rfl, rfl⟩
    simp only
    split <;> exact ⟨rfl, rfl, rfl, rfl⟩
  have hhe : ∀ (r : R), (sendHello r).2.file a = r.file a ∧ (sendHello r).2.state = r.state ∧ (sendHello r).2.remoteFlags = r.remoteFlags ∧
      (sendHello r).2.localFlags = r.localFlags := by
    intro r
    unfold sendHello
    split <;> exact ⟨rfl, rfl, rfl, rfl⟩
  unfold step' at hok' ⊢
  by_cases h0 : c.r.state = .eof
  · rw [if_pos h0]; exact ⟨0, rfl, rfl, trivial⟩
  rw [if_neg h0] at hok' ⊢
  simp only at hok' ⊢
  by_cases h1 : (start (clearBuffers c.r) x.openIndex x.openArchive).1 ≠ .ok .poll
  · rw [if_pos h1]; exact ⟨2, rfl, rfl, nm (fun h => nomatch h), nm (fun h => nomatch h), trivial⟩
  rw [if_neg h1] at hok' ⊢
  have hst := hstart (clearBuffers c.r) hclear (Decidable.not_not.1 h1)
  generalize hr1 : (start (clearBuffers c.r) x.openIndex x.openArchive).2 = r1 at hok' hst ⊢
  by_cases h2 : (write r1 x.accepted).1 ≠ .ok .poll
  · rw [if_pos h2]; subst hr1; exact ⟨3, rfl, rfl, nm (fun h => nomatch h), nm (fun h => nomatch h), nm (fun h => nomatch h), trivial⟩
  rw [if_neg h2] at hok' ⊢
  have w1 := hwr r1 x.accepted
  generalize hr2 : (write r1 x.accepted).2 = r2 at hok' w1 ⊢
  by_cases h3 : (sendHello r2).1 ≠ .ok .poll
  · rw [if_pos h3]; subst hr2; subst hr1
    exact ⟨4, rfl, rfl, nm (fun h => nomatch h), nm (fun h => nomatch h), nm (fun h => nomatch h), nm (fun h => nomatch h), trivial⟩
  rw [if_neg h3] at hok' ⊢
  have w2 := hhe r2
  generalize hr3 : (sendHello r2).2 = r3 at hok' w2 ⊢
  have hfd : r3.state = .running → receivesFile r3 a = true → (r3.file a).fd = true := by
    intro hs hrec
    rw [w2.1, w1.1]
    refine hst (by rw [← w1.2.1, ← w2.2.1]; exact hs) ?_
    unfold receivesFile at hrec ⊢
    rw [w2.2.2.1, w2.2.2.2, w1.2.2.1, w1.2.2.2] at hrec
    exact hrec
  have hmsg : ∃ s, (processMessage e c.w r3).1 = .ok s := by
    by_cases h4 : (processMessage e c.w r3).1 ≠ .ok .poll
    · rw [if_pos h4] at hok'; exact hok'
    · exact ⟨_, Decidable.not_not.1 h4⟩
  have om : ∀ rest, Orderly e a ((Conn.run e c [.clear, .start x.openIndex x.openArchive, .write x.accepted, .sendHello]).act e .message) rest →
      Orderly e a c (.clear :: .start x.openIndex x.openArchive :: .write x.accepted :: .sendHello :: .message :: rest) := by
    intro rest hrest
    refine ⟨nm (fun h => nomatch h), nm (fun h => nomatch h), nm (fun h => nomatch h), nm (fun h => nomatch h), fun _ => ⟨?_, ?_⟩, hrest⟩
    · subst hr3; subst hr2; subst hr1; exact hmsg
    · subst hr3; subst hr2; subst hr1; exact hfd
  split
  · subst hr3; subst hr2; subst hr1; exact ⟨5, rfl, rfl, om [] trivial⟩
  split
  · subst hr3; subst hr2; subst hr1; exact ⟨6, rfl, rfl, om [_] ⟨nm (fun h => nomatch h), trivial⟩⟩
  split
  · subst hr3; subst hr2; subst hr1; exact ⟨7, rfl, rfl, om [_, _] ⟨nm (fun h => nomatch h), nm (fun h => nomatch h), trivial⟩⟩
  split
  · subst hr3; subst hr2; subst hr1
    exact ⟨8, rfl, rfl, om [_, _, _] ⟨nm (fun h => nomatch h), nm (fun h => nomatch h), nm (fun h => nomatch h), trivial⟩⟩
  · subst hr3; subst hr2; subst hr1
    exact ⟨9, rfl, rfl, om [_, _, _, _] ⟨nm (fun h => nomatch h), nm (fun h => nomatch h), nm (fun h => nomatch h), nm (fun h => nomatch h), trivial⟩⟩

/-! ### C43: chunks that cannot be transferred -/

/-- **C43** A running connection with room to send accepts a chunk of legal size exactly if its frame is at most 16 MiB. -/
theorem C43_transfer (r : R) (id : Bytes) (c : Compression) (d : Bytes) (hc : c ≠ .asIs) (hr : canPutChunk r = .ok true)
    (h1 : 1 ≤ d.length) (h2 : d.length ≤ 128 * 1024 * 1024) :
    ((putChunk r id c d).1 = .ok () ↔ d.length ≤ 16 * 1024 * 1024 - 56) ∧
    (d.length > 16 * 1024 * 1024 - 56 → putChunk r id c d = (.err .EFBIG, r)) := by
  have hh : ¬ (!has r.remoteFlags PULL_CHUNKS && !has r.localFlags PUSH_CHUNKS) = true := by
    unfold canPutChunk at hr
    split at hr; · cases hr
    split at hr; · cases hr
    assumption
  have hmax : ¬ d.length > ChunkFile.MAX := by
    have : ChunkFile.MAX = 128 * 1024 * 1024 := rfl
    omega
  unfold putChunk
  rw [if_neg (by omega), if_neg hmax, if_neg hc, if_neg hh, hr]
  simp only
  by_cases h : 56 + d.length > SIZE_MAX
  · have h' : 56 + d.length > 16 * 1024 * 1024 := h
    rw [if_pos h]
    exact ⟨⟨(fun hh => nomatch hh), fun hh => absurd hh (by omega)⟩, fun _ => rfl⟩
  · have h' : ¬ 56 + d.length > 16 * 1024 * 1024 := h
    rw [if_neg h]
    exact ⟨⟨fun _ => by omega, fun _ => rfl⟩, fun hh => absurd hh (by omega)⟩

/-- **C43** fails: there is a chunk of legal size that no connection can transfer. -/
theorem C43_transfer_violated : ∃ d : Bytes, 1 ≤ d.length ∧ d.length ≤ 128 * 1024 * 1024 ∧ ∀ r id c, (putChunk r id c d).1 ≠ .ok () := by
  refine ⟨List.replicate (16 * 1024 * 1024) 0, by rw [List.length_replicate]; decide, by rw [List.length_replicate]; decide, fun r id c h => ?_⟩
  have hl : (List.replicate (16 * 1024 * 1024) (0 : UInt8)).length = 16 * 1024 * 1024 := List.length_replicate
  generalize List.replicate (16 * 1024 * 1024) (0 : UInt8) = d at h hl
  by_cases hr : canPutChunk r = .ok true
  · by_cases hc : c = .asIs
    · subst hc
      unfold putChunk at h
      rw [if_neg (by omega), if_neg (by show ¬ d.length > 128 * 1024 * 1024; omega), if_pos rfl] at h
      cases h
    · have := ((C43_transfer r id c d hc hr (by omega) (by omega)).1.1 h)
      omega
  · unfold putChunk at h
    split at h; · cases h
    split at h; · cases h
    split at h; · cases h
    split at h; · cases h
    cases hcp : canPutChunk r with
    | err _ => rw [hcp] at h; cases h
    | ub => rw [hcp] at h; cases h
    | ok b => cases b with
      | false => rw [hcp] at h; cases h
      | true => exact hr hcp

/-! ### A concrete connection

One side pulls an index, the other serves it: the histories below meet the hypotheses of the theorems above and do something. -/

/-- A world with two files and nothing else. -/
structure Disk where
  temp : Bool → Bytes
  final : Bool → Option Bytes

/-- Its operations. -/
def disk : World Disk where
  save := fun w _ _ _ => (.ok (), w)
  missing := fun w _ => (.ok (), w)
  write := fun w a d => (.ok (), { w with temp := fun x => if x = a then w.temp x ++ d else w.temp x })
  rename := fun w a => (.ok (), { w with final := fun x => if x = a then some (w.temp a) else w.final x })

theorem disk_laws : Laws disk Disk.temp Disk.final := by
  constructor
  case write_ok => intro w a d w' h; cases h; rfl
  case write_other => intro w a d; cases a <;> rfl
  case rename_ok => intro w a w' h; cases h; rfl
  case rename_err => intro w a h; exact absurd rfl h
  all_goals (intros; rfl)

def disk0 : Disk := ⟨fun _ => [], fun _ => some [9]⟩

/-- What the serving side says. -/
def served : List Msg := [.hello 4, .file false [1, 2, 3], .file false [4], .fileEof false, .goodbye]

/-- The serving side: it greets, understands the greeting of the other side, sends two pieces of its index, the end, the farewell. -/
def serving : List Act := [.sendHello, .read (some (encode (.hello 128))), .message, .putFile false [1, 2, 3], .putFile false [4],
  .putFileEof false, .goodbye, .write (some 30), .write (some 60), .write (some 2)]

/-- The pulling side gets these bytes in three pieces that have nothing to do with the frames. -/
def pulling : List Act := [.sendHello, .read (some ((served.map encode).flatten.take 25)), .message, .start (.ok ()) (.ok ()), .message,
  .read (some (((served.map encode).flatten.drop 25).take 40)), .message, .message,
  .read (some ((served.map encode).flatten.drop 65)), .message, .message, .message, .message]

example : ((Conn.new disk0 (R.new 4 false false)).run disk serving).said = served ∧
    ((Conn.new disk0 (R.new 4 false false)).run disk serving).sent = (served.map encode).flatten := by decide +kernel

example : (∀ x ∈ serving, Sensible x) := by simp [serving, Sensible]

example : ((Conn.new disk0 (R.new 128 true false)).run disk pulling).received = (served.map encode).flatten ∧
    ((Conn.new disk0 (R.new 128 true false)).run disk pulling).log = served.map encode ∧
    ((Conn.new disk0 (R.new 128 true false)).run disk pulling).w.final false = some [1, 2, 3, 4] := by decide +kernel

/-- `Orderly` as a computation. -/
def orderly (e : World Disk) (a : Bool) (c : Conn Disk) : List Act → Bool
  | [] => true
  | x :: xs => (match x with
      | .message => (match (Remote.act e c.w c.r x).1 with | .ok _ => true | _ => false) &&
          (!(decide (c.r.state = .running) && receivesFile c.r a) || (c.r.file a).fd)
      | _ => true) && orderly e a (c.act e x) xs

theorem orderly_sound (e : World Disk) (a : Bool) : ∀ (as : List Act) (c : Conn Disk), orderly e a c as = true → Orderly e a c as
  | [], _, _ => trivial
  | x :: xs, c, h => by
    unfold orderly at h
    rw [Bool.and_eq_true] at h
    refine ⟨fun hx => ?_, orderly_sound e a xs _ h.2⟩
    have h1 := h.1
    subst hx
    simp only [Bool.and_eq_true] at h1
    refine ⟨?_, fun hs hr => ?_⟩
    · have h1 := h1.1
      cases hy : (Remote.act e c.w c.r .message).1 with
      | ok s => exact ⟨s, rfl⟩
      | err _ => rw [hy] at h1; cases h1
      | peer _ => rw [hy] at h1; cases h1
      | ub => rw [hy] at h1; cases h1
    · have h1 := h1.2
      rw [hs, hr] at h1
      simpa using h1

example : Orderly disk false (Conn.new disk0 (R.new 128 true false)) pulling := orderly_sound _ _ _ _ (by decide +kernel)

/-- All hypotheses of `C49_end_to_end` hold of the two histories together. -/
example : (((Conn.new disk0 (R.new 128 true false)).run disk pulling).w.final false =
    some (fileData false ((Conn.new disk0 (R.new 4 false false)).run disk serving).said)) := by
  have h := C49_end_to_end disk disk Disk.temp Disk.final disk_laws false disk0 disk0 rfl 4 128 false false true false serving pulling
    (by simp [serving, Sensible]) (by decide) (by decide) (orderly_sound _ _ _ _ (by decide +kernel))
    (by
      have h1 : ((Conn.new disk0 (R.new 128 true false)).run disk pulling).received =
        ((Conn.new disk0 (R.new 4 false false)).run disk serving).sent := by decide +kernel
      rw [h1]; exact List.prefix_rfl)
  rcases h with h | h
  · exact absurd h (by decide +kernel)
  · exact h.2

/-- `Receiving` (C32_receive_only): the same bytes at once or in pieces. -/
example : Receiving disk (Conn.new disk0 (R.new 128 true false))
    [.read (some ((encode (.hello 4)).take 5)), .message, .read (some ((encode (.hello 4)).drop 5)), .message] :=
  ⟨.inl ⟨_, rfl⟩, .inr ⟨rfl, .poll, by decide +kernel⟩, .inl ⟨_, rfl⟩, .inr ⟨rfl, .step, by decide +kernel⟩, trivial⟩

end Casync.Remote.Props
