import Verif.Lemmas.BlockLive
import Verif.Lemmas.BlockDevice
/-!
C53: the block device serves the image.
-/
namespace Casync.Nbd
open Casync Casync.Nbd.Spec

variable {image : Bytes} {C D : Choice → Prop} {I L : Source → Nat → Prop} {K : Source → Prop}

/-! ### The synchronizer -/

/-- While the size is not known. -/
structure SzInv (I : Source → Nat → Prop) (s : Syncer) : Prop where
  src : ∃ pos, I s.src pos
  step : s.dec.stepSize ≤ s.dec.buf.length
  size : s.archiveSize = none
  state : s.dec.state = .init ∨ s.dec.state = .payload ∨ s.dec.state = .eof

/-- When the size is known. -/
structure WtInv (image : Bytes) (I : Source → Nat → Prop) (K : Source → Prop) (s : Syncer) : Prop where
  src : ∃ pos, I s.src pos
  known : K s.src
  step : s.dec.stepSize ≤ s.dec.buf.length
  size : s.archiveSize = some image.length
  fin : s.dec.endOff = some image.length

/-- How far the synchronizer is on its way to the data at `o`, of which `buffer` was already handed out. -/
inductive Stage (image : Bytes) (I : Source → Nat → Prop) (o : Nat) (buffer : Bytes) (src : Source) (d : Naked) : Prop
  | nowhere (h : d.state = .nowhere) (ho : image.length < o)
  | eof (h : d.state = .eof) (hb : buffer = image.drop o)
  | prep (h : d.state = .prepSeek) (hs : d.seekOff = some o) (hb : buffer = []) (ho : o < image.length)
  | seeking (h : d.state = .seeking) (hs : d.seekOff = some o) (hb : buffer = []) (hbuf : d.buf = []) (hst : d.stepSize = 0) (he : d.gotEof = false) (hI : I src o)
  | payload (h : d.state = .payload) (pos : Nat) (hI : I src pos) (hd : buffer ++ (d.buf.drop d.stepSize ++ image.drop pos) = image.drop o)
      (he : d.gotEof = true → image.length ≤ pos)

/-- While a request is served. -/
structure SvInv (image : Bytes) (I : Source → Nat → Prop) (K : Source → Prop) (o : Nat) (buffer : Bytes) (s : Syncer) : Prop where
  base : WtInv image I K s
  open' : s.archiveEof = false
  stage : Stage image I o buffer s.src s.dec

theorem advance_ok {d : Naked} (h : d.stepSize ≤ d.buf.length) :
    ∃ d', advance d = .ok d' ∧ d'.state = d.state ∧ d'.buf = d.buf.drop d.stepSize ∧ d'.stepSize = 0 ∧ d'.gotEof = d.gotEof ∧ d'.seekOff = d.seekOff ∧
      d'.endOff = d.endOff := by
  unfold advance
  by_cases h0 : d.stepSize = 0
  · rw [if_pos h0]
    exact ⟨d, rfl, rfl, by rw [h0]; rfl, h0, rfl, rfl, rfl⟩
  · rw [if_neg h0, if_neg (by omega)]
    exact ⟨_, rfl, rfl, rfl, rfl, rfl, rfl, rfl⟩

theorem drop_split {image b : Bytes} {pos : Nat} (h : (image.drop pos).take b.length = b) : image.drop pos = b ++ image.drop (pos + b.length) := by
  conv => lhs; rw [← List.take_append_drop b.length (image.drop pos), h, List.drop_drop]

/-- Data are requested. -/
theorem dispatch_request (ok : SourceOk image C I K) {s : Syncer} {d : Naked} {ready answer short io pos} (hI : I s.src pos) (hC : C (.decode ready answer short io))
    (he : d.gotEof = false) :
    (∃ e, dispatch s ready answer short io .request d = .err e) ∨
    (∃ src, dispatch s ready answer short io .request d = .ok (.poll, { s with dec := d, src := src }) ∧ I src pos ∧ (K s.src → K src)) ∨
    (∃ src b, dispatch s ready answer short io .request d = .ok (.step, { s with dec := { d with buf := d.buf ++ b }, src := src }) ∧ b ≠ [] ∧
      image.drop pos = b ++ image.drop (pos + b.length) ∧ I src (pos + b.length) ∧ (K s.src → K src)) ∨
    (∃ src, dispatch s ready answer short io .request d = .ok (.step, { s with dec := { d with gotEof := true }, src := src }) ∧ image.length ≤ pos ∧
      I src pos ∧ (K s.src → K src)) := by
  unfold dispatch
  simp only
  rcases ok.request hI hC with ⟨e, h⟩ | ⟨s', h, h1, h2⟩ | ⟨s', b, h, h1, h2, h3, h4⟩ | ⟨s', h, h1, h2, h3⟩
  · left; rw [h]; exact ⟨e, rfl⟩
  · right; left
    rw [h]
    exact ⟨s', rfl, h1, h2⟩
  · right; right; left
    rw [h]
    refine ⟨s', b, ?_, h1, drop_split h2, h3, h4⟩
    rw [Res.bind_ok]
    unfold decPut
    simp only
    rw [if_neg h1, if_neg (by rw [he]; simp)]
    rfl
  · right; right; right
    rw [h]
    exact ⟨s', rfl, h1, h2, h3⟩

/-- One step of the synchronizer while a request is served. -/
theorem syncStep_serving (ok : SourceOk image C I K) {s : Syncer} {o : Nat} {buffer : Bytes} (h : SvInv image I K o buffer s) {c : Choice} (hC : C c) :
    (∃ e, syncStep s c = .err e) ∨
    (∃ s', syncStep s c = .ok (.finished, s') ∧ WtInv image I K s' ∧ buffer = image.drop o) ∨
    (∃ s' p rest, syncStep s c = .ok (.payload, s') ∧ decPayload s'.dec = .ok p ∧ p ≠ [] ∧ image.drop o = buffer ++ (p ++ rest) ∧ SvInv image I K o (buffer ++ p) s') ∨
    (∃ s', syncStep s c = .ok (.notFound, s')) ∨
    (∃ s' x, (x = .step ∨ x = .poll) ∧ syncStep s c = .ok (x, s') ∧ SvInv image I K o buffer s') := by
  obtain ⟨hb, ho, hst⟩ := h
  have hother : ∀ c, C c → (∀ a b c' d, c ≠ .decode a b c' d) →
      (∃ e, syncStep s c = .err e) ∨ (∃ s' x, (x = .step ∨ x = .poll) ∧ syncStep s c = .ok (x, s') ∧ SvInv image I K o buffer s') := by
    intro c hC hne
    have e0 : syncStep s c = srcOther s.src c >>= fun src => .ok (.step, { s with src := src }) := by
      cases c with
      | decode a b c' d => exact absurd rfl (hne a b c' d)
      | _ => rfl
    rw [e0]
    have key : ∀ pos, I s.src pos → (∃ e, srcOther s.src c = .err e) ∨ (∃ s', srcOther s.src c = .ok s' ∧ I s' pos ∧ K s') := by
      intro pos hI
      rcases ok.other hI hC with h | ⟨s', h1, h2, h3⟩
      · exact .inl h
      · exact .inr ⟨s', h1, h2, h3 hb.known⟩
    have fin : ∀ s' pos, I s' pos → K s' → Stage image I o buffer s' s.dec → SvInv image I K o buffer { s with src := s' } :=
      fun s' pos h1 h2 h3 => ⟨⟨⟨pos, h1⟩, h2, hb.step, hb.size, hb.fin⟩, ho, h3⟩
    have go : ∀ pos, I s.src pos → (∀ s', I s' pos → Stage image I o buffer s' s.dec) →
        (∃ e, (srcOther s.src c >>= fun src => Res.ok (SOut.step, { s with src := src })) = .err e) ∨
        (∃ s' x, (x = SOut.step ∨ x = .poll) ∧ (srcOther s.src c >>= fun src => Res.ok (SOut.step, { s with src := src })) = .ok (x, s') ∧ SvInv image I K o buffer s') := by
      intro pos hI hs
      rcases key pos hI with ⟨e, h1⟩ | ⟨s', h1, h2, h3⟩
      · left; rw [h1]; exact ⟨e, rfl⟩
      · right
        rw [h1]
        exact ⟨_, _, .inl rfl, rfl, fin s' pos h2 h3 (hs s' h2)⟩
    obtain ⟨pos, hI⟩ := hb.src
    cases hst with
    | nowhere h ho => exact go pos hI (fun s' _ => .nowhere h ho)
    | eof h hb => exact go pos hI (fun s' _ => .eof h hb)
    | prep h hs hb ho => exact go pos hI (fun s' _ => .prep h hs hb ho)
    | seeking h hs hb hbuf hst he hI' => exact go o hI' (fun s' hi => .seeking h hs hb hbuf hst he hi)
    | payload h pos' hI' hd he => exact go pos' hI' (fun s' hi => .payload h pos' hi hd he)
  cases c with
  | other => exact (hother .other hC (by intros; simp)).elim .inl (fun h => .inr (.inr (.inr (.inr h))))
  | prefetch a b c => exact (hother (.prefetch a b c) hC (by intros; simp)).elim .inl (fun h => .inr (.inr (.inr (.inr h))))
  | arrive n => exact (hother (.arrive n) hC (by intros; simp)).elim .inl (fun h => .inr (.inr (.inr (.inr h))))
  | arriveEof => exact (hother .arriveEof hC (by intros; simp)).elim .inl (fun h => .inr (.inr (.inr (.inr h))))
  | decode ready answer short io =>
    unfold syncStep
    simp only
    unfold stepDecode
    rw [if_neg (by rw [ho]; simp)]
    obtain ⟨d', ha, a1, a2, a3, a4, a5, a6⟩ := advance_ok hb.step
    -- the payload state, reached in two ways
    have hpay : ∀ (d : Naked) (pos : Nat), d.state = .payload → d.stepSize = 0 → d.endOff = some image.length → I s.src pos →
        buffer ++ (d.buf ++ image.drop pos) = image.drop o → (d.gotEof = true → image.length ≤ pos) →
        (∃ e, dispatch s ready answer short io (payloadStep d).1 (payloadStep d).2 = .err e) ∨
        (∃ s', dispatch s ready answer short io (payloadStep d).1 (payloadStep d).2 = .ok (.finished, s') ∧ WtInv image I K s' ∧ buffer = image.drop o) ∨
        (∃ s' p rest, dispatch s ready answer short io (payloadStep d).1 (payloadStep d).2 = .ok (.payload, s') ∧ decPayload s'.dec = .ok p ∧ p ≠ [] ∧
          image.drop o = buffer ++ (p ++ rest) ∧ SvInv image I K o (buffer ++ p) s') ∨
        (∃ s', dispatch s ready answer short io (payloadStep d).1 (payloadStep d).2 = .ok (.notFound, s')) ∨
        (∃ s' x, (x = .step ∨ x = .poll) ∧ dispatch s ready answer short io (payloadStep d).1 (payloadStep d).2 = .ok (x, s') ∧ SvInv image I K o buffer s') := by
      intro d pos h1 h2 h3 hI h4 h5
      unfold payloadStep
      by_cases hbuf : d.buf = []
      · rw [if_neg (by simpa using hbuf)]
        have h4' : buffer ++ image.drop pos = image.drop o := by rw [hbuf, List.nil_append] at h4; exact h4
        cases hg : d.gotEof with
        | true =>
          rw [if_pos rfl]
          right; left
          refine ⟨_, rfl, ⟨⟨pos, hI⟩, hb.known, ?_, hb.size, h3⟩, ?_⟩
          · show d.stepSize ≤ _; rw [h2]; exact Nat.zero_le _
          · rw [← h4', List.drop_of_length_le (h5 hg), List.append_nil]
        | false =>
          rw [if_neg (by simp)]
          rcases dispatch_request ok (d := d) hI hC hg with h | ⟨src, h, g1, g2⟩ | ⟨src, b, h, g1, g2, g3, g4⟩ | ⟨src, h, g1, g2, g3⟩
          · exact .inl h
          · right; right; right; right
            refine ⟨_, _, .inr rfl, h, ⟨⟨pos, g1⟩, g2 hb.known, ?_, hb.size, h3⟩, ho, .payload h1 pos g1 ?_ (by simp [hg])⟩
            · show d.stepSize ≤ _; rw [h2]; exact Nat.zero_le _
            · show buffer ++ (d.buf.drop d.stepSize ++ _) = _
              rw [hbuf, List.drop_nil, List.nil_append]; exact h4'
          · right; right; right; right
            refine ⟨_, _, .inl rfl, h, ⟨⟨_, g3⟩, g4 hb.known, ?_, hb.size, h3⟩, ho, .payload h1 (pos + b.length) g3 ?_ (by simp [hg])⟩
            · show d.stepSize ≤ _; rw [h2]; exact Nat.zero_le _
            · show buffer ++ ((d.buf ++ b).drop d.stepSize ++ _) = _
              rw [hbuf, h2, List.nil_append, List.drop_zero, ← g2]; exact h4'
          · right; right; right; right
            refine ⟨_, _, .inl rfl, h, ⟨⟨_, g2⟩, g3 hb.known, ?_, hb.size, h3⟩, ho, .payload h1 pos g2 ?_ (fun _ => g1)⟩
            · show d.stepSize ≤ _; rw [h2]; exact Nat.zero_le _
            · show buffer ++ (d.buf.drop d.stepSize ++ _) = _
              rw [hbuf, List.drop_nil, List.nil_append]; exact h4'
      · rw [if_pos hbuf]
        right; right; left
        refine ⟨{ s with dec := { d with stepSize := d.buf.length } }, d.buf, image.drop pos, rfl, ?_, hbuf, h4.symm, ⟨⟨pos, hI⟩, hb.known, Nat.le_refl _, hb.size, h3⟩, ho,
          .payload h1 pos hI ?_ h5⟩
        · unfold decPayload
          simp only
          rw [if_neg (by rw [h1]; simp), if_neg hbuf, if_neg (by simpa using hbuf), if_neg (by omega), List.take_length]
        · show (buffer ++ d.buf) ++ (d.buf.drop d.buf.length ++ image.drop pos) = _
          rw [List.drop_length, List.nil_append, List.append_assoc]; exact h4
    unfold decStep
    cases hst with
    | nowhere h hlt =>
      rw [if_neg (by rw [h]; simp), ha, Res.bind_ok]
      unfold stepNode
      rw [a1, h]
      right; right; right; left
      exact ⟨_, rfl⟩
    | eof h hbuf =>
      rw [if_pos h]
      right; left
      exact ⟨_, rfl, ⟨hb.src, hb.known, hb.step, hb.size, hb.fin⟩, hbuf⟩
    | prep h hs hbuf hlt =>
      rw [if_neg (by rw [h]; simp), ha, Res.bind_ok]
      unfold stepNode
      rw [a1, h]
      simp only
      rw [a5, hs]
      simp only [Res.bind_ok]
      unfold dispatch decSeekOffset
      simp only
      rw [if_neg (by simp)]
      simp only [Res.bind_ok]
      obtain ⟨pos, hI⟩ := hb.src
      obtain ⟨⟨pos', hr⟩, hk⟩ := ok.reset hI
      rcases ok.seek hr (o := o) with ⟨e, he⟩ | ⟨src, he, g1, g2⟩
      · left; rw [he]; exact ⟨e, rfl⟩
      · right; right; right; right
        rw [he]
        refine ⟨_, _, .inl rfl, rfl, ⟨⟨o, g1⟩, g2 (hk hb.known), Nat.le_refl _, hb.size, ?_⟩, rfl, .seeking rfl ?_ hbuf rfl rfl rfl g1⟩
        · show d'.endOff = _; rw [a6]; exact hb.fin
        · first | rfl | (show d'.seekOff = _; rw [a5]; exact hs)
    | seeking h hs hbuf hb' hst he hI =>
      rw [if_neg (by rw [h]; simp), ha, Res.bind_ok]
      unfold stepNode
      rw [a1, h]
      simp only
      rw [a5, hs]
      simp only [Res.bind_ok]
      refine hpay _ o rfl a3 (by rw [← hb.fin, ← a6]) hI ?_ ?_
      · show buffer ++ (d'.buf ++ _) = _
        rw [hbuf, a2, hb', List.drop_nil, List.nil_append, List.nil_append]
      · intro hg
        have hg : d'.gotEof = true := hg
        rw [a4, he] at hg; cases hg
    | payload h pos hI hd he =>
      rw [if_neg (by rw [h]; simp), ha, Res.bind_ok]
      unfold stepNode
      rw [a1, h]
      simp only [Res.bind_ok]
      refine hpay d' pos (by rw [a1, h]) a3 (by rw [a6]; exact hb.fin) hI (by rw [a2]; exact hd) (by rw [a4]; exact he)

/-- One step of the synchronizer while the size is not known. -/
theorem syncStep_sizing (ok : SourceOk image C I K) {s : Syncer} (h : SzInv I s) {c : Choice} (hC : C c) :
    (∃ e, syncStep s c = .err e) ∨ (∃ s', syncStep s c = .ok (.finished, s')) ∨
    (∃ s' x, (x = .step ∨ x = .poll ∨ x = .payload) ∧ syncStep s c = .ok (x, s') ∧ SzInv I s') := by
  obtain ⟨⟨pos, hI⟩, hstep, hsz, hst⟩ := h
  have hother : ∀ c, C c → (∀ a b c' d, c ≠ .decode a b c' d) →
      (∃ e, syncStep s c = .err e) ∨ (∃ s' x, (x = .step ∨ x = .poll ∨ x = .payload) ∧ syncStep s c = .ok (x, s') ∧ SzInv I s') := by
    intro c hC hne
    have e0 : syncStep s c = srcOther s.src c >>= fun src => .ok (.step, { s with src := src }) := by
      cases c with
      | decode a b c' d => exact absurd rfl (hne a b c' d)
      | _ => rfl
    rw [e0]
    rcases ok.other hI hC with ⟨e, h⟩ | ⟨s', h1, h2, h3⟩
    · left; rw [h]; exact ⟨e, rfl⟩
    · right
      rw [h1]
      exact ⟨_, _, .inl rfl, rfl, ⟨pos, h2⟩, hstep, hsz, hst⟩
  cases c with
  | other => exact (hother .other hC (by intros; simp)).elim .inl (fun h => .inr (.inr h))
  | prefetch a b c => exact (hother (.prefetch a b c) hC (by intros; simp)).elim .inl (fun h => .inr (.inr h))
  | arrive n => exact (hother (.arrive n) hC (by intros; simp)).elim .inl (fun h => .inr (.inr h))
  | arriveEof => exact (hother .arriveEof hC (by intros; simp)).elim .inl (fun h => .inr (.inr h))
  | decode ready answer short io =>
    unfold syncStep
    simp only
    unfold stepDecode
    by_cases hae : s.archiveEof = true
    · rw [if_pos hae]; exact .inl ⟨_, rfl⟩
    rw [if_neg hae]
    obtain ⟨d', ha, a1, a2, a3, a4, a5, a6⟩ := advance_ok hstep
    unfold decStep
    have hpay : ∀ d : Naked, d.state = .payload → d.stepSize = 0 →
        (∃ e, dispatch s ready answer short io (payloadStep d).1 (payloadStep d).2 = .err e) ∨
        (∃ s', dispatch s ready answer short io (payloadStep d).1 (payloadStep d).2 = .ok (.finished, s')) ∨
        (∃ s' x, (x = .step ∨ x = .poll ∨ x = .payload) ∧ dispatch s ready answer short io (payloadStep d).1 (payloadStep d).2 = .ok (x, s') ∧ SzInv I s') := by
      intro d h1 h2
      have hle : ∀ n, d.stepSize ≤ n := fun n => by rw [h2]; exact Nat.zero_le _
      unfold payloadStep
      by_cases hbuf : d.buf = []
      · rw [if_neg (by simpa using hbuf)]
        cases hg : d.gotEof with
        | true => rw [if_pos rfl]; exact .inr (.inl ⟨_, rfl⟩)
        | false =>
          rw [if_neg (by simp)]
          rcases dispatch_request ok (d := d) hI hC hg with h | ⟨src, h, g1, g2⟩ | ⟨src, b, h, g1, g2, g3, g4⟩ | ⟨src, h, g1, g2, g3⟩
          · exact .inl h
          · exact .inr (.inr ⟨_, _, .inr (.inl rfl), h, ⟨_, g1⟩, hle _, hsz, .inr (.inl h1)⟩)
          · exact .inr (.inr ⟨_, _, .inl rfl, h, ⟨_, g3⟩, hle _, hsz, .inr (.inl h1)⟩)
          · exact .inr (.inr ⟨_, _, .inl rfl, h, ⟨_, g2⟩, hle _, hsz, .inr (.inl h1)⟩)
      · rw [if_pos hbuf]
        exact .inr (.inr ⟨_, _, .inr (.inr rfl), rfl, ⟨pos, hI⟩, Nat.le_refl _, hsz, .inr (.inl h1)⟩)
    rcases hst with h | h | h
    · rw [if_neg (by rw [h]; simp), ha, Res.bind_ok]
      unfold stepNode
      rw [a1, h]
      exact hpay _ rfl a3
    · rw [if_neg (by rw [h]; simp), ha, Res.bind_ok]
      unfold stepNode
      rw [a1, h]
      exact hpay _ (by rw [a1, h]) a3
    · rw [if_pos h]
      exact .inr (.inl ⟨_, rfl⟩)

theorem acquire_sizing (ok : SourceOk image C I K) {s : Syncer} (h : SzInv I s) :
    (∃ e, acquireSize s = .err e) ∨ (∃ s', acquireSize s = .ok (image.length, s') ∧ WtInv image I K s') := by
  obtain ⟨⟨pos, hI⟩, hstep, hsz, hst⟩ := h
  unfold acquireSize
  rw [hsz]
  simp only
  rcases ok.size hI with ⟨e, h⟩ | ⟨s', h, h1, h2⟩
  · left; rw [h]; exact ⟨e, rfl⟩
  · right
    rw [h]
    exact ⟨_, rfl, ⟨pos, h1⟩, h2, hstep, rfl, rfl⟩

theorem seekOffset_spec (ok : SourceOk image C I K) {s : Syncer} (h : WtInv image I K s) (o : Nat) :
    (o = u64max ∧ seekOffset s o = .err .EINVAL) ∨ (o ≠ u64max ∧ ∃ s', seekOffset s o = .ok s' ∧ SvInv image I K o [] s') := by
  unfold seekOffset
  by_cases ho : o = u64max
  · rw [if_pos ho]; exact .inl ⟨ho, rfl⟩
  · right
    refine ⟨ho, ?_⟩
    rw [if_neg ho]
    unfold acquireSize
    rw [h.size]
    simp only [Res.bind_ok]
    unfold decSeek
    rw [if_neg ho, h.fin]
    simp only
    obtain ⟨pos, hI⟩ := h.src
    obtain ⟨⟨pos', hr⟩, hk⟩ := ok.reset hI
    by_cases h1 : o > image.length
    · rw [if_pos h1]
      exact ⟨_, rfl, ⟨⟨pos', hr⟩, hk h.known, h.step, h.size, rfl⟩, rfl, .nowhere rfl h1⟩
    · rw [if_neg h1]
      by_cases h2 : o = image.length
      · rw [if_pos h2]
        exact ⟨_, rfl, ⟨⟨pos', hr⟩, hk h.known, h.step, h.size, rfl⟩, rfl, .eof rfl (by rw [h2, List.drop_length])⟩
      · rw [if_neg h2]
        exact ⟨_, rfl, ⟨⟨pos', hr⟩, hk h.known, h.step, h.size, rfl⟩, rfl, .prep rfl rfl rfl (by omega)⟩

/-! ### The tool -/

/-- The tool between two rounds. -/
inductive Inv (image : Bytes) (I : Source → Nat → Prop) (K : Source → Prop) : Tool → Prop
  | sizing {t : Tool} (h : t.phase = .sizing) (hs : SzInv I t.sync) (hd : Idle t.dev) (ho : t.dev.isOpen = false) : Inv image I K t
  | waiting {t : Tool} (h : t.phase = .waiting) (hs : WtInv image I K t.sync) (hd : Idle t.dev) : Inv image I K t
  | serving {t : Tool} (handle : Bytes) (o n : Nat) (buffer : Bytes) (h : t.phase = .serving o n buffer) (w : WellFormed handle o n)
      (hd : t.dev.last = request handle o n) (hb : buffer.length < n) (hs : SvInv image I K o buffer t.sync) : Inv image I K t

theorem roundUp_spec {n : Nat} (h : roundUp n ≠ 0) : ∃ k, roundUp n = 512 * k ∧ n ≤ 512 * k ∧ (∀ j, n ≤ 512 * j → k ≤ j) ∧ 0 < k ∨ 2 ^ 64 ≤ n := by
  by_cases hn : 2 ^ 64 ≤ n
  · exact ⟨0, .inr hn⟩
  · unfold roundUp at h ⊢
    by_cases hw : n + 511 < 2 ^ 64
    · rw [Nat.mod_eq_of_lt hw] at h ⊢
      refine ⟨(n + 511) / 512, .inl ⟨by omega, by omega, fun j hj => by omega, by omega⟩⟩
    · exfalso
      apply h
      omega

/-- What one round does. -/
theorem round_inv (ok : SourceOk image C I K) (hlen : image.length < 2 ^ 64) {t : Tool} (h : Inv image I K t) {e : Env} (hC : C e.choice) (hin : e.input ≠ .ub) :
    (t.phase = .sizing ∧
      ((∃ er, round t e = ([], .err er)) ∨ (∃ t', round t e = ([], .ok t') ∧ Inv image I K t' ∧ t'.phase = .sizing) ∨
       (∃ k t', round t e = ([.attached (512 * k)], .ok t') ∧ image.length ≤ 512 * k ∧ (∀ j, image.length ≤ 512 * j → k ≤ j) ∧ 0 < k ∧ Inv image I K t' ∧
         t'.phase = .waiting))) ∨
    (t.phase = .waiting ∧
      ((∃ er, round t e = ([], .err er)) ∨ (∃ t', round t e = ([], .ok t') ∧ Inv image I K t' ∧ t'.phase = .waiting) ∨
       (∃ m er, round t e = ([.received m], .err er) ∧ ∀ h s l, WellFormed h s l → m ≠ request h s l) ∨
       (∃ hd s l er, round t e = ([.received (request hd s l)], .err er) ∧ WellFormed hd s l ∧ s = u64max) ∨
       (∃ hd s l t', round t e = ([.received (request hd s l)], .ok t') ∧ WellFormed hd s l ∧ t'.dev.last = request hd s l ∧ t'.phase = .serving s l [] ∧
         Inv image I K t'))) ∨
    (∃ hd s l b, t.phase = .serving s l b ∧ t.dev.last = request hd s l ∧ WellFormed hd s l ∧
      ((∃ er, round t e = ([], .err er)) ∨
       (∃ t' b', round t e = ([], .ok t') ∧ Inv image I K t' ∧ t'.phase = .serving s l b' ∧ t'.dev.last = request hd s l) ∨
       (∃ w er, round t e = ([.wrote w], .err er) ∧ w <+: reply image hd s l) ∨
       (∃ t', round t e = ([.wrote (reply image hd s l)], .ok t') ∧ Inv image I K t' ∧ t'.phase = .waiting))) := by
  cases h with
  | sizing h hs hd ho =>
    left
    refine ⟨h, ?_⟩
    unfold round
    rw [h]
    simp only
    unfold sizingRound
    rcases acquire_sizing ok hs with ⟨er, he⟩ | ⟨s', he, hw⟩
    · rw [he]
      simp only
      by_cases hag : er = .EAGAIN
      · rw [if_neg (by simpa using hag)]
        rcases syncStep_sizing ok hs hC with ⟨e', h1⟩ | ⟨s', h1⟩ | ⟨s', x, hx, h1, h2⟩
        · rw [h1]; exact .inl ⟨_, rfl⟩
        · rw [h1]; exact .inl ⟨_, rfl⟩
        · rw [h1]
          right; left
          refine ⟨{ t with sync := s' }, ?_, .sizing h h2 hd ho, h⟩
          rcases hx with rfl | rfl | rfl <;> rfl
      · rw [if_pos hag]; exact .inl ⟨_, rfl⟩
    · rw [he]
      simp only
      unfold setSize
      by_cases h0 : roundUp image.length = 0
      · rw [if_pos h0]; exact .inl ⟨_, rfl⟩
      · rw [if_neg h0]
        obtain ⟨k, ⟨k1, k2, k3, k4⟩ | hbig⟩ := roundUp_spec h0
        · rw [if_neg (by omega), if_neg (by rw [ho]; simp)]
          simp only
          unfold openDevice
          rw [if_neg (by rw [ho]; simp), if_neg h0]
          cases e.openError with
          | some er => exact .inl ⟨_, rfl⟩
          | none =>
            right; right
            refine ⟨k, { t with sync := s', dev := { t.dev with size := roundUp image.length, isOpen := true }, phase := .waiting }, ?_, k2, k3, k4, .waiting rfl hw hd, rfl⟩
            simp only
            rw [show 512 * (roundUp image.length / 512) = 512 * k by omega]
        · omega
  | waiting h hs hd =>
    right; left
    refine ⟨h, ?_⟩
    unfold round
    rw [h]
    simp only
    unfold waitingRound received
    rw [if_neg (by rw [hd.magic]; simp)]
    cases hi : e.input with
    | ub => exact absurd hi hin
    | err er =>
      simp only
      unfold devStep
      rw [if_neg (by rw [hd.magic]; simp)]
      simp only
      by_cases hag : er = .EAGAIN
      · rw [if_pos hag]
        right; left
        exact ⟨t, rfl, .waiting h hs hd, h⟩
      · rw [if_neg hag]; exact .inl ⟨_, rfl⟩
    | ok b =>
      simp only
      rcases devStep_idle hd b with ⟨hh, s, l, w, hb, he⟩ | ⟨hb, d', he⟩
      · rw [he, hb]
        simp only
        obtain ⟨h1, h2, h3, h4, h5⟩ := request_fields w (d := { t.dev with last := request hh s l }) rfl
        have e1 : getRequestOffset { t.dev with last := request hh s l } = .ok s := by
          unfold getRequestOffset
          rw [if_neg (by rw [h1]; decide), h4]
        have e2 : getRequestSize { t.dev with last := request hh s l } = .ok l := by
          unfold getRequestSize
          rw [if_neg (by rw [h1]; decide), h5]
        rw [e1, e2, Res.bind_ok, Res.bind_ok]
        rcases seekOffset_spec ok hs s with ⟨g1, g2⟩ | ⟨_, s', g2, g3⟩
        · rw [g2]
          right; right; right; left
          exact ⟨hh, s, l, _, rfl, w, g1⟩
        · rw [g2]
          right; right; right; right
          exact ⟨hh, s, l, _, rfl, w, rfl, rfl, .serving hh s l [] rfl w rfl w.pos g3⟩
      · rw [he]
        right; right; left
        exact ⟨b.take 28, _, rfl, hb⟩
  | serving handle o n buffer h w hd hb hs =>
    right; right
    refine ⟨handle, o, n, buffer, h, hd, w, ?_⟩
    unfold round
    rw [h]
    simp only
    unfold servingRound
    have hsend : ∀ (s' : Syncer) (data : Bytes), WtInv image I K s' → data = content image o n →
        ((∃ er, send t s' o data e = ([], .err er)) ∨
         (∃ t' b', send t s' o data e = ([], .ok t') ∧ Inv image I K t' ∧ t'.phase = .serving o n b' ∧ t'.dev.last = request handle o n) ∨
         (∃ w er, send t s' o data e = ([.wrote w], .err er) ∧ w <+: reply image handle o n) ∨
         (∃ t', send t s' o data e = ([.wrote (reply image handle o n)], .ok t') ∧ Inv image I K t' ∧ t'.phase = .waiting)) := by
      intro s' data hw hdata
      unfold send
      rcases putData_spec w hd hdata e.writeError with ⟨b, er, he, hp⟩ | ⟨d', he, hid⟩
      · rw [he]
        exact .inr (.inr (.inl ⟨b, er, rfl, hp⟩))
      · rw [he]
        exact .inr (.inr (.inr ⟨_, rfl, .waiting rfl hw hid, rfl⟩))
    rcases syncStep_serving ok hs hC with ⟨er, he⟩ | ⟨s', he, hw, hbuf⟩ | ⟨s', p, rest, he, hp, hne, hsplit, hs'⟩ | ⟨s', he⟩ | ⟨s', x, hx, he, hs'⟩
    · rw [he]; exact .inl ⟨er, rfl⟩
    · rw [he]
      simp only
      rw [if_neg (by omega)]
      refine hsend s' _ hw ?_
      rw [content_eq, hbuf, List.take_of_length_le (by rw [← hbuf]; omega), List.length_drop]
    · rw [he]
      simp only
      rw [hp]
      simp only
      have hall : ∀ q, image.drop o = q ++ rest → n ≤ q.length → q.take n = content image o n := by
        intro q hq hn
        have hl := congrArg List.length hq
        rw [List.length_drop, List.length_append] at hl
        rw [content_eq, hq, List.take_append_of_le_length hn, show n - (image.length - o) = 0 by omega]
        simp
      by_cases h1 : buffer.length = 0 ∧ p.length ≥ n
      · rw [if_pos h1]
        refine hsend s' _ hs'.base ?_
        have h0 : buffer = [] := List.length_eq_zero_iff.1 h1.1
        rw [h0, List.nil_append] at hsplit
        rw [Nat.min_eq_right h1.2]
        exact hall p hsplit h1.2
      · rw [if_neg h1]
        by_cases h2 : (buffer ++ p).length ≥ n
        · rw [if_pos h2]
          refine hsend s' _ hs'.base ?_
          exact hall (buffer ++ p) (by rw [List.append_assoc]; exact hsplit) h2
        · rw [if_neg h2]
          right; left
          exact ⟨_, _, rfl, .serving handle o n (buffer ++ p) rfl w hd (by omega) hs', rfl, hd⟩
    · rw [he]; exact .inl ⟨_, rfl⟩
    · right; left
      refine ⟨{ t with sync := s' }, buffer, ?_, .serving handle o n buffer h w hd hb hs', h, hd⟩
      rw [he]
      rcases hx with rfl | rfl <;> rfl

/-- What is seen of the rounds to come, according to where the tool is. -/
def Seen (image : Bytes) (t : Tool) (tr : List Obs) : Prop :=
  match t.phase with
  | .sizing => Session image tr
  | .waiting => Exchanges image tr
  | .serving s l _ => ∀ h, t.dev.last = request h s l → WellFormed h s l → Exchanges image (.received (request h s l) :: tr)

theorem request_inj {h h' : Bytes} {s l : Nat} (w : WellFormed h s l) (w' : WellFormed h' s l) (e : request h s l = request h' s l) : h = h' := by
  have h1 := (request_fields w (d := { last := request h s l }) rfl).2.2.1
  have h2 := (request_fields w' (d := { last := request h s l }) e).2.2.1
  rw [h1] at h2; exact h2

theorem run_seen (ok : SourceOk image C I K) (hlen : image.length < 2 ^ 64) : ∀ (es : List Env) (t : Tool), Inv image I K t → (∀ e ∈ es, C e.choice ∧ e.input ≠ .ub) →
    Seen image t (run t es).1 ∧ (run t es).2 ≠ .ub ∧ ∀ t', (run t es).2 = .ok t' → Inv image I K t' := by
  intro es
  induction es with
  | nil =>
    intro t h _
    refine ⟨?_, by simp [run], fun t' h' => by simp only [run] at h'; injection h' with h'; subst h'; exact h⟩
    unfold Seen run
    cases h with
    | sizing h _ _ _ => rw [h]; exact .nothing
    | waiting h _ _ => rw [h]; exact .none
    | serving hh o n b h w hd _ _ => rw [h]; exact fun h' _ w' => .unanswered h' o n w'
  | cons e es ih =>
    intro t h he
    obtain ⟨hC, hin⟩ := he e List.mem_cons_self
    have ih' := fun t' (h' : Inv image I K t') => ih t' h' (fun e he' => he e (List.mem_cons_of_mem _ he'))
    have herr : ∀ o er, round t e = (o, .err er) → run t (e :: es) = (o, .err er) := by
      intro o er hr; rw [run, hr]
    have hok : ∀ o t', round t e = (o, .ok t') → run t (e :: es) = (o ++ (run t' es).1, (run t' es).2) := by
      intro o t' hr; rw [run, hr]
    rcases round_inv ok hlen h hC hin with ⟨hp, hc⟩ | ⟨hp, hc⟩ | ⟨hd, s, l, b, hp, hlast, w, hc⟩
    · unfold Seen
      rw [hp]
      simp only
      rcases hc with ⟨er, hr⟩ | ⟨t', hr, hi, hp'⟩ | ⟨k, t', hr, k1, k2, k3, hi, hp'⟩
      · rw [herr _ _ hr]; exact ⟨.nothing, by simp, by simp⟩
      · rw [hok _ _ hr]
        obtain ⟨g1, g2, g3⟩ := ih' t' hi
        unfold Seen at g1
        rw [hp'] at g1
        exact ⟨g1, g2, g3⟩
      · rw [hok _ _ hr]
        obtain ⟨g1, g2, g3⟩ := ih' t' hi
        unfold Seen at g1
        rw [hp'] at g1
        exact ⟨.device k k1 k2 k3 _ g1, g2, g3⟩
    · unfold Seen
      rw [hp]
      simp only
      rcases hc with ⟨er, hr⟩ | ⟨t', hr, hi, hp'⟩ | ⟨m, er, hr, hm⟩ | ⟨hd, s, l, er, hr, w, _⟩ | ⟨hd, s, l, t', hr, w, hl, hp', hi⟩
      · rw [herr _ _ hr]; exact ⟨.none, by simp, by simp⟩
      · rw [hok _ _ hr]
        obtain ⟨g1, g2, g3⟩ := ih' t' hi
        unfold Seen at g1
        rw [hp'] at g1
        exact ⟨g1, g2, g3⟩
      · rw [herr _ _ hr]; exact ⟨.refused m hm, by simp, by simp⟩
      · rw [herr _ _ hr]; exact ⟨.unanswered hd s l w, by simp, by simp⟩
      · rw [hok _ _ hr]
        obtain ⟨g1, g2, g3⟩ := ih' t' hi
        unfold Seen at g1
        rw [hp'] at g1
        exact ⟨g1 hd hl w, g2, g3⟩
    · unfold Seen
      rw [hp]
      simp only
      rcases hc with ⟨er, hr⟩ | ⟨t', b', hr, hi, hp', hl'⟩ | ⟨x, er, hr, hpre⟩ | ⟨t', hr, hi, hp'⟩
      · rw [herr _ _ hr]; exact ⟨fun h' _ w' => .unanswered h' s l w', by simp, by simp⟩
      · rw [hok _ _ hr]
        obtain ⟨g1, g2, g3⟩ := ih' t' hi
        unfold Seen at g1
        rw [hp'] at g1
        refine ⟨fun h' e' w' => g1 h' (by rw [hl', ← hlast, e']) w', g2, g3⟩
      · rw [herr _ _ hr]
        refine ⟨fun h' e' w' => ?_, by simp, by simp⟩
        have : hd = h' := request_inj w w' (by rw [← hlast, e'])
        subst this
        exact .broken hd s l w x hpre
      · rw [hok _ _ hr]
        obtain ⟨g1, g2, g3⟩ := ih' t' hi
        unfold Seen at g1
        rw [hp'] at g1
        refine ⟨fun h' e' w' => ?_, g2, g3⟩
        have : hd = h' := request_inj w w' (by rw [← hlast, e'])
        subst this
        exact .answered hd s l w _ g1

end Casync.Nbd
