import Verif.Spec.ArchiveFile
import Verif.Props.DecoderSkip
import Verif.Props.Archive
/-!
C65: listing an archive that is a file.
-/
namespace Casync.ArchiveFile
open Casync Archive Flags

/-! ### Where the decoder is in the archive -/

/-- What a step leaves alone besides `Keeps`. -/
structure Place (s s' : Dec) : Prop where
  off : s'.archiveOff = s.archiveOff
  buf : s'.buf = s.buf
  eof : s'.eof = s.eof

theorem stepFinalize_place (s : Dec) : Place s (stepFinalize s).1 := by
  unfold stepFinalize
  split
  · exact ⟨rfl, rfl, rfl⟩
  · split
    · exact ⟨rfl, rfl, rfl⟩
    · exact ⟨rfl, rfl, rfl⟩

theorem stepPayload_place (s : Dec) (hs : s.state = .inPayload) (h0 : s.stepSize = 0) : Place s (stepPayload s).1 := by
  have h := stepPayload_res s hs h0
  generalize stepPayload s = p at h
  cases h <;> exact ⟨rfl, rfl, rfl⟩

theorem stepDirectory_place (s : Dec) : Place s (stepDirectory s).1 := by
  unfold stepDirectory
  repeat' split
  all_goals exact ⟨rfl, rfl, rfl⟩

theorem stepParse_place (s : Dec) : Place s (stepParse s).1 := by
  unfold stepParse
  repeat' split
  all_goals exact ⟨rfl, rfl, rfl⟩

theorem stepNode_place (s : Dec) (hne : s.state ≠ .skipping) (h0 : s.stepSize = 0) : Place s (stepNode s).1 := by
  unfold stepNode
  cases hs : s.state with
  | init =>
    simp only
    split
    · obtain ⟨h1, h2, h3⟩ := stepPayload_place (enterState s .inPayload) rfl rfl; exact ⟨h1, h2, h3⟩
    · exact stepParse_place s
  | entered => exact stepParse_place s
  | entry =>
    simp only
    cases s.nodes with
    | nil => exact ⟨rfl, rfl, rfl⟩
    | cons n rest =>
      simp only
      cases nodeMode s n with
      | none => exact ⟨rfl, rfl, rfl⟩
      | some m =>
        simp only
        split
        · obtain ⟨h1, h2, h3⟩ := stepPayload_place (enterState s .inPayload) rfl rfl; exact ⟨h1, h2, h3⟩
        · split
          · obtain ⟨h1, h2, h3⟩ := stepDirectory_place (enterState s .inDirectory); exact ⟨h1, h2, h3⟩
          · exact ⟨rfl, rfl, rfl⟩
  | inPayload => exact stepPayload_place s hs h0
  | skipping => exact absurd hs hne
  | inDirectory => exact stepDirectory_place s
  | goodbye => exact ⟨rfl, rfl, rfl⟩
  | finalize => exact stepFinalize_place s
  | eof => exact ⟨rfl, rfl, rfl⟩

/-- A step moves the decoder on within its buffer. -/
theorem step_place (s : Dec) (hne : s.state ≠ .skipping) (hsz : s.stepSize ≤ s.buf.length) :
    (step s).1.archiveOff + (step s).1.buf.length = s.archiveOff + s.buf.length ∧ (step s).1.eof = s.eof := by
  unfold step
  by_cases c1 : s.state = .eof
  · rw [if_pos c1]; exact ⟨rfl, rfl⟩
  rw [if_neg c1, if_neg (by omega)]
  have h := stepNode_place (advance s) hne rfl
  rw [h.off, h.buf, h.eof]
  refine ⟨?_, rfl⟩
  show s.archiveOff + s.stepSize + (s.buf.drop s.stepSize).length = _
  rw [List.length_drop]
  omega

theorem step_size (s : Dec) (hsz : s.stepSize ≤ s.buf.length) : (step s).1.stepSize ≤ (step s).1.buf.length := by
  by_cases hf : (step s).2 = .ok .finished
  · unfold step at hf ⊢
    by_cases c1 : s.state = .eof
    · rw [if_pos c1]; exact hsz
    rw [if_neg c1, if_neg (by omega)]
    exact (stepNode_prog (advance s) rfl).size
  · rw [(step_eq hsz).2 hf]
    exact (stepNode_prog (advance s) rfl).size

/-! ### The file -/

theorem readFd_nil {f : Fd} {k : Nat} : readFd f k = [] ↔ f.content.drop f.pos = [] := by
  unfold readFd
  constructor
  · intro h
    have hl := congrArg List.length h
    rw [List.length_take] at hl
    have : 1 ≤ min (max k 1) 65536 := by omega
    have h0 : (f.content.drop f.pos).length = 0 := by
      simp only [List.length_nil] at hl; omega
    exact List.length_eq_zero_iff.1 h0
  · intro h; rw [h]; exact List.take_nil

theorem readFd_split (f : Fd) (k : Nat) : readFd f k ++ f.content.drop (f.pos + (readFd f k).length) = f.content.drop f.pos := by
  unfold readFd
  generalize min (max k 1) 65536 = m
  rw [List.length_take, ← List.drop_drop]
  generalize f.content.drop f.pos = x
  by_cases h : m ≤ x.length
  · rw [Nat.min_eq_left h, List.take_append_drop]
  · rw [Nat.min_eq_right (by omega), List.take_of_length_le (by omega), List.drop_length, List.append_nil]

theorem lseek_in {f : Fd} (hs : f.seekable = true) {k : Nat} (h : f.pos + k < 2 ^ 63) : lseekCur f k = .ok { f with pos := f.pos + k } := by
  have e : signed64 k = (k : Int) := by unfold signed64; rw [if_pos (by omega)]; omega
  unfold lseekCur
  rw [if_neg (by simp [hs])]
  simp only
  rw [e, if_neg (by omega)]
  have : ((f.pos : Int) + (k : Int)).toNat = f.pos + k := by omega
  rw [this]

theorem wrap_id {d : Dec} (h : d.archiveOff < 2 ^ 64) : wrap d = d := by
  cases d; simp only at h; simp only [wrap, Nat.mod_eq_of_lt h]

theorem react_go {f : Fd} {k : Nat} {d : Dec} {ev : Ev} (h1 : ev ≠ .finished) (h2 : ev ≠ .request) (h3 : ev ≠ .skip) :
    react f k d (.ok ev) = .on d f (observe d ev) ∧ ev ∈ [Ev.step, .nextFile, .doneFile, .payload] := by
  cases ev with
  | finished => exact absurd rfl h1
  | request => exact absurd rfl h2
  | skip => exact absurd rfl h3
  | step => exact ⟨rfl, by simp⟩
  | nextFile => exact ⟨rfl, by simp⟩
  | doneFile => exact ⟨rfl, by simp⟩
  | payload => exact ⟨rfl, by simp⟩

theorem short_run {q : Dec} {k : Nat} (h : SkipAt q k) {e : Dec} (he : step e = (want q, .ok .request)) {x : Bytes} (hx : x.length < k) :
    ∃ qs u, (qs.flatten = x ∧ (x = [] → qs = [])) ∧ Run e qs u (.error .EPIPE) := by
  by_cases h0 : x = []
  · refine ⟨[], [], ⟨by rw [h0]; rfl, fun _ => rfl⟩, ?_⟩
    obtain ⟨_, s2, d'', s3⟩ := h.short (d := want q) (by show q.buf.length = q.stepSize; rw [h.buf, h.zero]; rfl) h.state rfl (fun _ => rfl)
      (by show q.payloadOff + q.stepSize < _; rw [h.zero]; have := h.pos; omega) (Nat.le_refl _) h.eof rfl
    rw [advance_id (d := want q) h.zero] at s2 s3
    exact .eof he s2 (.error s3)
  · obtain ⟨e1, e2, e3⟩ := h.takes h0 (by omega)
    refine ⟨[x], [.payload x] ++ [], ⟨by simp, fun e => absurd e h0⟩, ?_⟩
    obtain ⟨s1, s2, d'', s3⟩ := h.short (d := setStep { want q with buf := x } x.length) rfl h.state rfl (fun _ => rfl)
      (by show q.payloadOff + x.length < _; omega) (Nat.le_refl _) h.eof rfl
    rw [← e3]
    exact .put he e1 (.go e2 (by simp) (.eof s1 s2 (.error s3)))

theorem through_run {q : Dec} {k : Nat} (h : SkipAt q k) {e : Dec} (he : step e = (want q, .ok .request)) {p : Bytes} (hp : p.length = k)
    {qs : List Bytes} {u : List Obs} {o : Outcome} (hr : Run (want (skipped q k)) qs u o) :
    Run e (p :: qs) ([.payload p] ++ (observe (want (skipped q k)) .doneFile ++ u)) o := by
  have h0 : p ≠ [] := by
    intro e; rw [e] at hp; have := h.pos; simp at hp; omega
  obtain ⟨e1, e2, e3⟩ := h.takes h0 (by omega)
  rw [← e3]
  exact .put he e1 (.go e2 (by simp) (.go (h.done hp) (by simp) hr))

/-- The listing ended as the decoder that reads everything does, and showed the same, or the archive is too short. -/
def Same (t : List Obs) (o : Option Outcome) (u : List Obs) (o' : Outcome) : Prop :=
  o = some o' ∧ withoutContent u = withoutContent t ∨ o' = .error .EPIPE

theorem Same.cons {t u x y : List Obs} {o : Option Outcome} {o' : Outcome} (h : Same t o u o') (hx : withoutContent y = withoutContent x) :
    Same (x ++ t) o (y ++ u) o' := by
  rcases h with ⟨h1, h2⟩ | h
  · exact .inl ⟨h1, by rw [withoutContent_append, withoutContent_append, hx, h2]⟩
  · exact .inr h

/-- The rest of the file. -/
abbrev rest (f : Fd) : Bytes := f.content.drop f.pos

theorem Plays.read {len : Nat → Nat} {d : Dec} {f : Fd} {t : List Obs} {o : Option Outcome} (h : Plays len d f t o)
    (hc : f.content.length < 2 ^ 63) (hs : f.seekable = true) (hp : f.pos ≤ f.content.length) (hsz : d.stepSize ≤ d.buf.length) :
    (d.state ≠ .skipping → d.archiveOff + d.buf.length = f.pos →
      ∃ qs u o', (qs.flatten = rest f ∧ (rest f = [] → qs = [])) ∧ Run (want d) qs u o' ∧ Same t o u o') ∧
    (∀ q k, SkipAt q k → d = enterState (setSkip q k) .skipping → q.archiveOff + k = f.pos →
      ∃ qs u o', (qs.flatten = rest f ∧ (rest f = [] → qs = [])) ∧ Run (want (skipped q k)) qs u o' ∧
        Same t o (observe (want (skipped q k)) .doneFile ++ u) o') := by
  have hrl : (rest f).length = f.content.length - f.pos := by rw [List.length_drop]
  -- any list of pieces will do once the session is over
  have some_ps : ∃ qs : List Bytes, qs.flatten = rest f ∧ (rest f = [] → qs = []) := by
    by_cases c : rest f = []
    · exact ⟨[], c.symm, fun _ => rfl⟩
    · exact ⟨[rest f], by simp, fun h => absurd h c⟩
  induction h with
  | @over len d f o ht =>
    refine ⟨fun hne ha => ?_, fun q k hq e ha => ?_⟩
    · obtain ⟨qs, hqs⟩ := some_ps
      have hb := step_both d hne
      obtain ⟨hpl, hpe⟩ := step_place d hne hsz
      unfold turn at ht
      rw [wrap_id (by omega)] at ht
      generalize hw : step (want d) = w at hb
      generalize hv : step d = v at hb ht hpl hpe
      cases hb with
      | same h1 h2 =>
        obtain ⟨d', r⟩ := v
        cases r with
        | err e => injection ht with ht; exact ⟨qs, [], _, hqs, .error hw, .inl ⟨by rw [← ht], rfl⟩⟩
        | ub => injection ht with ht; exact ⟨qs, [], _, hqs, .crash hw, .inl ⟨by rw [← ht], rfl⟩⟩
        | ok ev =>
          by_cases e1 : ev = .finished
          · subst e1; injection ht with ht; exact ⟨qs, [], _, hqs, .finished hw, .inl ⟨by rw [← ht], rfl⟩⟩
          by_cases e3 : ev = .skip
          · subst e3; exact absurd rfl h2
          by_cases e2 : ev = .request
          · subst e2
            have ht' : answer d' f (len 0) = .over o := ht
            unfold answer at ht'
            simp only at ht'
            by_cases c : readFd f (len 0) = []
            · rw [if_pos c] at ht'
              have hr := readFd_nil.1 c
              by_cases ce : d'.eof = true
              · rw [if_pos ce] at ht'; injection ht' with ht'
                exact ⟨[], [], _, ⟨hr.symm, fun _ => rfl⟩, .starved hw ce, .inl ⟨by rw [← ht'], rfl⟩⟩
              · rw [if_neg ce] at ht'; cases ht'
            · rw [if_neg c] at ht'
              have hrne : rest f ≠ [] := fun h => c (readFd_nil.2 h)
              have hpd : ∀ x : Bytes, x ≠ [] → putData d' x = if d'.eof then .err .EBUSY else .ok { d' with buf := d'.buf ++ x } := by
                intro x hx; unfold putData; rw [if_neg hx]
              have hpw : ∀ x : Bytes, x ≠ [] → putData (want d') x = if d'.eof then .err .EBUSY else .ok { want d' with buf := d'.buf ++ x } := by
                intro x hx; unfold putData; rw [if_neg hx]; rfl
              rw [hpd _ c] at ht'
              by_cases ce : d'.eof = true
              · rw [if_pos ce] at ht'; injection ht' with ht'
                exact ⟨[rest f], [], _, ⟨by simp, fun h => absurd h hrne⟩, .putFails hw (by rw [hpw _ hrne, if_pos ce]), .inl ⟨by rw [← ht'], rfl⟩⟩
              · rw [if_neg ce] at ht'; cases ht'
          · obtain ⟨h3, _⟩ := react_go (f := f) (k := len 0) (d := d') e1 e2 e3
            rw [h3] at ht; cases ht
      | @skip q k hq =>
        have ht' : processSkip (enterState (setSkip q k) .skipping) f = .over o := ht
        have hbq := hq.buf
        have hoff : q.archiveOff + q.buf.length = d.archiveOff + d.buf.length := hpl
        by_cases hl : (rest f).length < k
        · obtain ⟨qs, u, h1, h2⟩ := short_run hq hw hl
          exact ⟨qs, u, _, h1, h2, .inr rfl⟩
        · have hk := hq.pos
          unfold processSkip skipBytesFd at ht'
          have e : (enterState (setSkip q k) .skipping).skip = k := rfl
          rw [e, if_neg (by omega), lseek_in hs (by omega)] at ht'
          cases ht'
    · exfalso
      unfold turn at ht
      rw [e, hq.skips] at ht
      cases ht
  | @on len d f d' f' s t o ht hle hr ih =>
    refine ⟨fun hne ha => ?_, fun q k hq e ha => ?_⟩
    · have hb := step_both d hne
      obtain ⟨hpl, hpe⟩ := step_place d hne hsz
      have hss := step_size d hsz
      unfold turn at ht
      rw [wrap_id (by omega)] at ht
      generalize hw : step (want d) = w at hb
      generalize hv : step d = v at hb ht hpl hpe hss
      cases hb with
      | same h1 h2 =>
        obtain ⟨d1, r⟩ := v
        cases r with
        | err e => cases ht
        | ub => cases ht
        | ok ev =>
          by_cases e1 : ev = .finished
          · subst e1; cases ht
          by_cases e3 : ev = .skip
          · subst e3; exact absurd rfl h2
          by_cases e2 : ev = .request
          · subst e2
            have ht' : answer d1 f (len 0) = .on d' f' s := ht
            unfold answer at ht'
            simp only at ht'
            by_cases c : readFd f (len 0) = []
            · rw [if_pos c] at ht'
              have hrn := readFd_nil.1 c
              by_cases ce : d1.eof = true
              · rw [if_pos ce] at ht'; cases ht'
              · rw [if_neg ce] at ht'
                injection ht' with x1 x2 x3
                subst x1 x2 x3
                obtain ⟨qs, u, o', h3, h4, h5⟩ := (ih hc hs hp hss hrl some_ps).1 h1 (hpl.trans ha)
                have hqs : qs = [] := h3.2 hrn
                subst hqs
                exact ⟨[], u, o', h3, .eof hw (by show d1.eof = false; simpa using ce) h4, h5⟩
            · rw [if_neg c] at ht'
              have hpd : putData d1 (readFd f (len 0)) = if d1.eof then .err .EBUSY else .ok { d1 with buf := d1.buf ++ readFd f (len 0) } := by
                unfold putData; rw [if_neg c]
              have hpw : putData (want d1) (readFd f (len 0)) = if d1.eof then .err .EBUSY else .ok { want d1 with buf := d1.buf ++ readFd f (len 0) } := by
                unfold putData; rw [if_neg c]; rfl
              rw [hpd] at ht'
              by_cases ce : d1.eof = true
              · rw [if_pos ce] at ht'; cases ht'
              · rw [if_neg ce] at ht' hpw
                have hsp := readFd_split f (len 0)
                have hlx := congrArg List.length hsp
                rw [List.length_append, List.length_drop, List.length_drop] at hlx
                have hl1 : 0 < (readFd f (len 0)).length := List.length_pos_iff.2 c
                generalize hx : readFd f (len 0) = x at *
                injection ht' with x1 x2 x3
                subst x1 x2 x3
                have hlen2 : f.pos + x.length ≤ f.content.length := by omega
                have sp2 : ∃ qs : List Bytes, qs.flatten = rest { f with pos := f.pos + x.length } ∧ (rest { f with pos := f.pos + x.length } = [] → qs = []) := by
                  by_cases c : rest { f with pos := f.pos + x.length } = []
                  · exact ⟨[], c.symm, fun _ => rfl⟩
                  · exact ⟨[rest { f with pos := f.pos + x.length }], by simp, fun h => absurd h c⟩
                obtain ⟨qs, u, o', h3, h4, h5⟩ := (ih hc hs hlen2 (by show d1.stepSize ≤ (d1.buf ++ x).length; rw [List.length_append]; simp only at hss; omega)
                  (by rw [List.length_drop]) sp2).1 h1 (by show d1.archiveOff + (d1.buf ++ x).length = f.pos + x.length; rw [List.length_append]; simp only at hpl; omega)
                refine ⟨x :: qs, u, o', ⟨?_, fun h => ?_⟩, .put hw hpw h4, h5⟩
                · rw [List.flatten_cons, h3.1]; exact hsp
                · exact absurd (by rw [← hx]; exact readFd_nil.2 h) c
          · obtain ⟨h3, hev⟩ := react_go (f := f) (k := len 0) (d := d1) e1 e2 e3
            rw [h3] at ht
            injection ht with x1 x2 x3
            subst x1 x2 x3
            obtain ⟨qs, u, o', h4, h5, h6⟩ := (ih hc hs hp hss hrl some_ps).1 h1 (hpl.trans ha)
            exact ⟨qs, observe (want d1) ev ++ u, o', h4, .go hw hev h5, h6.cons rfl⟩
      | @skip q k hq =>
        have ht' : processSkip (enterState (setSkip q k) .skipping) f = .on d' f' s := ht
        have hbq := hq.buf
        have hoff : q.archiveOff + q.buf.length = d.archiveOff + d.buf.length := hpl
        by_cases hl : (rest f).length < k
        · obtain ⟨qs, u, h1, h2⟩ := short_run hq hw hl
          exact ⟨qs, u, _, h1, h2, .inr rfl⟩
        · have hk := hq.pos
          unfold processSkip skipBytesFd at ht'
          have e : (enterState (setSkip q k) .skipping).skip = k := rfl
          rw [e, if_neg (by omega), lseek_in hs (by omega)] at ht'
          injection ht' with x1 x2 x3
          subst x1 x2 x3
          have hlen2 : f.pos + k ≤ f.content.length := by omega
          have sp2 : ∃ qs : List Bytes, qs.flatten = rest { f with pos := f.pos + k } ∧ (rest { f with pos := f.pos + k } = [] → qs = []) := by
            by_cases c : rest { f with pos := f.pos + k } = []
            · exact ⟨[], c.symm, fun _ => rfl⟩
            · exact ⟨[rest { f with pos := f.pos + k }], by simp, fun h => absurd h c⟩
          rw [hbq] at hoff
          obtain ⟨qs, u, o', h3, h4, h5⟩ := (ih hc hs hlen2 hss (by rw [List.length_drop]) sp2).2 q k hq rfl
            (by show q.archiveOff + k = f.pos + k; simp only [List.length_nil] at hoff; omega)
          have hpl2 : ((rest f).take k).length = k := by rw [List.length_take]; omega
          refine ⟨(rest f).take k :: qs, [.payload ((rest f).take k)] ++ (observe (want (skipped q k)) .doneFile ++ u), o', ⟨?_, fun h => ?_⟩,
            through_run hq hw hpl2 h4, ?_⟩
          · rw [List.flatten_cons, h3.1]
            show (f.content.drop f.pos).take k ++ f.content.drop (f.pos + k) = f.content.drop f.pos
            rw [← List.drop_drop, List.take_append_drop]
          · rw [h] at hl; simp at hl; omega
          · exact h5.cons (x := []) (y := [.payload ((rest f).take k)]) rfl
    · unfold turn at ht
      rw [e, hq.skips] at ht
      rw [wrap_id (by show q.archiveOff + k < 2 ^ 64; omega)] at ht
      injection ht with x1 x2 x3
      subst x1 x2 x3
      obtain ⟨qs, u, o', h3, h4, h5⟩ := (ih hc hs hp (Nat.zero_le _) hrl some_ps).1 (by simp [enterState])
        (by show q.archiveOff + k + q.buf.length = f.pos; rw [hq.buf]; exact ha)
      exact ⟨qs, u, o', h3, h4, h5.cons rfl⟩
  | @back len d f d' f' s ht hlt =>
    refine ⟨fun hne ha => ?_, fun q k hq e ha => ?_⟩
    · have hb := step_both d hne
      obtain ⟨hpl, hpe⟩ := step_place d hne hsz
      unfold turn at ht
      rw [wrap_id (by omega)] at ht
      generalize hw : step (want d) = w at hb
      generalize hv : step d = v at hb ht hpl hpe
      cases hb with
      | same h1 h2 =>
        exfalso
        obtain ⟨d1, r⟩ := v
        cases r with
        | err e => cases ht
        | ub => cases ht
        | ok ev =>
          by_cases e1 : ev = .finished
          · subst e1; cases ht
          by_cases e3 : ev = .skip
          · subst e3; exact absurd rfl h2
          by_cases e2 : ev = .request
          · subst e2
            have ht' : answer d1 f (len 0) = .on d' f' s := ht
            unfold answer at ht'
            simp only at ht'
            split at ht'
            · split at ht'
              · cases ht'
              · injection ht' with x1 x2 x3; subst x2; omega
            · split at ht'
              · injection ht' with x1 x2 x3; subst x2; simp only at hlt; omega
              · cases ht'
              · cases ht'
          · obtain ⟨h3, hev⟩ := react_go (f := f) (k := len 0) (d := d1) e1 e2 e3
            rw [h3] at ht
            injection ht with x1 x2 x3
            subst x2; omega
      | @skip q k hq =>
        have ht' : processSkip (enterState (setSkip q k) .skipping) f = .on d' f' s := ht
        have hbq := hq.buf
        have hoff : q.archiveOff + q.buf.length = d.archiveOff + d.buf.length := hpl
        by_cases hl : (rest f).length < k
        · obtain ⟨qs, u, h1, h2⟩ := short_run hq hw hl
          exact ⟨qs, u, _, h1, h2, .inr rfl⟩
        · have hk := hq.pos
          unfold processSkip skipBytesFd at ht'
          have e : (enterState (setSkip q k) .skipping).skip = k := rfl
          rw [e, if_neg (by omega), lseek_in hs (by omega)] at ht'
          injection ht' with x1 x2 x3
          subst x2
          simp only at hlt
          omega
    · exfalso
      unfold turn at ht
      rw [e, hq.skips] at ht
      injection ht with x1 x2 x3
      subst x2
      omega

/-! ### Every session is over some time, or goes backwards -/

theorem weight_advance (d : Dec) : weight (advance d) ≤ weight d := by
  unfold weight
  have : (advance d).buf.length = d.buf.length - d.stepSize := by show (d.buf.drop d.stepSize).length = _; rw [List.length_drop]
  rw [this]
  exact Nat.le_refl _

theorem Plays.exists_of : ∀ (a w : Nat) (len : Nat → Nat) (d : Dec) (f : Fd), (f.content.length - f.pos) + (if d.eof then 0 else 1) = a → weight d = w →
    d.stepSize ≤ d.buf.length → ∃ t o, Plays len d f t o := by
  intro a
  induction a using Nat.strongRecOn with
  | ind a iha =>
    intro w
    induction w using Nat.strongRecOn with
    | ind w ihw =>
      intro len d f ha hw hsz
      -- a state that is reached without reading, with the file not moved backwards
      have quiet : ∀ d' f' s, turn d f (len 0) = .on d' f' s → f'.content = f.content → d'.eof = d.eof → weight d' < w → d'.stepSize ≤ d'.buf.length →
          ∃ t o, Plays len d f t o := by
        intro d' f' s ht hcf he hlt hs'
        by_cases hb : f'.pos < f.pos
        · exact ⟨_, _, .back ht hb⟩
        by_cases he2 : (f'.content.length - f'.pos) + (if d'.eof then 0 else 1) = a
        · obtain ⟨t, o, h⟩ := ihw _ hlt (fun i => len (i + 1)) d' f' he2 rfl hs'
          exact ⟨_, _, .on ht (by omega) h⟩
        · obtain ⟨t, o, h⟩ := iha _ (by rw [hcf, he] at he2 ⊢; omega) _ (fun i => len (i + 1)) d' f' rfl rfl hs'
          exact ⟨_, _, .on ht (by omega) h⟩
      by_cases hfin : (step d).2 = .ok .finished
      · refine ⟨[], some .finished, .over ?_⟩
        unfold turn; rw [hfin]; rfl
      have hst := (step_eq hsz).2 hfin
      have hp := stepNode_prog (advance d) rfl
      rw [← hst] at hp
      have hwa := weight_advance d
      have htn : turn d f (len 0) = react f (len 0) (wrap (step d).1) (step d).2 := rfl
      generalize step d = v at hp htn hfin
      obtain ⟨d1, r⟩ := v
      have heof : d1.eof = d.eof := hp.eof
      have hs1 : d1.stepSize ≤ d1.buf.length := hp.size
      cases r with
      | err e => exact ⟨_, _, .over htn⟩
      | ub => exact ⟨_, _, .over htn⟩
      | ok ev =>
        have hless : ev ≠ .request → ev ≠ .finished → weight d1 < w := fun h1 h2 => by
          have := hp.less ev rfl h1 h2; simp only at this; omega
        by_cases e1 : ev = .finished
        · subst e1; exact absurd rfl hfin
        by_cases e3 : ev = .skip
        · subst e3
          have ht : turn d f (len 0) = processSkip (wrap d1) f := htn
          unfold processSkip at ht
          cases hsk : skipBytesFd f (wrap d1).skip with
          | ok f' =>
            rw [hsk] at ht
            have hcf : f'.content = f.content := by
              unfold skipBytesFd at hsk
              split at hsk
              · injection hsk with hsk; rw [← hsk]
              · unfold lseekCur at hsk
                split at hsk
                · cases hsk
                · simp only at hsk
                  split at hsk
                  · cases hsk
                  · injection hsk with hsk; rw [← hsk]
            exact quiet _ _ _ ht hcf heof (hless (by simp) (by simp)) hs1
          | err e => rw [hsk] at ht; exact ⟨_, _, .over ht⟩
          | ub => rw [hsk] at ht; exact ⟨_, _, .over ht⟩
        by_cases e2 : ev = .request
        · subst e2
          have ht : turn d f (len 0) = answer (wrap d1) f (len 0) := htn
          unfold answer at ht
          simp only at ht
          by_cases c : readFd f (len 0) = []
          · rw [if_pos c] at ht
            by_cases ce : (wrap d1).eof = true
            · rw [if_pos ce] at ht; exact ⟨_, _, .over ht⟩
            · rw [if_neg ce] at ht
              have ce' : d.eof = false := by rw [← heof]; exact Bool.eq_false_iff.2 ce
              rw [ce'] at ha
              obtain ⟨t, o, h⟩ := iha (f.content.length - f.pos) (by simp at ha; omega) _ (fun i => len (i + 1)) (putEof (wrap d1)) f rfl rfl hs1
              exact ⟨_, _, .on ht (Nat.le_refl _) h⟩
          · rw [if_neg c] at ht
            have hsp := congrArg List.length (readFd_split f (len 0))
            rw [List.length_append, List.length_drop, List.length_drop] at hsp
            have hl1 : 0 < (readFd f (len 0)).length := List.length_pos_iff.2 c
            generalize readFd f (len 0) = x at *
            have hpd : putData (wrap d1) x = if d1.eof then .err .EBUSY else .ok { wrap d1 with buf := d1.buf ++ x } := by
              unfold putData; rw [if_neg c]; rfl
            rw [hpd] at ht
            by_cases ce : d1.eof = true
            · rw [if_pos ce] at ht; exact ⟨_, _, .over ht⟩
            · rw [if_neg ce] at ht
              have ce' : d.eof = false := by rw [← heof]; exact Bool.eq_false_iff.2 ce
              rw [ce'] at ha
              have ce2 : d1.eof = false := Bool.eq_false_iff.2 ce
              obtain ⟨t, o, h⟩ := iha _ (by
                show (f.content.length - (f.pos + x.length)) + (if d1.eof then 0 else 1) < a
                rw [ce2]; simp only [Bool.false_eq_true, if_false] at ha ⊢; omega) _ (fun i => len (i + 1))
                { wrap d1 with buf := d1.buf ++ x } { f with pos := f.pos + x.length } rfl rfl
                (by show d1.stepSize ≤ (d1.buf ++ x).length; rw [List.length_append]; omega)
              exact ⟨_, _, .on ht (by show f.pos ≤ f.pos + x.length; omega) h⟩
        obtain ⟨h3, hev⟩ := react_go (f := f) (k := len 0) (d := wrap d1) e1 e2 e3
        rw [h3] at htn
        exact quiet _ _ _ htn rfl heof (hless e2 e1) hs1

/-! ### The property -/

/-- The open archive at its start. -/
abbrev opened (content : Bytes) : Fd := { content := content }

/-- **C65.** An archive in a file is listed by a decoder that does not want the content of files and skips it with `lseek()`. Whatever the sizes
of the reads, if a decoder that reads all of the same archive does not find it too short, the listing ends in the same way, and shows the same
objects with the same metadata in the same order. -/
theorem C65_file (cfg : DCfg) (e m : Word) (content : Bytes) (hc : content.length < 2 ^ 63) (len : Nat → Nat) (t u : List Obs) (o : Option Outcome)
    (o' : Outcome) (qs : List Bytes) (hq : qs.flatten = content) (hl : Plays len (start { cfg with wantPayload := false } e m) (opened content) t o)
    (hr : Run (start { cfg with wantPayload := true } e m) qs u o') (hp : o' ≠ .error .EPIPE) : o = some o' ∧ withoutContent t = withoutContent u := by
  obtain ⟨vs, v, o2, ⟨h1, _⟩, h2, h3⟩ := (hl.read hc rfl (Nat.zero_le _) (Nat.le_refl _)).1 (by simp [start]) rfl
  have hw : want (start { cfg with wantPayload := false } e m) = start { cfg with wantPayload := true } e m := rfl
  rw [hw] at h2
  obtain ⟨h4, h5⟩ := C26_feeding_independent { cfg with wantPayload := true } rfl e m vs qs (h1.trans hq.symm) v u o2 o' h2 hr
  rcases h3 with ⟨h6, h7⟩ | h6
  · exact ⟨by rw [h6, h5], by rw [← h7, withoutContent_atoms, withoutContent_atoms, h4]⟩
  · exact absurd (h5.symm.trans h6) hp

/-- **C65.** Every such session is over after finitely many turns, or the position in the file is moved backwards, which by `C65_file` only
happens if the archive is too short. -/
theorem C65_ends (cfg : DCfg) (e m : Word) (content : Bytes) (len : Nat → Nat) :
    ∃ t o, Plays len (start { cfg with wantPayload := false } e m) (opened content) t o :=
  Plays.exists_of _ _ len _ _ rfl rfl (Nat.le_refl _)

/-! ### Positions -/

/-- The bytes that are still to be passed over. -/
def pending (d : Dec) : Nat := if d.state = .skipping then d.skip else 0

/-- The position in the file is where the decoder expects it. -/
structure Placed (d : Dec) (f : Fd) : Prop where
  size : d.stepSize ≤ d.buf.length
  pos : f.pos < 2 ^ 63
  place : (d.archiveOff + d.buf.length + pending d) % 2 ^ 64 = f.pos

theorem step_placed {d : Dec} {f : Fd} (h : Placed d f) :
    (step d).1.stepSize ≤ (step d).1.buf.length ∧ ((step d).1.archiveOff + (step d).1.buf.length) % 2 ^ 64 = f.pos ∧
      ((step d).2 = .ok .skip ∧ pending (step d).1 = (step d).1.skip ∨ (step d).2 ≠ .ok .skip ∧ pending (step d).1 = 0) := by
  refine ⟨step_size d h.size, ?_⟩
  by_cases hne : d.state = .skipping
  · have hpl := h.place
    unfold pending at hpl
    rw [if_pos hne] at hpl
    have e : step d = (enterState { advance d with archiveOff := (advance d).archiveOff + (advance d).skip, skip := 0 } .finalize, .ok .doneFile) := by
      have hs := h.size
      unfold step
      rw [if_neg (by rw [hne]; decide), if_neg (by omega)]
      unfold stepNode
      have : (advance d).state = .skipping := hne
      simp only [this]
    rw [e]
    refine ⟨?_, .inr ⟨by simp, by unfold pending; rw [if_neg (by simp [enterState])]⟩⟩
    show (d.archiveOff + d.stepSize + d.skip + (d.buf.drop d.stepSize).length) % 2 ^ 64 = f.pos
    rw [List.length_drop]
    have hs := h.size
    rw [← hpl]
    congr 1
    omega
  · obtain ⟨h1, _⟩ := step_place d hne h.size
    have hpl := h.place
    unfold pending at hpl
    rw [if_neg hne] at hpl
    refine ⟨by rw [h1]; exact hpl, ?_⟩
    have hb := step_both d hne
    generalize step (want d) = w at hb
    generalize step d = v at hb
    cases hb with
    | same h2 h3 => exact .inr ⟨h3, by unfold pending; rw [if_neg h2]⟩
    | skip _ => exact .inl ⟨rfl, by unfold pending; rw [if_pos (by simp [enterState])]⟩

theorem turn_placed {d d' : Dec} {f f' : Fd} {k : Nat} {s : List Obs} (h : Placed d f) (hc : f.content.length < 2 ^ 63)
    (ht : turn d f k = .on d' f' s) : Placed d' f' ∧ f'.content = f.content := by
  obtain ⟨h1, h2, h3⟩ := step_placed h
  unfold turn at ht
  generalize step d = v at ht h1 h2 h3
  obtain ⟨d1, r⟩ := v
  simp only at h1 h2 h3 ht
  have hw : ((wrap d1).archiveOff + d1.buf.length) % 2 ^ 64 = f.pos := by
    show (d1.archiveOff % 2 ^ 64 + d1.buf.length) % 2 ^ 64 = f.pos
    omega
  have hp := h.pos
  cases r with
  | err e => cases ht
  | ub => cases ht
  | ok ev =>
    by_cases e1 : ev = .finished
    · subst e1; cases ht
    by_cases e3 : ev = .skip
    · subst e3
      have hpend : pending d1 = d1.skip := by
        rcases h3 with h3 | h3
        · exact h3.2
        · exact absurd rfl h3.1
      have ht' : processSkip (wrap d1) f = .on d' f' s := ht
      unfold processSkip at ht'
      have esk : (wrap d1).skip = d1.skip := rfl
      rw [esk] at ht'
      have key : ∀ g, skipBytesFd f d1.skip = .ok g → g.content = f.content ∧ g.pos < 2 ^ 63 ∧ (f.pos + d1.skip) % 2 ^ 64 = g.pos := by
        intro g hg
        unfold skipBytesFd at hg
        by_cases c0 : d1.skip = 0
        · rw [if_pos c0] at hg; injection hg with hg; subst hg; rw [c0]; exact ⟨rfl, hp, by omega⟩
        rw [if_neg c0] at hg
        unfold lseekCur at hg
        by_cases c1 : (!f.seekable) = true
        · rw [if_pos c1] at hg; cases hg
        rw [if_neg c1] at hg
        simp only at hg
        by_cases c2 : (f.pos : Int) + signed64 d1.skip < 0 ∨ 2 ^ 63 ≤ (f.pos : Int) + signed64 d1.skip
        · rw [if_pos c2] at hg; cases hg
        rw [if_neg c2] at hg
        injection hg with hg
        subst hg
        refine ⟨rfl, by simp only; omega, ?_⟩
        show (f.pos + d1.skip) % 2 ^ 64 = ((f.pos : Int) + signed64 d1.skip).toNat
        unfold signed64 at c2 ⊢
        split <;> rename_i c3 <;> simp only [c3, if_true, if_false] at c2 <;> omega
      cases hsk : skipBytesFd f d1.skip with
      | ok g =>
        rw [hsk] at ht'
        injection ht' with x1 x2 x3
        subst x1 x2
        obtain ⟨k1, k2, k3⟩ := key _ hsk
        refine ⟨⟨h1, k2, ?_⟩, k1⟩
        have : pending (wrap d1) = d1.skip := hpend
        rw [this]
        show ((wrap d1).archiveOff + d1.buf.length + d1.skip) % 2 ^ 64 = _
        omega
      | err e => rw [hsk] at ht'; cases ht'
      | ub => rw [hsk] at ht'; cases ht'
    have hpend : pending d1 = 0 := by
      rcases h3 with h3 | h3
      · injection h3.1 with h3; exact absurd h3 e3
      · exact h3.2
    by_cases e2 : ev = .request
    · subst e2
      have ht' : answer (wrap d1) f k = .on d' f' s := ht
      unfold answer at ht'
      simp only at ht'
      by_cases c : readFd f k = []
      · rw [if_pos c] at ht'
        split at ht'
        · cases ht'
        · injection ht' with x1 x2 x3
          subst x1 x2
          refine ⟨⟨h1, hp, ?_⟩, rfl⟩
          have : pending (putEof (wrap d1)) = 0 := hpend
          rw [this]
          exact hw
      · rw [if_neg c] at ht'
        have hsp := congrArg List.length (readFd_split f k)
        rw [List.length_append, List.length_drop, List.length_drop] at hsp
        have hl1 : 0 < (readFd f k).length := List.length_pos_iff.2 c
        generalize readFd f k = x at *
        have hpd : putData (wrap d1) x = if d1.eof then .err .EBUSY else .ok { wrap d1 with buf := d1.buf ++ x } := by
          unfold putData; rw [if_neg c]; rfl
        rw [hpd] at ht'
        by_cases ce : d1.eof = true
        · rw [if_pos ce] at ht'; cases ht'
        · rw [if_neg ce] at ht'
          injection ht' with x1 x2 x3
          subst x1 x2
          refine ⟨⟨by show d1.stepSize ≤ (d1.buf ++ x).length; rw [List.length_append]; omega, by simp only; omega, ?_⟩, rfl⟩
          have : pending { wrap d1 with buf := d1.buf ++ x } = 0 := hpend
          rw [this]
          show ((wrap d1).archiveOff + (d1.buf ++ x).length + 0) % 2 ^ 64 = f.pos + x.length
          rw [List.length_append]
          omega
    obtain ⟨h4, _⟩ := react_go (f := f) (k := k) (d := wrap d1) e1 e2 e3
    rw [h4] at ht
    injection ht with x1 x2 x3
    subst x1 x2
    refine ⟨⟨h1, hp, ?_⟩, rfl⟩
    have : pending (wrap d1) = 0 := hpend
    rw [this]
    exact hw

/-- **C65.** Whatever is read and skipped, from whatever archive: when the decoder asks for data, what is read next is at the offset
(`ca_decoder_get_request_offset()`) at which the decoder expects it; this is also the offset that is recorded for these bytes. -/
theorem C65_position (cfg : DCfg) (e m : Word) (content : Bytes) (hc : content.length < 2 ^ 63) (d d' : Dec) (f : Fd)
    (h : Reached (start cfg e m) (opened content) d f) (hr : step d = (d', .ok .request)) :
    f.content = content ∧ (d'.archiveOff + d'.buf.length) % 2 ^ 64 = f.pos := by
  have key : ∀ d0 f0, Reached d0 f0 d f → Placed d0 f0 → f0.content = content → Placed d f ∧ f.content = content := by
    clear h hr
    intro d0 f0 h hp hf
    induction h with
    | start => exact ⟨hp, hf⟩
    | on _ ht ih =>
      obtain ⟨h1, h2⟩ := ih
      obtain ⟨h3, h4⟩ := turn_placed h1 (by rw [h2]; exact hc) ht
      exact ⟨h3, h4.trans h2⟩
  have key := key _ _ h ⟨Nat.le_refl _, (by show 0 < 2 ^ 63; decide), rfl⟩ rfl
  refine ⟨key.2, ?_⟩
  have := (step_placed key.1).2.1
  rw [hr] at this
  exact this

/-! ### What goes wrong -/

/-- A directory with a file `a` whose payload claims to be of 2^64 - 98 bytes. -/
def evil : Bytes :=
  entryBytes (exEntry 0x41ed#64) ++ (strRecord .filename [97] ++ (entryBytes (exEntry 0x81a4#64) ++ header (2 ^ 64 - 82) .payload))

/-- A listing. -/
abbrev list0 : Dec := start { wantPayload := false } none64 none64

theorem turns_succ (n : Nat) (d : Dec) (f : Fd) : turns (n + 1) d f =
    match turn d f 65536 with
    | .over _ => none
    | .on d' f' s => (turns n d' f').map fun x => (x.1, x.2.1, s ++ x.2.2) := rfl

theorem turns_add (m : Nat) : ∀ (n : Nat) (d : Dec) (f : Fd), turns (n + m) d f =
    (turns n d f).bind fun x => (turns m x.1 x.2.1).map fun y => (y.1, y.2.1, x.2.2 ++ y.2.2) := by
  intro n
  induction n with
  | zero =>
    intro d f
    rw [Nat.zero_add]
    show turns m d f = (turns m d f).map fun y => (y.1, y.2.1, [] ++ y.2.2)
    cases turns m d f <;> rfl
  | succ n ih =>
    intro d f
    have e : n + 1 + m = (n + m) + 1 := by omega
    rw [e, turns_succ, turns_succ]
    cases turn d f 65536 with
    | over _ => rfl
    | on d' f' s =>
      simp only
      rw [ih]
      cases turns n d' f' with
      | none => rfl
      | some x =>
        show ((turns m x.1 x.2.1).map fun y => (y.1, y.2.1, x.2.2 ++ y.2.2)).map _ = ((turns m x.1 x.2.1).map _)
        cases turns m x.1 x.2.1 with
        | none => rfl
        | some y => simp [List.append_assoc]

theorem evil_first : ((turns 6 list0 (opened evil)).map fun x => (x.1, x.2.1)).isSome = true := by decide +kernel

/-- The decoder and the file after six turns. -/
def again : Dec × Fd := ((turns 6 list0 (opened evil)).map fun x => (x.1, x.2.1)).get evil_first

theorem evil_again : (turns 6 again.1 again.2).map (fun x => (x.1, x.2.1, x.2.2.length)) = some (again.1, again.2, 2) := by decide +kernel

theorem evil_round (k : Nat) : ∃ s, turns (6 * k) again.1 again.2 = some (again.1, again.2, s) ∧ s.length = 2 * k := by
  induction k with
  | zero => exact ⟨[], rfl, rfl⟩
  | succ k ih =>
    obtain ⟨s, h1, h2⟩ := ih
    have h3 := evil_again
    cases h4 : turns 6 again.1 again.2 with
    | none => rw [h4] at h3; cases h3
    | some x =>
      obtain ⟨a, b, c⟩ := x
      rw [h4] at h3
      simp only [Option.map_some, Option.some.injEq, Prod.mk.injEq] at h3
      obtain ⟨rfl, rfl, h5⟩ := h3
      refine ⟨s ++ c, ?_, ?_⟩
      · rw [Nat.mul_succ, turns_add, h1]
        show (turns 6 again.1 again.2).map _ = _
        rw [h4]; rfl
      · rw [List.length_append]; omega

/-- **C65**, violated: a listing need not end. The payload of an entry claims to be of almost 2^64 bytes, so that the `lseek()` that is to
pass it over goes back to the name of the entry, which is decoded again, for ever: more and more entries are seen. (A decoder that reads the
content ends with an error.) -/
theorem C65_loops_violated : evil.length = 162 ∧ (∀ n, turns n list0 (opened evil) ≠ none) ∧
    (∀ k, ∃ n d f s, turns n list0 (opened evil) = some (d, f, s) ∧ k ≤ s.length) ∧
    ∃ t, Run (start { wantPayload := true } none64 none64) [evil] t (.error .EPIPE) := by
  have hall : ∀ k, ∃ s, turns (6 + 6 * k) list0 (opened evil) = some (again.1, again.2, s) ∧ k ≤ s.length := by
    intro k
    obtain ⟨s, h1, h2⟩ := evil_round k
    have h3 : (turns 6 list0 (opened evil)).map (fun x => (x.1, x.2.1)) = some again := by unfold again; rw [Option.some_get]
    cases h4 : turns 6 list0 (opened evil) with
    | none => rw [h4] at h3; cases h3
    | some x =>
      rw [h4] at h3
      injection h3 with h3
      refine ⟨x.2.2 ++ s, ?_, by rw [List.length_append]; omega⟩
      rw [turns_add, h4]
      have e1 : x.1 = again.1 := congrArg Prod.fst h3
      have e2 : x.2.1 = again.2 := congrArg Prod.snd h3
      show (turns (6 * k) x.1 x.2.1).map _ = _
      rw [e1, e2, h1]; rfl
  refine ⟨by decide +kernel, ?_, fun k => ?_, ?_⟩
  · intro n hn
    obtain ⟨s, h, _⟩ := hall n
    have e : 6 + 6 * n = n + (6 + 5 * n) := by omega
    rw [e, turns_add, hn] at h
    cases h
  · obtain ⟨s, h1, h2⟩ := hall k
    exact ⟨_, _, _, s, h1, h2⟩
  · have h : (session 30 (start { wantPayload := true } none64 none64) [evil]).map (·.2) = some (.error .EPIPE) := by decide +kernel
    cases h2 : session 30 (start { wantPayload := true } none64 none64) [evil] with
    | none => rw [h2] at h; cases h
    | some x =>
      rw [h2] at h
      injection h with h
      exact ⟨x.1, session_run 30 _ _ _ _ (by rw [h2, ← h])⟩

/-- **C65**, violated: in an archive that is no regular file (a pipe) nothing can be passed over, although there is a loop for this: the listing
fails at the first content that is not in the buffer already. -/
theorem C65_pipe_violated (f : Fd) (hf : f.seekable = false) (n : Nat) (hn : n ≠ 0) : skipBytesFd f n = .err .ESPIPE := by
  unfold skipBytesFd lseekCur
  rw [if_neg hn, if_pos (by simp [hf])]

/-! ### An example -/

/-- A directory with a file `a` of three bytes. -/
def good : Bytes := encTree (fun l => l.mergeSort Goodbye.nameItemLe) 0 (.dir (exEntry 0x41ed#64) {} false
  (.cons true [97] (.file (exEntry 0x81a4#64) {} false [1, 2, 3]) .nil))

/-- A session with reads of `k` bytes, if it is over after `n` turns. -/
def play (k : Nat) : Nat → Dec → Fd → Option (List Obs × Outcome)
  | 0, _, _ => none
  | n + 1, d, f =>
    match turn d f k with
    | .over o => some ([], o)
    | .on d' f' s => if f.pos ≤ f'.pos then (play k n d' f').map fun x => (s ++ x.1, x.2) else none

theorem play_plays (k : Nat) : ∀ (n : Nat) (d : Dec) (f : Fd) (t : List Obs) (o : Outcome), play k n d f = some (t, o) →
    Plays (fun _ => k) d f t (some o) := by
  intro n
  induction n with
  | zero => intro d f t o h; cases h
  | succ n ih =>
    intro d f t o h
    rw [play] at h
    cases ht : turn d f k with
    | over o2 =>
      rw [ht] at h
      simp only [Option.some.injEq, Prod.mk.injEq] at h
      obtain ⟨rfl, rfl⟩ := h
      exact .over ht
    | on d' f' s =>
      rw [ht] at h
      simp only at h
      by_cases c : f.pos ≤ f'.pos
      · rw [if_pos c] at h
        cases h2 : play k n d' f' with
        | none => rw [h2] at h; cases h
        | some x =>
          rw [h2] at h
          simp only [Option.map_some, Option.some.injEq, Prod.mk.injEq] at h
          obtain ⟨rfl, rfl⟩ := h
          exact .on ht c (ih _ _ _ _ h2)
      · rw [if_neg c] at h; cases h

/-- With reads of 162 bytes the content of the file is passed over with `lseek()`: the two objects are seen and the listing is finished, after
which a decoder that reads all of it sees the same besides the content. -/
example : ∃ t u, Plays (fun _ => 162) list0 (opened good) t (some .finished) ∧ t.length = 4 ∧
    Run (start { wantPayload := true } none64 none64) [good] u .finished ∧ Obs.payload [1, 2, 3] ∈ u ∧ withoutContent t = withoutContent u := by
  have h1 : ((play 162 30 list0 (opened good)).map fun x => (x.1.length, x.2)) = some (4, .finished) := by decide +kernel
  have h2 : ((session 30 (start { wantPayload := true } none64 none64) [good]).map fun x => (decide (Obs.payload [1, 2, 3] ∈ x.1), x.2)) =
      some (true, .finished) := by decide +kernel
  cases h3 : play 162 30 list0 (opened good) with
  | none => rw [h3] at h1; cases h1
  | some x =>
    cases h4 : session 30 (start { wantPayload := true } none64 none64) [good] with
    | none => rw [h4] at h2; cases h2
    | some y =>
      rw [h3] at h1
      rw [h4] at h2
      simp only [Option.map_some, Option.some.injEq, Prod.mk.injEq, decide_eq_true_eq] at h1 h2
      have p := play_plays 162 30 _ _ x.1 .finished (by rw [h3, ← h1.2])
      have r := session_run 30 _ _ y.1 .finished (by rw [h4, ← h2.2])
      exact ⟨_, _, p, h1.1, r, h2.1, (C65_file {} none64 none64 good (by decide +kernel) _ _ _ _ _ [good] (by simp) p r (by simp)).2⟩

end Casync.ArchiveFile
