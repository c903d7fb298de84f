import Verif.Lemmas.DecoderFeed
/-!
A session that skips the content of files is simulated by one that reads it.
-/
namespace Casync.Archive
open Casync Flags

/-- The same decoder with the content wanted (and nothing to skip). -/
def want (d : Dec) : Dec := { d with cfg := { d.cfg with wantPayload := true }, skip := 0 }

/-- What a decoder looks like when it asks to skip `k` bytes: in a file of known size of which `off` bytes were read. -/
structure SkipAt (q : Dec) (k : Nat) : Prop where
  state : q.state = .inPayload
  node : ∃ n rest m z, q.nodes = n :: rest ∧ nodeMode q n = some m ∧ (!(isType m ifReg || isType m ifBlk)) = false ∧ nodeSize n = some z ∧
    q.payloadOff + k = z
  pos : 0 < k
  buf : q.buf = []
  eof : q.eof = false
  zero : q.stepSize = 0

/-- A step and the same step with the content wanted. -/
inductive Both : Dec × Res Ev → Dec × Res Ev → Prop
  | same {p : Dec × Res Ev} (h : p.1.state ≠ .skipping) (hs : p.2 ≠ .ok .skip) : Both p (want p.1, p.2)
  | skip {q : Dec} {k : Nat} (h : SkipAt q k) : Both (enterState (setSkip q k) .skipping, .ok .skip) (want q, .ok .request)

theorem Both.same' {p q : Dec × Res Ev} (h : p.1.state ≠ .skipping) (hs : p.2 ≠ .ok .skip) (e : q = (want p.1, p.2)) : Both p q := by
  rw [e]; exact .same h hs

theorem stepFinalize_both (s : Dec) (h : s.state ≠ .skipping) : Both (stepFinalize s) (stepFinalize (want s)) := by
  cases hn : s.nodes with
  | nil =>
    have e1 : stepFinalize s = (s, .err .EUNATCH) := by unfold stepFinalize; rw [hn]
    have e2 : stepFinalize (want s) = (want s, .err .EUNATCH) := by
      have : (want s).nodes = [] := hn
      unfold stepFinalize; rw [this]
    rw [e1, e2]; exact .same h (by simp)
  | cons n rest =>
    have hn' : (want s).nodes = n :: rest := hn
    unfold stepFinalize
    rw [hn, hn']
    simp only
    by_cases c : rest.length ≤ s.cfg.boundary
    · have c' : rest.length ≤ (want s).cfg.boundary := c
      rw [if_pos c, if_pos c']
      exact .same' (by simp [enterState]) (by simp) rfl
    · have c' : ¬ rest.length ≤ (want s).cfg.boundary := c
      rw [if_neg c, if_neg c']
      exact .same' (by simp [enterState]) (by simp) rfl

theorem stepPayload_both (s : Dec) (hst : s.state = .inPayload) (h0 : s.stepSize = 0) : Both (stepPayload s) (stepPayload (want s)) := by
  have hne : s.state ≠ .skipping := by rw [hst]; decide
  cases hn : s.nodes with
  | nil =>
    have hn' : (want s).nodes = [] := hn
    unfold stepPayload
    rw [hn, hn']
    exact .same' hne (by simp) rfl
  | cons n rest =>
    have hn' : (want s).nodes = n :: rest := hn
    have hm' : nodeMode (want s) n = nodeMode s n := rfl
    unfold stepPayload
    rw [hn, hn']
    simp only
    rw [hm']
    cases hm : nodeMode s n with
    | none => exact .same' hne (by simp) rfl
    | some m =>
      simp only
      by_cases c1 : (!(isType m ifReg || isType m ifBlk)) = true
      · rw [if_pos c1, if_pos c1]; exact .same' hne (by simp) rfl
      rw [if_neg c1, if_neg c1]
      have p' : (want s).payloadOff = s.payloadOff := rfl
      have b' : (want s).buf = s.buf := rfl
      have f' : (want s).eof = s.eof := rfl
      have w' : (want s).cfg.wantPayload = true := rfl
      have k' : isNaked (want s) = isNaked s := rfl
      rw [p', b', f', w', k']
      by_cases c2 : pastEnd n s.payloadOff = true
      · rw [if_pos c2, if_pos c2]; exact .same' hne (by simp) rfl
      rw [if_neg c2, if_neg c2]
      by_cases c3 : nodeSize n = some s.payloadOff
      · rw [if_pos c3, if_pos c3]; exact .same' (by simp [enterState]) (by simp) rfl
      rw [if_neg c3, if_neg c3]
      by_cases c4 : s.buf ≠ []
      · rw [if_pos c4, if_pos c4]
        cases hz : nodeSize n with
        | none => exact .same' (by simpa [setStep] using hne) (by simp) rfl
        | some z => exact .same' (by simpa [setStep] using hne) (by simp) rfl
      rw [if_neg c4, if_neg c4]
      by_cases c5 : s.eof = true
      · rw [if_pos c5, if_pos c5]
        by_cases c6 : (nodeSize n).isSome = true
        · rw [if_pos c6, if_pos c6]; exact .same' hne (by simp) rfl
        rw [if_neg c6, if_neg c6]
        by_cases c7 : rest ≠ []
        · rw [if_pos c7, if_pos c7]; exact .same' hne (by simp) rfl
        rw [if_neg c7, if_neg c7]
        by_cases c8 : isNaked s = true
        · rw [if_pos c8, if_pos c8]
          exact stepFinalize_both (enterState s .finalize) (by simp [enterState])
        · rw [if_neg c8, if_neg c8]; exact .same' (by simp [enterState]) (by simp) rfl
      rw [if_neg c5, if_neg c5]
      cases hz : nodeSize n with
      | none => exact .same' hne (by simp) rfl
      | some z =>
        simp only
        by_cases c9 : s.cfg.wantPayload = true
        · rw [if_neg (by simp [c9]), if_neg (by simp)]
          exact .same' hne (by simp) rfl
        · rw [if_pos (by simp [c9]), if_neg (by simp)]
          refine .skip ⟨hst, ⟨n, rest, m, z, hn, hm, by simpa using c1, hz, ?_⟩, ?_, by simpa using c4, by simpa using c5, h0⟩
          · unfold pastEnd at c2; rw [hz] at c2; simp at c2; omega
          · unfold pastEnd at c2; rw [hz] at c2 c3; simp at c2 c3; omega

theorem stepDirectory_both (s : Dec) (h : s.state = .inDirectory) : Both (stepDirectory s) (stepDirectory (want s)) := by
  have hne : s.state ≠ .skipping := by rw [h]; decide
  cases hn : s.nodes with
  | nil =>
    have hn' : (want s).nodes = [] := hn
    unfold stepDirectory
    rw [hn, hn']
    exact .same' hne (by simp) rfl
  | cons n rest =>
    have hn' : (want s).nodes = n :: rest := hn
    have hm' : nodeMode (want s) n = nodeMode s n := rfl
    unfold stepDirectory
    rw [hn, hn']
    simp only
    rw [hm']
    cases hm : nodeMode s n with
    | none => exact .same' hne (by simp) rfl
    | some m =>
      simp only
      by_cases c1 : (!isType m ifDir) = true
      · rw [if_pos c1, if_pos c1]; exact .same' hne (by simp) rfl
      rw [if_neg c1, if_neg c1]
      have b' : (want s).buf = s.buf := rfl
      have d' : (want s).cfg.delete = s.cfg.delete := rfl
      have a' : (want s).archiveOff = s.archiveOff := rfl
      rw [b', d', a']
      cases parseDirRec s.buf with
      | request => exact .same' hne (by simp) rfl
      | err e => exact .same' hne (by simp) rfl
      | ok x =>
        obtain ⟨r, l⟩ := x
        cases r with
        | filename name =>
          simp only
          by_cases c2 : (n :: rest).length ≥ nodesMax
          · rw [if_pos c2, if_pos c2]; exact .same' hne (by simp) rfl
          · rw [if_neg c2, if_neg c2]; exact .same' (by simp [enterState, setStep]) (by simp) rfl
        | goodbye _ eo =>
          simp only
          by_cases c2 : eo ≠ s.archiveOff - n.entryOff
          · rw [if_pos c2, if_pos c2]; exact .same' hne (by simp) rfl
          · rw [if_neg c2, if_neg c2]; exact .same' (by simp [enterState, setStep]) (by simp) rfl

theorem stepParse_both (s : Dec) (hne : s.state ≠ .skipping) : Both (stepParse s) (stepParse (want s)) := by
  cases hn : s.nodes with
  | nil =>
    have hn' : (want s).nodes = [] := hn
    unfold stepParse
    rw [hn, hn']
    exact .same' hne (by simp) rfl
  | cons n rest =>
    have hn' : (want s).nodes = n :: rest := hn
    have b' : (want s).buf = s.buf := rfl
    have d' : (want s).ff = s.ff := rfl
    unfold stepParse
    rw [hn, hn']
    simp only
    rw [b', d']
    generalize parseEntry s.ff (rest == []) s.buf = x
    obtain ⟨ff, r⟩ := x
    cases r with
    | request => exact .same' hne (by simp) rfl
    | err e => exact .same' hne (by simp) rfl
    | ok y => exact .same' (by simp [enterState, setStep]) (by simp) rfl

theorem stepNode_both (s : Dec) (hne : s.state ≠ .skipping) (h0 : s.stepSize = 0) : Both (stepNode s) (stepNode (want s)) := by
  have st : (want s).state = s.state := rfl
  have k' : isNaked (want s) = isNaked s := rfl
  unfold stepNode
  rw [st]
  cases hs : s.state with
  | init =>
    simp only
    rw [k']
    by_cases c : isNaked s = true
    · rw [if_pos c, if_pos c]; exact stepPayload_both (enterState s .inPayload) rfl rfl
    · rw [if_neg c, if_neg c]; exact stepParse_both s hne
  | entered => exact stepParse_both s hne
  | entry =>
    simp only
    cases hn : s.nodes with
    | nil =>
      have hn' : (want s).nodes = [] := hn
      rw [hn']
      exact .same' hne (by simp) rfl
    | cons n rest =>
      have hn' : (want s).nodes = n :: rest := hn
      have hm' : nodeMode (want s) n = nodeMode s n := rfl
      rw [hn']
      simp only
      rw [hm']
      cases nodeMode s n with
      | none => exact .same' hne (by simp) rfl
      | some m =>
        simp only
        by_cases c1 : isType m ifReg = true
        · rw [if_pos c1, if_pos c1]; exact stepPayload_both (enterState s .inPayload) rfl rfl
        rw [if_neg c1, if_neg c1]
        by_cases c2 : isType m ifDir = true
        · rw [if_pos c2, if_pos c2]; exact stepDirectory_both (enterState s .inDirectory) rfl
        · rw [if_neg c2, if_neg c2]; exact .same' (by simp [enterState]) (by simp) rfl
  | inPayload => exact stepPayload_both s hs h0
  | skipping => exact absurd hs hne
  | inDirectory => exact stepDirectory_both s hs
  | goodbye => exact .same' (by simp [enterState]) (by simp) rfl
  | finalize => exact stepFinalize_both s hne
  | eof => exact .same' hne (by simp) rfl

theorem step_both (s : Dec) (hne : s.state ≠ .skipping) : Both (step s) (step (want s)) := by
  have st : (want s).state = s.state := rfl
  unfold step
  rw [st]
  by_cases c1 : s.state = .eof
  · rw [if_pos c1, if_pos c1]; exact .same' hne (by simp) rfl
  rw [if_neg c1, if_neg c1]
  have b : ((want s).buf.length < (want s).stepSize) = (s.buf.length < s.stepSize) := rfl
  by_cases c2 : s.buf.length < s.stepSize
  · rw [if_pos c2, if_pos (by rw [b]; exact c2)]; exact .same' hne (by simp) rfl
  rw [if_neg c2, if_neg (by rw [b]; exact c2)]
  exact stepNode_both (advance s) hne rfl

/-! What follows a request to skip. -/

/-- The skipping decoder goes on at once. -/
theorem SkipAt.skips {q : Dec} {k : Nat} (h : SkipAt q k) :
    step (enterState (setSkip q k) .skipping) = (enterState { q with archiveOff := q.archiveOff + k, skip := 0 } .finalize, .ok .doneFile) := by
  have e : (enterState (setSkip q k) .skipping).state ≠ .eof := by simp [enterState]
  unfold step
  rw [if_neg e, if_neg (by show ¬ q.buf.length < 0; omega)]
  unfold stepNode
  have : (advance (enterState (setSkip q k) .skipping)).state = .skipping := rfl
  rw [this]
  simp only [advance, enterState, setSkip, List.drop_zero, Nat.add_zero]

/-- The other one takes what it gets of the content. -/
theorem SkipAt.takes {q : Dec} {k : Nat} (h : SkipAt q k) {p : Bytes} (hp : p ≠ []) (hk : p.length ≤ k) :
    putData (want q) p = .ok { want q with buf := p } ∧
      step { want q with buf := p } = (setStep { want q with buf := p } p.length, .ok .payload) ∧
      observe (setStep { want q with buf := p } p.length) .payload = [.payload p] := by
  obtain ⟨n, rest, m, z, hn, hm, ht, hz, hk'⟩ := h.node
  refine ⟨?_, ?_, ?_⟩
  · unfold putData
    have : (want q).eof = false := h.eof
    have b : (want q).buf = [] := h.buf
    rw [if_neg hp, if_neg (by simp [this]), b, List.nil_append]
  · generalize hd : ({ want q with buf := p } : Dec) = d
    have d1 : d.state = .inPayload := by rw [← hd]; exact h.state
    have d2 : d.stepSize = 0 := by rw [← hd]; exact h.zero
    have d3 : d.nodes = n :: rest := by rw [← hd]; exact hn
    have d4 : nodeMode d n = some m := by rw [← hd]; exact hm
    have d5 : d.payloadOff = q.payloadOff := by rw [← hd]; rfl
    have d6 : d.buf = p := by rw [← hd]
    have hl : 0 < p.length := List.length_pos_iff.2 hp
    unfold step
    rw [if_neg (by rw [d1]; decide), if_neg (by omega), advance_id d2]
    unfold stepNode
    rw [d1]
    simp only
    unfold stepPayload
    rw [d3]
    simp only
    rw [d4]
    simp only
    have hpos := h.pos
    rw [if_neg (by simp [ht]), if_neg (by unfold pastEnd; rw [hz, d5]; simp; omega), if_neg (by rw [hz, d5]; simp; omega),
      if_pos (by rw [d6]; exact hp), hz]
    simp only
    rw [d6, d5, Nat.min_eq_left (by omega)]
  · show [Obs.payload (p.take p.length)] = _
    rw [List.take_length]

/-- When it has got all of it it is where the skipping one is. -/
theorem SkipAt.done {q : Dec} {k : Nat} (h : SkipAt q k) {p : Bytes} (hk : p.length = k) :
    step (setStep { want q with buf := p } p.length) =
      (want (enterState { q with archiveOff := q.archiveOff + k, skip := 0 } .finalize), .ok .doneFile) := by
  obtain ⟨n, rest, m, z, hn, hm, ht, hz, hk'⟩ := h.node
  have e : (setStep { want q with buf := p } p.length).state = .inPayload := h.state
  unfold step
  rw [if_neg (by rw [e]; decide), if_neg (by show ¬ p.length < p.length; omega)]
  generalize hd : advance (setStep { want q with buf := p } p.length) = d
  have d1 : d.state = .inPayload := by rw [← hd]; exact h.state
  have d3 : d.nodes = n :: rest := by rw [← hd]; exact hn
  have d4 : nodeMode d n = some m := by rw [← hd]; exact hm
  have d5 : d.payloadOff = z := by
    rw [← hd]
    show (if q.state = .inPayload then q.payloadOff + p.length else q.payloadOff) = z
    rw [if_pos h.state]; omega
  unfold stepNode
  rw [d1]
  simp only
  unfold stepPayload
  rw [d3]
  simp only
  rw [d4]
  simp only
  rw [if_neg (by simp [ht]), if_neg (by unfold pastEnd; rw [hz, d5]; simp), if_pos (by rw [hz, d5])]
  rw [← hd]
  have hb : List.drop p.length p = q.buf := by rw [h.buf]; exact List.drop_length
  rw [hk] at hb
  simp only [advance, setStep, want, enterState, hb, hk]

/-- When it has not got all of it and nothing more comes the archive is too short. -/
theorem SkipAt.short {q : Dec} {k : Nat} (h : SkipAt q k) {d : Dec} (hb : d.buf.length = d.stepSize) (hs : d.state = .inPayload) (hn : d.nodes = q.nodes)
    (hm : ∀ n, nodeMode d n = nodeMode q n) (hlt : d.payloadOff + d.stepSize < q.payloadOff + k) (hp : q.payloadOff ≤ d.payloadOff) (he : d.eof = false)
    (hw : d.cfg.wantPayload = true) : step d = (advance d, .ok .request) ∧ (advance d).eof = false ∧ ∃ d'', step (putEof (advance d)) = (d'', .err .EPIPE) := by
  obtain ⟨n, rest, m, z, hn', hm', ht, hz, hk'⟩ := h.node
  have c1 : (advance d).state = .inPayload := hs
  have c2 : (advance d).nodes = n :: rest := hn.trans hn'
  have c3 : nodeMode (advance d) n = some m := (hm n).trans hm'
  have c4 : (advance d).payloadOff = d.payloadOff + d.stepSize := by
    show (if d.state = .inPayload then d.payloadOff + d.stepSize else d.payloadOff) = _
    rw [if_pos hs]
  have c5 : (advance d).buf = [] := by
    show d.buf.drop d.stepSize = []
    rw [← hb, List.drop_length]
  have c6 : (advance d).eof = false := he
  have c7 : (advance d).cfg.wantPayload = true := hw
  refine ⟨?_, he, ?_⟩
  · unfold step
    rw [if_neg (by rw [hs]; decide), if_neg (by omega)]
    generalize advance d = a at *
    unfold stepNode
    rw [c1]
    simp only
    unfold stepPayload
    rw [c2]
    simp only
    rw [c3]
    simp only
    rw [if_neg (by simp [ht]), if_neg (by unfold pastEnd; rw [hz, c4]; simp; omega), if_neg (by rw [hz, c4]; simp; omega),
      if_neg (by simp [c5]), if_neg (by simp [c6]), hz]
    simp only
    rw [if_neg (by simp [c7])]
  · have c0 : (advance d).stepSize = 0 := rfl
    generalize advance d = a at *
    refine ⟨putEof a, ?_⟩
    have k1 : (putEof a).state = .inPayload := c1
    have k2 : (putEof a).nodes = n :: rest := c2
    have k3 : nodeMode (putEof a) n = some m := c3
    have k4 : (putEof a).payloadOff = d.payloadOff + d.stepSize := c4
    have k5 : (putEof a).buf = [] := c5
    have k6 : (putEof a).eof = true := rfl
    have k0 : (putEof a).stepSize = 0 := c0
    generalize putEof a = b at *
    unfold step
    rw [if_neg (by rw [k1]; decide), if_neg (by omega), advance_id k0]
    unfold stepNode
    rw [k1]
    simp only
    unfold stepPayload
    rw [k2]
    simp only
    rw [k3]
    simp only
    rw [if_neg (by simp [ht]), if_neg (by unfold pastEnd; rw [hz, k4]; simp; omega), if_neg (by rw [hz, k4]; simp; omega),
      if_neg (by simp [k5]), if_pos k6, if_pos (by rw [hz]; rfl)]

theorem dropPieces_flatten : ∀ (ps : List Bytes) (n : Nat), (dropPieces n ps).flatten = ps.flatten.drop n := by
  intro ps
  induction ps with
  | nil => intro n; simp [dropPieces]
  | cons p ps ih =>
    intro n
    rw [dropPieces]
    by_cases c : p.length ≤ n
    · rw [if_pos c, ih, List.flatten_cons, List.drop_append, List.drop_eq_nil_of_le c, List.nil_append]
    · rw [if_neg c, List.flatten_cons, List.flatten_cons, List.drop_append, Nat.sub_eq_zero_of_le (by omega), List.drop_zero]

end Casync.Archive
