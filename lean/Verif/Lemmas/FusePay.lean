import Verif.Spec.Fuse
/-!
A decoder that does not want the content of files makes the same steps as one that does, until it skips the content of a file.
-/
namespace Casync.Fuse
open Casync Flags Archive

/-- The same decoder, wanting the content. -/
def onC (c : Dec) : Dec := { c with cfg := { c.cfg with wantPayload := true } }
def on (d : SDec) : SDec := { d with core := onC d.core }

/-- The same step. -/
def onR {α : Type} (r : SDec × α) : SDec × α := (on r.1, r.2)
def onRC {α : Type} (r : Dec × α) : Dec × α := (onC r.1, r.2)

theorem on_on (d : SDec) : on (on d) = on d := rfl
theorem on_put (d : SDec) (c : Dec) : on (withCore d c) = withCore (on d) (onC c) := rfl

theorem stepFinalize_on (c : Dec) : stepFinalize (onC c) = onRC (stepFinalize c) := by
  unfold stepFinalize
  cases h : c.nodes with
  | nil => simp only [show (onC c).nodes = [] from h]; rfl
  | cons n ns =>
    simp only [show (onC c).nodes = n :: ns from h]
    by_cases hb : ns.length ≤ c.cfg.boundary
    · rw [if_pos hb, if_pos (show ns.length ≤ (onC c).cfg.boundary from hb)]; rfl
    · rw [if_neg hb, if_neg (show ¬ ns.length ≤ (onC c).cfg.boundary from hb)]; rfl

/-- The content is skipped instead of being asked for. -/
structure Skips (c : Dec) (r : Dec × Res Ev) (r' : Dec × Res Ev) : Prop where
  skip : r.2 = .ok .skip
  asks : r' = (onC c, .ok .request)
  more : ∃ n ns s, c.nodes = n :: ns ∧ nodeSize n = some s ∧ s ≠ c.payloadOff

theorem stepPayload_on (c : Dec) : stepPayload (onC c) = onRC (stepPayload c) ∨ Skips c (stepPayload c) (stepPayload (onC c)) := by
  unfold stepPayload
  cases h : c.nodes with
  | nil => simp only [show (onC c).nodes = [] from h]; exact .inl rfl
  | cons n ns =>
    simp only [show (onC c).nodes = n :: ns from h]
    rw [show nodeMode (onC c) n = nodeMode c n from rfl]
    cases hm : nodeMode c n with
    | none => exact .inl rfl
    | some m =>
      simp only
      rw [show (onC c).payloadOff = c.payloadOff from rfl, show (onC c).buf = c.buf from rfl, show (onC c).eof = c.eof from rfl, show isNaked (onC c) = isNaked c from rfl]
      by_cases h1 : (!(isType m ifReg || isType m ifBlk)) = true
      · rw [if_pos h1, if_pos h1]; exact .inl rfl
      rw [if_neg h1, if_neg h1]
      by_cases h2 : pastEnd n c.payloadOff = true
      · rw [if_pos h2, if_pos h2]; exact .inl rfl
      rw [if_neg h2, if_neg h2]
      by_cases h3 : nodeSize n = some c.payloadOff
      · rw [if_pos h3, if_pos h3]; exact .inl rfl
      rw [if_neg h3, if_neg h3]
      by_cases h4 : c.buf ≠ []
      · rw [if_pos h4, if_pos h4]
        cases nodeSize n <;> exact .inl rfl
      rw [if_neg h4, if_neg h4]
      cases h5 : c.eof with
      | true =>
        simp only [if_true]
        by_cases h6 : (nodeSize n).isSome = true
        · rw [if_pos h6, if_pos h6]; exact .inl rfl
        rw [if_neg h6, if_neg h6]
        by_cases h7 : ns ≠ []
        · rw [if_pos h7, if_pos h7]; exact .inl rfl
        rw [if_neg h7, if_neg h7]
        by_cases h8 : isNaked c = true
        · rw [if_pos h8, if_pos h8]; exact .inl (stepFinalize_on (enterState c .finalize))
        · rw [if_neg h8, if_neg h8]; exact .inl rfl
      | false =>
        simp only [Bool.false_eq_true, if_false]
        cases h6 : nodeSize n with
        | none => exact .inl rfl
        | some s =>
          simp only
          cases hw : c.cfg.wantPayload with
          | true =>
            rw [show (onC c).cfg.wantPayload = true from rfl]
            exact .inl rfl
          | false =>
            rw [show (onC c).cfg.wantPayload = true from rfl]
            refine .inr ⟨rfl, rfl, n, ns, s, h, h6, ?_⟩
            intro e
            rw [h6, e] at h3
            exact h3 rfl

theorem dirBody_on (c : Dec) : dirBody (onC c) = onRC (dirBody c) := by
  unfold dirBody
  cases h : c.nodes with
  | nil => simp only [show (onC c).nodes = [] from h]; rfl
  | cons n ns =>
    simp only [show (onC c).nodes = n :: ns from h]
    rw [show (onC c).buf = c.buf from rfl]
    cases parseDirRec c.buf with
    | request => rfl
    | err e => rfl
    | ok x =>
      obtain ⟨x, l⟩ := x
      cases x with
      | filename nm =>
        simp only
        by_cases h1 : (n :: ns).length ≥ nodesMax
        · rw [if_pos h1, if_pos h1]; rfl
        · rw [if_neg h1, if_neg h1]; rfl
      | goodbye tb eo =>
        simp only
        rw [show (onC c).archiveOff = c.archiveOff from rfl]
        by_cases h1 : eo ≠ c.archiveOff - n.entryOff
        · rw [if_pos h1, if_pos h1]; rfl
        · rw [if_neg h1, if_neg h1]; rfl

theorem stepDirectory_on (c : Dec) : stepDirectory (onC c) = onRC (stepDirectory c) := by
  unfold stepDirectory
  cases h : c.nodes with
  | nil => simp only [show (onC c).nodes = [] from h]; rfl
  | cons n ns =>
    simp only [show (onC c).nodes = n :: ns from h]
    rw [show nodeMode (onC c) n = nodeMode c n from rfl, show (onC c).buf = c.buf from rfl]
    cases nodeMode c n with
    | none => rfl
    | some m =>
      simp only
      by_cases h0 : (!isType m ifDir) = true
      · rw [if_pos h0, if_pos h0]; rfl
      rw [if_neg h0, if_neg h0]
      cases parseDirRec c.buf with
      | request => rfl
      | err e => rfl
      | ok x =>
        obtain ⟨x, l⟩ := x
        cases x with
        | filename nm =>
          simp only
          by_cases h1 : (n :: ns).length ≥ nodesMax
          · rw [if_pos h1, if_pos h1]; rfl
          · rw [if_neg h1, if_neg h1]; rfl
        | goodbye tb eo =>
          simp only
          rw [show (onC c).archiveOff = c.archiveOff from rfl]
          by_cases h1 : eo ≠ c.archiveOff - n.entryOff
          · rw [if_pos h1, if_pos h1]; rfl
          · rw [if_neg h1, if_neg h1]; rfl

theorem stepParse_on (c : Dec) : stepParse (onC c) = onRC (stepParse c) := by
  unfold stepParse
  cases h : c.nodes with
  | nil => simp only [show (onC c).nodes = [] from h]; rfl
  | cons n ns =>
    simp only [show (onC c).nodes = n :: ns from h]
    rw [show (onC c).buf = c.buf from rfl, show (onC c).ff = c.ff from rfl]
    cases parseEntry c.ff (ns == []) c.buf with
    | mk f r =>
      cases r with
      | request => rfl
      | err e => rfl
      | ok x => rfl

/-- The step leads into the content of a file. -/
structure SkipsAt (r r' : Dec × Res Ev) : Prop where
  skip : r.2 = .ok .skip
  asks : r'.2 = .ok .request
  state : r'.1.state = .inPayload
  more : ∃ n ns s, r'.1.nodes = n :: ns ∧ nodeSize n = some s ∧ s ≠ r'.1.payloadOff + r'.1.stepSize

theorem Skips.at {c : Dec} {r r' : Dec × Res Ev} (h : Skips c r r') (h0 : c.stepSize = 0) (hs : c.state = .inPayload) : SkipsAt r r' := by
  obtain ⟨n, ns, s, h1, h2, h3⟩ := h.more
  refine ⟨h.skip, by rw [h.asks], by rw [h.asks]; exact hs, n, ns, s, by rw [h.asks]; exact h1, h2, ?_⟩
  rw [h.asks]
  show s ≠ c.payloadOff + c.stepSize
  rw [h0]
  exact h3

theorem stepNode_on (c : Dec) (h0 : c.stepSize = 0) : stepNode (onC c) = onRC (stepNode c) ∨ SkipsAt (stepNode c) (stepNode (onC c)) := by
  unfold stepNode
  rw [show (onC c).state = c.state from rfl]
  cases hs : c.state with
  | init =>
    simp only
    rw [show isNaked (onC c) = isNaked c from rfl]
    by_cases hn : isNaked c = true
    · rw [if_pos hn, if_pos hn]
      rcases stepPayload_on (enterState c .inPayload) with h | h
      · exact .inl h
      · exact .inr (h.at rfl rfl)
    · rw [if_neg hn, if_neg hn]; exact .inl (stepParse_on c)
  | entered => exact .inl (stepParse_on c)
  | entry =>
    simp only
    cases h : c.nodes with
    | nil => simp only [show (onC c).nodes = [] from h]; exact .inl rfl
    | cons n ns =>
      simp only [show (onC c).nodes = n :: ns from h]
      rw [show nodeMode (onC c) n = nodeMode c n from rfl]
      cases nodeMode c n with
      | none => exact .inl rfl
      | some m =>
        simp only
        by_cases h1 : isType m ifReg = true
        · rw [if_pos h1, if_pos h1]
          rcases stepPayload_on (enterState c .inPayload) with h | h
          · exact .inl h
          · exact .inr (h.at rfl rfl)
        rw [if_neg h1, if_neg h1]
        by_cases h2 : isType m ifDir = true
        · rw [if_pos h2, if_pos h2]; exact .inl (stepDirectory_on (enterState c .inDirectory))
        · rw [if_neg h2, if_neg h2]; exact .inl rfl
  | inPayload =>
    rcases stepPayload_on c with h | h
    · exact .inl h
    · exact .inr (h.at h0 hs)
  | inDirectory => exact .inl (stepDirectory_on c)
  | goodbye => exact .inl rfl
  | finalize => exact .inl (stepFinalize_on c)
  | eof => exact .inl rfl
  | skipping => exact .inl rfl

theorem step_on (c : Dec) : step (onC c) = onRC (step c) ∨ SkipsAt (step c) (step (onC c)) := by
  unfold step
  rw [show (onC c).state = c.state from rfl, show (onC c).buf = c.buf from rfl, show (onC c).stepSize = c.stepSize from rfl]
  by_cases h1 : c.state = .eof
  · rw [if_pos h1, if_pos h1]; exact .inl rfl
  rw [if_neg h1, if_neg h1]
  by_cases h2 : c.buf.length < c.stepSize
  · rw [if_pos h2, if_pos h2]; exact .inl rfl
  rw [if_neg h2, if_neg h2]
  exact stepNode_on (advance c) rfl

theorem plainStep_on (d : SDec) : plainStep (on d) = onRC (plainStep d) ∨ SkipsAt (plainStep d) (plainStep (on d)) := by
  unfold plainStep
  rw [show baseDir (on d) = baseDir d from rfl]
  by_cases h : baseDir d = true
  · rw [if_pos h, if_pos h]
    rw [show (on d).core.buf = d.core.buf from rfl, show (on d).core.stepSize = d.core.stepSize from rfl]
    by_cases h2 : d.core.buf.length < d.core.stepSize
    · rw [if_pos h2, if_pos h2]; exact .inl rfl
    rw [if_neg h2, if_neg h2]
    exact .inl (dirBody_on (advance d.core))
  · rw [if_neg h, if_neg h]; exact step_on d.core

/-! ### Seeks -/

theorem setExt_on (d : SDec) (f : NX → NX) : setExt (on d) f = on (setExt d f) := by
  unfold setExt
  cases h : d.exts with
  | nil => simp only [show (on d).exts = [] from h]
  | cons x xs => simp only [show (on d).exts = x :: xs from h]; rfl

theorem moved_on (d : SDec) (c : Dec) : moved (on d) (onC c) = on (moved d c) := by
  unfold moved
  rw [show (on d).core.nodes = d.core.nodes from rfl, show (onC c).nodes = c.nodes from rfl, show (on d).exts = d.exts from rfl]
  by_cases h : d.core.nodes.length < c.nodes.length
  · rw [if_pos h, if_pos h]; rfl
  rw [if_neg h, if_neg h]
  by_cases h : c.nodes.length < d.core.nodes.length
  · rw [if_pos h, if_pos h]
    cases d.core.nodes <;> cases d.exts <;> rfl
  · rw [if_neg h, if_neg h]

theorem noted_on (d : SDec) (c : Dec) : noted' (on d) (onC c) = on (noted' d c) := by
  unfold noted'
  simp only
  rw [moved_on, show parses (on d).core = parses d.core from rfl, show curParsed (onC c) = curParsed c from rfl,
    show (onC c).archiveOff = c.archiveOff from rfl, show (onC c).stepSize = c.stepSize from rfl, show (onC c).state = c.state from rfl,
    show bufRows (onC c) = bufRows c from rfl]
  by_cases h1 : parses d.core = true
  · rw [if_pos h1, if_pos h1]
    by_cases h2 : c.state = .goodbye
    · rw [if_pos h2, if_pos h2, setExt_on, setExt_on]; rfl
    · rw [if_neg h2, if_neg h2, setExt_on]; rfl
  · rw [if_neg h1, if_neg h1]
    by_cases h2 : c.state = .goodbye
    · rw [if_pos h2, if_pos h2, setExt_on]; rfl
    · rw [if_neg h2, if_neg h2]; rfl

theorem seekHere_on (d : SDec) (n : DNode) (up : List DNode) (x : NX) (xs : List NX) : seekHere (on d) n up x xs = onR (seekHere d n up x xs) := by
  unfold seekHere
  rw [show (on d).sibling = d.sibling from rfl, show (on d).pay = d.pay from rfl]
  cases d.sibling with
  | true =>
    simp only [if_true]
    cases x.endOff with
    | none => rfl
    | some e =>
      simp only
      by_cases h : up.length ≤ d.core.cfg.boundary
      · rw [if_pos h, if_pos (show up.length ≤ (on d).core.cfg.boundary from h)]; rfl
      · rw [if_neg h, if_neg (show ¬ up.length ≤ (on d).core.cfg.boundary from h)]; rfl
  | false =>
    simp only [Bool.false_eq_true, if_false]
    cases d.pay with
    | none => rfl
    | some k =>
      simp only
      cases x.payloadOff with
      | none => rfl
      | some po =>
        cases sMode n x with
        | none => rfl
        | some m =>
          simp only
          by_cases h : (!isType m ifReg) = true
          · rw [if_pos h, if_pos h]; rfl
          rw [if_neg h, if_neg h]
          by_cases h : smaller n k = true
          · rw [if_pos h, if_pos h]; rfl
          · rw [if_neg h, if_neg h]; rfl

theorem seekDown_on (d : SDec) (n : DNode) (x : NX) (c : Bytes) : seekDown (on d) n x c = onR (seekDown d n x c) := by
  unfold seekDown
  cases x.goodbye with
  | some table =>
    simp only
    cases x.goodbyeOff with
    | none => rfl
    | some g =>
      simp only
      rw [show (on d).idx = d.idx from rfl]
      cases Goodbye.locate table g n.entryOff (nameHash c) d.idx with
      | ok o => cases o <;> rfl
      | err e => rfl
      | ub => rfl
  | none =>
    simp only
    cases x.goodbyeOff with
    | some g => rfl
    | none =>
      simp only
      cases x.endOff with
      | none => rfl
      | some e =>
        simp only
        by_cases h : e < 24
        · rw [if_pos h, if_pos h]; rfl
        · rw [if_neg h, if_neg h]; rfl

theorem doSeek_on (d : SDec) : doSeek (on d) = onR (doSeek d) := by
  unfold doSeek
  rw [show (on d).path = d.path from rfl, show (on d).core.nodes = d.core.nodes from rfl, show (on d).exts = d.exts from rfl]
  cases d.path with
  | none => rfl
  | some p =>
    cases d.core.nodes with
    | nil => rfl
    | cons n up =>
      cases d.exts with
      | nil => rfl
      | cons x xs =>
        simp only
        cases (getComponent p).1 with
        | none => exact seekHere_on d n up x xs
        | some c =>
          simp only
          cases sMode n x with
          | none => rfl
          | some m =>
            simp only
            by_cases h : (!isType m ifDir) = true
            · rw [if_pos h, if_pos h]; rfl
            · rw [if_neg h, if_neg h]; exact seekDown_on d n x c

theorem afterSeek_on (r : SDec × Res Bool) : afterSeek (onR r) = onR (afterSeek r) := by
  obtain ⟨d, r⟩ := r
  cases r with
  | ok b => cases b <;> rfl
  | err e => rfl
  | ub => rfl

/-- The rest of entering a child. -/
theorem enterChild_on (d : SDec) (name : Bytes) (l : Nat) (eo : Option Nat) :
    enterChild (on d) name l eo = (match enterChild d name l eo with | .ok d => .ok (on d) | .err e => .err e | .ub => .ub) := by
  unfold enterChild
  rw [show (on d).core.nodes = d.core.nodes from rfl]
  by_cases h : d.core.nodes.length ≥ nodesMax
  · rw [if_pos h, if_pos h]
  · rw [if_neg h, if_neg h]; rfl

theorem seekName_on (d : SDec) (name : Bytes) (l : Nat) : seekName (on d) name l = onR (seekName d name l) := by
  unfold seekName
  rw [show (on d).path = d.path from rfl]
  cases d.path with
  | none => rfl
  | some p =>
    simp only
    have hm : ∀ m : PathMatch, m ≠ .no → (if m = .more ∨ (on d).sibling = true ∨ (on d).pay.isSome = true then
        match enterChild { on d with idx := 0, path := some (getComponent p).2 } name l (on d).endOff with
        | .ok d'' => (sSetStep (setMode d'' .entered) l, Res.ok (SEv.plain .step))
        | .err e => ({ on d with idx := 0, path := some (getComponent p).2 }, .err e)
        | .ub => ({ on d with idx := 0, path := some (getComponent p).2 }, .ub)
      else
        match enterChild (setBoundary (resetSeek { on d with idx := 0 }) (on d).core.nodes.length) name l (on d).endOff with
        | .ok d'' => (sSetStep (setPlain d'' .entered) l, .ok .found)
        | .err e => (setBoundary (resetSeek { on d with idx := 0 }) (on d).core.nodes.length, .err e)
        | .ub => (setBoundary (resetSeek { on d with idx := 0 }) (on d).core.nodes.length, .ub)) =
      onR (if m = .more ∨ d.sibling = true ∨ d.pay.isSome = true then
        match enterChild { d with idx := 0, path := some (getComponent p).2 } name l d.endOff with
        | .ok d'' => (sSetStep (setMode d'' .entered) l, Res.ok (SEv.plain .step))
        | .err e => ({ d with idx := 0, path := some (getComponent p).2 }, .err e)
        | .ub => ({ d with idx := 0, path := some (getComponent p).2 }, .ub)
      else
        match enterChild (setBoundary (resetSeek { d with idx := 0 }) d.core.nodes.length) name l d.endOff with
        | .ok d'' => (sSetStep (setPlain d'' .entered) l, .ok .found)
        | .err e => (setBoundary (resetSeek { d with idx := 0 }) d.core.nodes.length, .err e)
        | .ub => (setBoundary (resetSeek { d with idx := 0 }) d.core.nodes.length, .ub)) := by
      intro m _
      rw [show (on d).sibling = d.sibling from rfl, show (on d).pay = d.pay from rfl, show (on d).endOff = d.endOff from rfl, show (on d).core.nodes = d.core.nodes from rfl]
      by_cases h : m = .more ∨ d.sibling = true ∨ d.pay.isSome = true
      · rw [if_pos h, if_pos h, show enterChild { on d with idx := 0, path := some (getComponent p).2 } name l d.endOff = _ from enterChild_on { d with idx := 0, path := some (getComponent p).2 } name l d.endOff]
        cases enterChild { d with idx := 0, path := some (getComponent p).2 } name l d.endOff <;> rfl
      · rw [if_neg h, if_neg h, show enterChild (setBoundary (resetSeek { on d with idx := 0 }) d.core.nodes.length) name l d.endOff = _ from enterChild_on (setBoundary (resetSeek { d with idx := 0 }) d.core.nodes.length) name l d.endOff]
        cases enterChild (setBoundary (resetSeek { d with idx := 0 }) d.core.nodes.length) name l d.endOff <;> rfl
    cases hmc : matchComponent p name with
    | no =>
      simp only
      exact (congrArg afterSeek (doSeek_on { d with path := some p, idx := d.idx + 1 })).trans (afterSeek_on _)
    | final => exact hm .final (by simp)
    | more => exact hm .more (by simp)

theorem seekDirRec_on (d : SDec) (tg : Target) : seekDirRec (on d) tg = onR (seekDirRec d tg) := by
  unfold seekDirRec
  rw [show (on d).core.nodes = d.core.nodes from rfl, show (on d).core.buf = d.core.buf from rfl]
  cases d.core.nodes with
  | nil => rfl
  | cons n ns =>
    simp only
    by_cases h : wrongRecord tg d.core.buf = true
    · rw [if_pos h, if_pos h]; rfl
    rw [if_neg h, if_neg h]
    cases parseDirRec d.core.buf with
    | request => rfl
    | err e => rfl
    | ok x =>
      obtain ⟨x, l⟩ := x
      cases x with
      | filename nm =>
        simp only
        by_cases h : tg = .filename
        · rw [if_pos h, if_pos h]; exact seekName_on d nm l
        · rw [if_neg h, if_neg h, show enterChild (resetSeek (on d)) nm l none = _ from enterChild_on (resetSeek d) nm l none]
          cases enterChild (resetSeek d) nm l none <;> rfl
      | goodbye tb eo =>
        simp only
        rw [show (on d).core.archiveOff = d.core.archiveOff from rfl]
        by_cases h : eo ≠ d.core.archiveOff - n.entryOff
        · rw [if_pos h, if_pos h]; rfl
        rw [if_neg h, if_neg h, setExt_on]
        by_cases h : tg = .goodbye
        · rw [if_pos h, if_pos h, doSeek_on]; exact afterSeek_on _
        · rw [if_neg h, if_neg h]; rfl

theorem seekTail_on (d : SDec) : seekTail (on d) = onR (seekTail d) := by
  unfold seekTail
  simp only
  rw [show (on d).core.buf = d.core.buf from rfl, show (on d).core.archiveOff = d.core.archiveOff from rfl, show (on d).core.nodes = d.core.nodes from rfl]
  rw [setExt_on, doSeek_on, afterSeek_on]
  repeat' split
  all_goals rfl

theorem seekEntry_on (d : SDec) : seekEntry (on d) = onR (seekEntry d) := by
  unfold seekEntry
  rw [show (on d).core.nodes = d.core.nodes from rfl, show (on d).core.buf = d.core.buf from rfl, show (on d).core.ff = d.core.ff from rfl]
  cases d.core.nodes with
  | nil => rfl
  | cons n ns =>
    simp only
    cases parseEntry d.core.ff (ns == []) d.core.buf with
    | mk f r =>
      cases r with
      | request =>
        simp only
        rw [show setExt { on d with core := { (on d).core with ff := f, nodes := { n with parsed := none } :: ns } } (parsedExt none 0) = _ from
          setExt_on { d with core := { d.core with ff := f, nodes := { n with parsed := none } :: ns } } (parsedExt none 0)]
        rfl
      | err e =>
        simp only
        rw [show setExt { on d with core := { (on d).core with ff := f, nodes := { n with parsed := none } :: ns } } (parsedExt none 0) = _ from
          setExt_on { d with core := { d.core with ff := f, nodes := { n with parsed := none } :: ns } } (parsedExt none 0)]
        rfl
      | ok x =>
        obtain ⟨p, off⟩ := x
        simp only
        rw [show setExt { on d with core := { (on d).core with ff := f, nodes := { n with parsed := some p } :: ns } } (parsedExt (some p) ((on d).core.archiveOff + off)) = _ from
          setExt_on { d with core := { d.core with ff := f, nodes := { n with parsed := some p } :: ns } } (parsedExt (some p) (d.core.archiveOff + off)), doSeek_on]
        exact afterSeek_on _

/-- The step leads into the content of a file. -/
structure SkipsIn (r r' : SDec × Res SEv) : Prop where
  skip : r.2 = .ok (.plain .skip)
  asks : r'.2 = .ok (.plain .request)
  state : r'.1.core.state = .inPayload
  mode : r'.1.mode = none
  more : ∃ n ns s, r'.1.core.nodes = n :: ns ∧ nodeSize n = some s ∧ s ≠ r'.1.core.payloadOff + r'.1.core.stepSize

theorem noted_core (d : SDec) (c : Dec) : (noted' d c).core = c := rfl

theorem noted_mode' (d : SDec) (c : Dec) : (noted' d c).mode = d.mode := by
  have hm : (moved d c).mode = d.mode := by
    unfold moved
    split
    · rfl
    split
    · cases d.core.nodes <;> cases d.exts <;> rfl
    · rfl
  have he : ∀ (d : SDec) (f : NX → NX), (setExt d f).mode = d.mode := by
    intro d f
    unfold setExt
    split <;> rfl
  unfold noted'
  simp only
  split <;> split <;> simp only [he, hm]

theorem SkipsAt.note {r r' : Dec × Res Ev} (h : SkipsAt r r') {d e : SDec} (he : e.mode = none) : SkipsIn (noted' d r.1, plainEv r.2) (noted' e r'.1, plainEv r'.2) :=
  ⟨by rw [h.skip]; rfl, by rw [h.asks]; rfl, h.state, (noted_mode' _ _).trans he, h.more⟩

theorem curMode_on (d : SDec) : curMode (on d) = curMode d := rfl

theorem stepSeek_on (d : SDec) (h0 : d.core.stepSize = 0) (m : SMode) : stepSeek (on d) m = onR (stepSeek d m) ∨ SkipsIn (stepSeek d m) (stepSeek (on d) m) := by
  have hprep : ∀ tg, tg ≠ .entry → stepSeek (on d) (.prep tg) = onR (stepSeek d (.prep tg)) := by
    intro tg htg
    have hk : (match curMode d, d.off with
        | some m, some o => if !isType m (if tg = .payload then ifReg else ifDir) then (on d, Res.ub) else (applySeek (setMode (on d) (.seeking tg)) o, .ok SEv.seek)
        | none, _ => (on d, .err .EUNATCH)
        | _, none => (on d, .ub)) = onR (match curMode d, d.off with
        | some m, some o => if !isType m (if tg = .payload then ifReg else ifDir) then (d, Res.ub) else (applySeek (setMode d (.seeking tg)) o, .ok SEv.seek)
        | none, _ => (d, .err .EUNATCH)
        | _, none => (d, .ub)) := by
      cases curMode d with
      | none => cases d.off <;> rfl
      | some m =>
        cases d.off with
        | none => rfl
        | some o =>
          simp only
          generalize (if tg = Target.payload then ifReg else ifDir) = w
          split <;> rfl
    cases tg with
    | entry => exact absurd rfl htg
    | _ => exact hk
  have hdir : ∀ tg, tg ≠ .entry → tg ≠ .payload → tg ≠ .goodbyeTail → stepSeek (on d) (.seeking tg) = onR (stepSeek d (.seeking tg)) := by
    intro tg h1 h2 h3
    have hk : (match curMode d with
        | some m => if !isType m ifDir then (on d, Res.ub) else seekDirRec (on d) tg
        | none => (on d, .err .EUNATCH)) = onR (match curMode d with
        | some m => if !isType m ifDir then (d, Res.ub) else seekDirRec d tg
        | none => (d, .err .EUNATCH)) := by
      cases curMode d with
      | none => rfl
      | some m =>
        simp only
        split
        · rfl
        · exact seekDirRec_on d tg
    cases tg with
    | entry => exact absurd rfl h1
    | payload => exact absurd rfl h2
    | goodbyeTail => exact absurd rfl h3
    | _ => exact hk
  cases m with
  | nowhere => exact .inl rfl
  | entered => exact .inl (seekEntry_on d)
  | prep tg =>
    by_cases htg : tg = .entry
    · subst htg
      left
      unfold stepSeek
      simp only
      rw [show (on d).off = d.off from rfl]
      cases d.off <;> rfl
    · exact .inl (hprep tg htg)
  | seeking tg =>
    by_cases h1 : tg = .entry
    · subst h1; exact .inl rfl
    by_cases h2 : tg = .payload
    · subst h2
      unfold stepSeek
      simp only
      rw [show (on d).pay = d.pay from rfl]
      cases d.pay with
      | none => exact .inl rfl
      | some k =>
        simp only
        rcases stepNode_on { (setPlain (resetSeek d) .inPayload).core with payloadOff := k } rfl with h | h
        · left
          rw [show stepNode { (setPlain (resetSeek (on d)) .inPayload).core with payloadOff := k } = _ from h]
          show (noted' (on (setPlain (resetSeek d) .inPayload)) (onC _), _) = _
          rw [noted_on]
          rfl
        · right
          exact h.note rfl
    by_cases h3 : tg = .goodbyeTail
    · subst h3
      left
      unfold stepSeek
      simp only
      rw [curMode_on]
      cases curMode d with
      | none => rfl
      | some m =>
        simp only
        split
        · rfl
        · exact seekTail_on d
    exact .inl (hdir tg h1 h2 h3)

/-- A decoder that does not want the content makes the same step, or skips the content. -/
theorem sStep_on (d : SDec) : sStep (on d) = onR (sStep d) ∨ SkipsIn (sStep d) (sStep (on d)) := by
  unfold sStep
  rw [show (on d).mode = d.mode from rfl]
  cases hm : d.mode with
  | none =>
    simp only
    rcases plainStep_on d with h | h
    · left
      rw [h]
      show (noted' (on d) (onC _), _) = _
      rw [noted_on]
      rfl
    · right
      exact h.note hm
  | some m =>
    simp only
    rw [show (on d).core.buf = d.core.buf from rfl, show (on d).core.stepSize = d.core.stepSize from rfl]
    by_cases h2 : d.core.buf.length < d.core.stepSize
    · rw [if_pos h2, if_pos h2]; exact .inl rfl
    rw [if_neg h2, if_neg h2]
    exact stepSeek_on { d with core := advance d.core, mode := some m } rfl m

theorem seekInternal_on (d : SDec) (p : Bytes) (s : Bool) (k : Option Nat) : seekInternal (on d) p s k = onR (seekInternal d p s k) := by
  unfold seekInternal
  rw [show openNodes (on d) = openNodes d from rfl]
  cases openNodes d with
  | nil => rfl
  | cons y r =>
    obtain ⟨n, x⟩ := y
    simp only
    by_cases he : x.endOff = none
    · rw [if_pos he, if_pos he]; rfl
    rw [if_neg he, if_neg he]
    cases sMode n x with
    | none => rfl
    | some m =>
      simp only
      split
      · rfl
      · exact doSeek_on { resetSeek d with
            path := some (reuse r (p.dropWhile (· == 47))).2, sibling := s, pay := k
            core := { d.core with nodes := (((n, x) :: r).take ((reuse r (p.dropWhile (· == 47))).1 + 1)).reverse.map Prod.fst }
            exts := (((n, x) :: r).take ((reuse r (p.dropWhile (· == 47))).1 + 1)).reverse.map Prod.snd, below := [] }

end Casync.Fuse
