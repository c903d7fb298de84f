import Verif.Lemmas.Digest
import Verif.Lemmas.DecoderInv
/-!
The digests of the decoder for files.
-/
namespace Casync.Archive
open Casync Flags

variable {H : Bytes → Bytes}

/-- What is known of the digests of the object that was reported last. -/
structure DAcc (x : DDec) (h : Heard) (p : Parsed) : Prop where
  path : h.path = currentPath x.dec
  entry : h.entry = some (p.entry, p.attrs, p.term.shown)
  sums : ∃ X, Describes X p.entry p.attrs p.term.shown ∧ (x.want.payload = true → x.sum.payload = h.content) ∧
    (x.want.hardlink = true → x.sum.hardlink = X ++ h.content)

theorem currentPath_congr {d d' : Dec} (h : d'.nodes = d.nodes) : currentPath d' = currentPath d := by
  unfold currentPath
  rw [h]

theorem DAcc.same {x x' : DDec} {h : Heard} {p : Parsed} (hd : DAcc x h p) (h1 : x'.dec.nodes = x.dec.nodes) (h2 : x'.want = x.want) (h3 : x'.sum = x.sum) :
    DAcc x' h p :=
  ⟨by rw [currentPath_congr h1]; exact hd.path, hd.entry, by rw [h2, h3]; exact hd.sums⟩

structure DI (x : DDec) (h : Heard) : Prop where
  inv : DInv x.dec
  naked : x.dec.cfg.naked = false
  want : x.dec.cfg.wantPayload = true
  noSkip : x.dec.state ≠ .skipping
  info : ∀ n rest, x.dec.nodes = n :: rest → (x.dec.state = .entry ∨ x.dec.state = .inPayload) → ∃ p, n.parsed = some p ∧ DAcc x h p

theorem DI.of_state {x : DDec} {h : Heard} (h1 : DInv x.dec) (h2 : x.dec.cfg.naked = false) (h3 : x.dec.cfg.wantPayload = true)
    (h4 : x.dec.state ≠ .entry) (h5 : x.dec.state ≠ .inPayload) (h6 : x.dec.state ≠ .skipping) : DI x h :=
  ⟨h1, h2, h3, h6, fun _ _ _ hs => absurd hs (by intro hs; rcases hs with hs | hs; exact h4 hs; exact h5 hs)⟩

theorem stepFinalize_cfg (s : Dec) : (stepFinalize s).1.cfg = s.cfg := by
  unfold stepFinalize
  split
  · rfl
  · split <;> rfl

theorem stepPayload_cfg (s : Dec) : (stepPayload s).1.cfg = s.cfg := by
  unfold stepPayload
  split
  · rfl
  · split
    · rfl
    · repeat' split
      all_goals first | rfl | exact stepFinalize_cfg _

theorem stepDirectory_cfg (s : Dec) : (stepDirectory s).1.cfg = s.cfg := by
  unfold stepDirectory
  split
  · rfl
  · split
    · rfl
    · split
      · rfl
      · split
        · rfl
        · rfl
        · simp only
          split <;> rfl
        · split <;> rfl

theorem stepParse_cfg (s : Dec) : (stepParse s).1.cfg = s.cfg := by
  unfold stepParse
  split
  · rfl
  · split <;> rfl

theorem stepNode_cfg (s : Dec) : (stepNode s).1.cfg = s.cfg := by
  unfold stepNode
  split
  · split
    · rw [stepPayload_cfg]; rfl
    · exact stepParse_cfg s
  · exact stepParse_cfg s
  · split
    · rfl
    · split
      · rfl
      · split
        · rw [stepPayload_cfg]; rfl
        · split
          · rw [stepDirectory_cfg]; rfl
          · rfl
  · exact stepPayload_cfg s
  · rfl
  · exact stepDirectory_cfg s
  · rfl
  · exact stepFinalize_cfg s
  · rfl

theorem step_cfg (d : Dec) : (step d).1.cfg = d.cfg := by
  unfold step
  split
  · rfl
  · split
    · rfl
    · rw [stepNode_cfg]; rfl

theorem stepPayload_dig {s s' : Dec} {ev : Ev} {n : DNode} {rest : List DNode} {p : Parsed} {k : Nat} (hn : s.nodes = n :: rest) (hp : n.parsed = some p)
    (ht : p.term = .payload k) (hst : s.state = .inPayload) (hw : s.cfg.wantPayload = true) (h : stepPayload s = (s', .ok ev)) :
    s'.nodes = s.nodes ∧ ((ev = .doneFile ∧ s'.state = .finalize) ∨ (ev = .payload ∧ s'.state = .inPayload) ∨ (ev = .request ∧ s'.state = .inPayload)) := by
  unfold stepPayload at h
  rw [hn] at h
  simp only [nodeMode_parsed (d := s) hp, nodeSize_parsed hp ht] at h
  split at h
  · simp at h
  · split at h
    · simp at h
    · split at h
      · injection h with h1 h2; injection h2 with h2; subst h1; exact ⟨rfl, .inl ⟨h2.symm, rfl⟩⟩
      · split at h
        · injection h with h1 h2; injection h2 with h2; subst h1; exact ⟨rfl, .inr (.inl ⟨h2.symm, hst⟩)⟩
        · split at h
          · simp at h
          · rw [if_neg (by rw [hw]; simp)] at h
            injection h with h1 h2; injection h2 with h2; subst h1; exact ⟨rfl, .inr (.inr ⟨h2.symm, hst⟩)⟩

/-- What a step does to the state and the nodes, for a decoder that is not naked and wants the payload. -/
theorem stepNode_dig {s s' : Dec} {ev : Ev} (hi : DInv s) (hnk : s.cfg.naked = false) (hw : s.cfg.wantPayload = true) (h : stepNode s = (s', .ok ev)) :
    (ev = .nextFile ∧ s'.state = .entry ∧ ∃ n rest p ff ff', s'.nodes = n :: rest ∧ n.parsed = some p ∧
      s'.buf = s.buf ∧ parseEntry ff (rest == []) s.buf = (ff', .ok (p, s'.stepSize))) ∨
    (ev ≠ .nextFile ∧ (s.state = .entry ∨ s.state = .inPayload) ∧ s'.nodes = s.nodes ∧
      ((ev = .doneFile ∧ s'.state = .finalize) ∨ (ev = .payload ∧ s'.state = .inPayload) ∨ (ev = .request ∧ s'.state = .inPayload))) ∨
    (ev = .doneFile ∧ s'.state = .finalize ∧ s'.nodes = s.nodes ∧ s.state = .goodbye) ∨
    (ev ≠ .nextFile ∧ ev ≠ .doneFile ∧ ev ≠ .payload ∧ s'.state ≠ .entry ∧ s'.state ≠ .inPayload ∧ s'.state ≠ .skipping) ∨ s.state = .skipping := by
  have prs : ∀ {q : Dec}, q.buf = s.buf → (q.state ≠ .entry ∧ q.state ≠ .inPayload ∧ q.state ≠ .skipping) → stepParse q = (s', .ok ev) →
      (ev = .nextFile ∧ s'.state = .entry ∧ ∃ n rest p ff ff', s'.nodes = n :: rest ∧ n.parsed = some p ∧
        s'.buf = s.buf ∧ parseEntry ff (rest == []) s.buf = (ff', .ok (p, s'.stepSize))) ∨
      (ev ≠ .nextFile ∧ ev ≠ .doneFile ∧ ev ≠ .payload ∧ s'.state ≠ .entry ∧ s'.state ≠ .inPayload ∧ s'.state ≠ .skipping) := by
    intro q hb hq h
    unfold stepParse at h
    split at h
    · simp at h
    · rename_i n rest hn
      split at h
      · injection h with h1 h2; injection h2 with h2; subst h1 h2
        exact .inr ⟨by simp, by simp, by simp, hq.1, hq.2.1, hq.2.2⟩
      · simp at h
      · rename_i ff p off hpe
        injection h with h1 h2; injection h2 with h2; subst h1 h2
        rw [hb] at hpe
        exact .inl ⟨rfl, rfl, _, rest, p, _, ff, rfl, rfl, hb, hpe⟩
  have dirs : ∀ {q : Dec}, q.state = .inDirectory → stepDirectory q = (s', .ok ev) →
      (ev ≠ .nextFile ∧ ev ≠ .doneFile ∧ ev ≠ .payload ∧ s'.state ≠ .entry ∧ s'.state ≠ .inPayload ∧ s'.state ≠ .skipping) := by
    intro q hq h
    unfold stepDirectory at h
    split at h
    · simp at h
    · split at h
      · simp at h
      · split at h
        · simp at h
        · split at h
          · injection h with h1 h2; injection h2 with h2; subst h1 h2
            exact ⟨by simp, by simp, by simp, by rw [hq]; simp, by rw [hq]; simp, by rw [hq]; simp⟩
          · simp at h
          · simp only at h
            split at h
            · simp at h
            · injection h with h1 h2; injection h2 with h2; subst h1 h2
              exact ⟨by simp, by simp, by simp, by simp [setStep, enterState], by simp [setStep, enterState], by simp [setStep, enterState]⟩
          · split at h
            · simp at h
            · injection h with h1 h2; injection h2 with h2; subst h1 h2
              exact ⟨by simp, by simp, by simp, by simp [setStep, enterState], by simp [setStep, enterState], by simp [setStep, enterState]⟩
  have pay : ∀ {q : Dec} {n : DNode} {rest : List DNode} {p : Parsed} {k : Nat}, q.nodes = n :: rest → q.nodes = s.nodes → n.parsed = some p → p.term = .payload k →
      q.state = .inPayload → q.cfg = s.cfg → stepPayload q = (s', .ok ev) → (s.state = .entry ∨ s.state = .inPayload) →
      (ev ≠ .nextFile ∧ (s.state = .entry ∨ s.state = .inPayload) ∧ s'.nodes = s.nodes ∧
        ((ev = .doneFile ∧ s'.state = .finalize) ∨ (ev = .payload ∧ s'.state = .inPayload) ∨ (ev = .request ∧ s'.state = .inPayload))) := by
    intro q n rest p k a1 a2 a3 a4 a5 a6 a7 a8
    obtain ⟨b1, b2⟩ := stepPayload_dig a1 a3 a4 a5 (by rw [a6]; exact hw) a7
    refine ⟨?_, a8, b1.trans a2, b2⟩
    rcases b2 with b | b | b <;> rw [b.1] <;> simp
  obtain ⟨n, rest, hn⟩ := hi.nonempty
  have hh := hi.head n rest hn
  unfold HeadOK at hh
  unfold stepNode at h
  cases hs : s.state with
  | init =>
    rw [hs] at h hh
    simp only at h
    rw [if_neg (by unfold isNaked; rw [hnk]; simp)] at h
    rcases prs rfl (by rw [hs]; simp) h with k | k
    · exact .inl k
    · exact .inr (.inr (.inr (.inl k)))
  | entered =>
    rw [hs] at h
    rcases prs rfl (by rw [hs]; simp) h with k | k
    · exact .inl k
    · exact .inr (.inr (.inr (.inl k)))
  | entry =>
    rw [hs] at h hh
    obtain ⟨p, p1, p2⟩ := hh
    simp only [hn, nodeMode_parsed (d := s) p1] at h
    split at h
    · rename_i hr
      obtain ⟨k, hk⟩ := p2 hr
      have := pay (q := enterState s .inPayload) (n := n) (rest := rest) hn rfl p1 hk rfl rfl h (.inl hs)
      rw [hs] at this
      exact .inr (.inl this)
    · split at h
      · exact .inr (.inr (.inr (.inl (dirs (q := enterState s .inDirectory) rfl h))))
      · injection h with h1 h2; injection h2 with h2; subst h1 h2
        exact .inr (.inl ⟨by simp, .inl rfl, rfl, .inl ⟨rfl, rfl⟩⟩)
  | inPayload =>
    rw [hs] at h hh
    simp only at h hh
    rcases hh with ⟨p, k, p1, _, p2, _⟩ | ⟨_, _, p3⟩
    · have := pay (q := s) (n := n) (rest := rest) hn rfl p1 p2 hs rfl h (.inr hs)
      rw [hs] at this
      exact .inr (.inl this)
    · rw [hnk] at p3; cases p3
  | skipping => exact .inr (.inr (.inr (.inr rfl)))
  | inDirectory => rw [hs] at h; exact .inr (.inr (.inr (.inl (dirs hs h))))
  | goodbye =>
    rw [hs] at h
    injection h with h1 h2; injection h2 with h2; subst h1 h2
    exact .inr (.inr (.inl ⟨rfl, rfl, rfl, rfl⟩))
  | finalize =>
    rw [hs] at h
    simp only at h
    rcases stepFinalize_zero h with ⟨a, b, c⟩ | ⟨a, b, c⟩
    · subst a; exact .inr (.inr (.inr (.inl ⟨by simp, by simp, by simp, by rw [b]; simp, by rw [b]; simp, by rw [b]; simp⟩)))
    · subst a; exact .inr (.inr (.inr (.inl ⟨by simp, by simp, by simp, by rw [b]; simp, by rw [b]; simp, by rw [b]; simp⟩)))
  | eof =>
    rw [hs] at h
    injection h with h1 h2; injection h2 with h2; subst h1 h2
    exact .inr (.inr (.inr (.inl ⟨by simp, by simp, by simp, by rw [hs]; simp, by rw [hs]; simp, by rw [hs]; simp⟩)))

theorem describes_take {ff ff' : FF} {root : Bool} {b : Bytes} {p : Parsed} {k : Nat} (h : parseEntry ff root b = (ff', .ok (p, k))) :
    Describes (b.take k) p.entry p.attrs p.term.shown := by
  have hk := (parseEntry_off h).2
  refine ⟨ff, ff', root, b.drop k, p, ?_, rfl, rfl, rfl⟩
  rw [List.take_append_drop, List.length_take, Nat.min_eq_left hk]
  exact h

theorem advance_fields (d : Dec) : (advance d).nodes = d.nodes ∧ (advance d).state = d.state ∧ (advance d).cfg = d.cfg := ⟨rfl, rfl, rfl⟩

/-- A step keeps the invariant, and the answers after it are right. -/
theorem DI.step {x x' : DDec} {h : Heard} {ev : Ev} (hd : DI x h) (hs : dStep x = (x', .ok ev)) (hf : ev ≠ .finished) :
    DI x' (hearAll h (observe x'.dec ev)) ∧ ∀ a ∈ ask H x' (hearAll h (observe x'.dec ev)) ev, a.Right H x.want := by
  obtain ⟨h1, h2, h3⟩ := dStep_step hs
  have hinv' : DInv x'.dec := by have := (step_good hd.inv).inv; rw [h1] at this; exact this
  have hcfg : x'.dec.cfg = x.dec.cfg := by have := step_cfg x.dec; rw [h1] at this; exact this
  have hnk' : x'.dec.cfg.naked = false := by rw [hcfg]; exact hd.naked
  have hw' : x'.dec.cfg.wantPayload = true := by rw [hcfg]; exact hd.want
  have hn := (step_eq hd.inv.size).2 (by rw [h1]; intro h; injection h with h; exact hf h)
  rw [h1] at hn
  rcases stepNode_dig hd.inv.advance hd.naked hd.want hn.symm with
    ⟨c1, c2, n, rest, p, ff, ff', c3, c4, c5, c6⟩ | ⟨c1, c2, c3, c4⟩ | ⟨c1, c2, c3, c4⟩ | ⟨c1, c2, c3, c4, c5, c6⟩ | c
  · -- an object is reported
    subst c1
    have hob : observe x'.dec .nextFile = [.nextFile (currentPath x'.dec) p.entry p.attrs p.term.shown] := by
      unfold observe
      simp only
      rw [c3]
      obtain ⟨nm, eo, ps, de⟩ := n
      simp only at c4
      subst c4
      rfl
    rw [hob]
    refine ⟨⟨hinv', hnk', hw', by rw [c2]; simp, fun n' r' hn' _ => ?_⟩, fun a ha => (by cases ha)⟩
    rw [c3] at hn'
    injection hn' with e1 e2
    subst e1 e2
    have hpay : getPayload x'.dec = (advance x.dec).buf.take x'.dec.stepSize := by unfold getPayload; rw [c5]
    refine ⟨p, c4, ⟨rfl, rfl, getPayload x'.dec, by rw [hpay]; exact describes_take c6, fun hw => ?_, fun hw => ?_⟩⟩
    · rw [h2] at hw
      rw [h3]
      unfold dWrite reset
      simp only [hw, if_true]
      rfl
    · rw [h2] at hw
      rw [h3]
      unfold dWrite reset feed
      simp only [hw, if_true, List.nil_append]
      show _ = _ ++ []
      rw [List.append_nil]
  · -- within an object
    obtain ⟨n, rest, hnn⟩ := hd.inv.nonempty
    have c3' : x'.dec.nodes = x.dec.nodes := c3
    obtain ⟨p, p1, acc⟩ := hd.info n rest hnn c2
    rcases c4 with ⟨c4, c5⟩ | ⟨c4, c5⟩ | ⟨c4, c5⟩
    · subst c4
      have hsum : x'.sum = x.sum := write_same hs (fun ev h => by injection h with h; subst h; simp)
      refine ⟨DI.of_state hinv' hnk' hw' (by rw [c5]; simp) (by rw [c5]; simp) (by rw [c5]; simp), fun a ha => ?_⟩
      have hha : hearAll h (observe x'.dec .doneFile) = h := rfl
      rw [hha] at ha
      unfold ask at ha
      rw [List.mem_singleton] at ha
      subst ha
      have acc' : DAcc x' h p := acc.same c3' h2 hsum
      have hmode : nodeMode x'.dec n = some p.entry.mode := nodeMode_parsed p1
      obtain ⟨X, x1, x2, x3⟩ := acc'.sums
      refine ⟨p.entry.mode, by show dMode x'.dec = _; unfold dMode; rw [c3', hnn]; exact hmode, ?_⟩
      have hpl : x.want.payload = true → dPayload H x' = if isType p.entry.mode ifReg || isType p.entry.mode ifBlk then .ok (H h.content) else .err .ENOTTY := by
        intro hw
        unfold dPayload
        rw [h2, hw, c5, c3', hnn]
        simp only [Bool.not_true, Bool.false_eq_true, if_false, ne_eq, not_true_eq_false, hmode]
        rw [x2 (by rw [h2]; exact hw)]
        cases isType p.entry.mode ifReg <;> cases isType p.entry.mode ifBlk <;> rfl
      have hhl : x.want.hardlink = true → dHardlink H x' = if isType p.entry.mode ifDir then .err .EISDIR else .ok (H (X ++ h.content)) := by
        intro hw
        unfold dHardlink
        rw [h2, hw, c5, c3', hnn]
        simp only [Bool.not_true, Bool.false_eq_true, if_false, ne_eq, not_true_eq_false, hmode]
        rw [x3 (by rw [h2]; exact hw)]
      cases hdir : isType p.entry.mode ifDir with
      | true =>
        left
        refine ⟨rfl, fun hw => ?_, fun hw => ?_⟩
        · rw [hpl hw]
          have e1 : isType p.entry.mode ifReg = false := by
            cases hr : isType p.entry.mode ifReg with
            | false => rfl
            | true => rw [isType_ne hr] at hdir; cases hdir
          have e2 : isType p.entry.mode ifBlk = false := by
            unfold isType at hdir ⊢
            rw [eq_of_beq hdir]
            decide
          rw [e1, e2]; rfl
        · rw [hhl hw, hdir]; rfl
      | false =>
        right
        refine ⟨rfl, acc'.path, p.entry, p.attrs, p.term.shown, X, rfl, acc'.entry, x1, hpl, fun hw => ?_⟩
        rw [hhl hw, hdir]; rfl
    · subst c4
      refine ⟨⟨hinv', hnk', hw', by rw [c5]; simp, fun n' r' hn' _ => ?_⟩, fun a ha => (by cases ha)⟩
      rw [c3', hnn] at hn'
      injection hn' with e1 e2
      subst e1 e2
      obtain ⟨X, x1, x2, x3⟩ := acc.sums
      refine ⟨p, p1, ⟨?_, acc.entry, X, x1, fun hw => ?_, fun hw => ?_⟩⟩
      · rw [currentPath_congr c3']; exact acc.path
      · rw [h2] at hw
        rw [h3]
        unfold dWrite feed
        simp only [hw, if_true]
        rw [x2 hw]
        rfl
      · rw [h2] at hw
        rw [h3]
        unfold dWrite feed
        simp only [hw, if_true]
        rw [x3 hw, List.append_assoc]
        rfl
    · subst c4
      have hsum : x'.sum = x.sum := write_same hs (fun ev h => by injection h with h; subst h; simp)
      refine ⟨⟨hinv', hnk', hw', by rw [c5]; simp, fun n' r' hn' _ => ?_⟩, fun a ha => (by cases ha)⟩
      rw [c3', hnn] at hn'
      injection hn' with e1 e2
      subst e1 e2
      exact ⟨p, p1, acc.same c3' h2 hsum⟩
  · -- the end of a directory
    subst c1
    refine ⟨DI.of_state hinv' hnk' hw' (by rw [c2]; simp) (by rw [c2]; simp) (by rw [c2]; simp), fun a ha => ?_⟩
    unfold ask at ha
    rw [List.mem_singleton] at ha
    subst ha
    obtain ⟨n, rest, hnn⟩ := hd.inv.nonempty
    have c3' : x'.dec.nodes = n :: rest := (show x'.dec.nodes = x.dec.nodes from c3).trans hnn
    have hh := hd.inv.head n rest hnn
    unfold HeadOK at hh
    rw [show x.dec.state = .goodbye from c4] at hh
    obtain ⟨p, p1, p2⟩ := hh
    have hmode : nodeMode x'.dec n = some p.entry.mode := nodeMode_parsed p1
    refine ⟨p.entry.mode, by show dMode x'.dec = _; unfold dMode; rw [c3']; exact hmode, .inl ⟨p2, fun hw => ?_, fun hw => ?_⟩⟩
    · show dPayload H x' = _
      unfold dPayload
      rw [h2, hw, c2, c3']
      simp only [Bool.not_true, Bool.false_eq_true, if_false, ne_eq, not_true_eq_false, hmode]
      have e1 : isType p.entry.mode ifReg = false := by
        cases hr : isType p.entry.mode ifReg with
        | false => rfl
        | true => rw [isType_ne hr] at p2; cases p2
      have e2 : isType p.entry.mode ifBlk = false := by
        unfold isType at p2 ⊢
        rw [eq_of_beq p2]
        decide
      rw [e1, e2]; rfl
    · show dHardlink H x' = _
      unfold dHardlink
      rw [h2, hw, c2, c3']
      simp only [Bool.not_true, Bool.false_eq_true, if_false, ne_eq, not_true_eq_false, hmode]
      rw [p2]; rfl
  · -- between objects
    refine ⟨DI.of_state hinv' hnk' hw' c4 c5 c6, ?_⟩
    cases ev <;> first | exact absurd rfl c2 | (intro a ha; cases ha)
  · exact absurd c hd.noSkip

theorem DI.dec {x : DDec} {h : Heard} {d : Dec} (hd : DI x h) (hi : DInv d) (h1 : d.nodes = x.dec.nodes) (h2 : d.state = x.dec.state) (h3 : d.cfg = x.dec.cfg) :
    DI { x with dec := d } h := by
  refine ⟨hi, by show d.cfg.naked = false; rw [h3]; exact hd.naked, by show d.cfg.wantPayload = true; rw [h3]; exact hd.want,
    by show d.state ≠ _; rw [h2]; exact hd.noSkip, fun n rest hn hst => ?_⟩
  obtain ⟨p, p1, acc⟩ := hd.info n rest (by rw [← h1]; exact hn) (by rw [← h2]; exact hst)
  exact ⟨p, p1, acc.same h1 rfl rfl⟩

theorem DRun.right {x : DDec} {h : Heard} {ps : List Bytes} {t : List Obs} {as : List Asked} {o : Outcome} {a : Res Bytes} (hr : DRun H x h ps t as o a)
    (hi : DI x h) : ∀ r ∈ as, r.Right H x.want := by
  induction hr with
  | finished => intro r hr; cases hr
  | error => intro r hr; cases hr
  | crash => intro r hr; cases hr
  | putFails => intro r hr; cases hr
  | starved => intro r hr; cases hr
  | @go x x' h ps ev t as o a hs hm _ ih =>
    obtain ⟨s1, s2⟩ := hi.step (H := H) hs (by intro h; subst h; simp at hm)
    intro r hr
    rcases List.mem_append.1 hr with hr | hr
    · exact s2 r hr
    · have := ih s1 r hr
      rw [(dStep_step hs).2.1] at this
      exact this
  | @put x x' h d p ps t as o a hs hp _ ih =>
    have s1 := (hi.step (H := H) hs (by simp)).1
    have hx : DI x' h := s1
    have hdd : d = { x'.dec with buf := x'.dec.buf ++ p } := by
      unfold putData at hp
      by_cases c : p = []
      · rw [if_pos c] at hp; injection hp with hp; rw [← hp, c, List.append_nil]
      · rw [if_neg c] at hp
        split at hp
        · cases hp
        · injection hp with hp; exact hp.symm
    have := ih (hx.dec (hx.inv.putData hp) (by rw [hdd]) (by rw [hdd]) (by rw [hdd]))
    simp only [(dStep_step hs).2.1] at this
    exact this
  | @eof x x' h t as o a hs he _ ih =>
    have hx : DI x' h := (hi.step (H := H) hs (by simp)).1
    have := ih (hx.dec hx.inv.putEof rfl rfl rfl)
    simp only [(dStep_step hs).2.1] at this
    exact this
  | @skip x x' h ps t as o a hs _ ih =>
    have hx : DI x' h := (hi.step (H := H) hs (by simp)).1
    have := ih hx
    rw [(dStep_step hs).2.1] at this
    exact this

theorem DI.start {cfg : DCfg} (hn : cfg.naked = false) (hw : cfg.wantPayload = true) (e m : Word) (w : Want) : DI (dStart cfg e m w) {} :=
  DI.of_state (DInv.start cfg e m) hn hw (by simp [dStart, Archive.start]) (by simp [dStart, Archive.start]) (by simp [dStart, Archive.start])

end Casync.Archive
