import Verif.Spec.Digest
import Verif.Lemmas.DecoderFeed
import Verif.Lemmas.EncoderRun
/-!
What is written to the digest of the archive.
-/
namespace Casync.Archive
open Casync Flags

variable {H : Bytes → Bytes}

/-! ### Decoder -/

theorem dStep_step {x x' : DDec} {r : Res Ev} (h : dStep x = (x', r)) :
    step x.dec = (x'.dec, r) ∧ x'.want = x.want ∧ x'.sum = dWrite x.want x'.dec x.sum r := by
  unfold dStep at h
  injection h with h1 h2
  subst h1 h2
  exact ⟨rfl, rfl, rfl⟩

theorem DRun.run {x : DDec} {h : Heard} {ps : List Bytes} {t : List Obs} {as : List Asked} {o : Outcome} {a : Res Bytes} (hr : DRun H x h ps t as o a) :
    Run x.dec ps t o := by
  induction hr with
  | finished hs => exact .finished (dStep_step hs).1
  | error hs => exact .error (dStep_step hs).1
  | crash hs => exact .crash (dStep_step hs).1
  | go hs hm _ ih => exact .go (dStep_step hs).1 hm ih
  | put hs hp _ ih => exact .put (dStep_step hs).1 hp ih
  | putFails hs hp => exact .putFails (dStep_step hs).1 hp
  | eof hs he _ ih => exact .eof (dStep_step hs).1 he ih
  | starved hs he => exact .starved (dStep_step hs).1 he
  | skip hs _ ih => exact .skip (dStep_step hs).1 ih

/-- Steps that do not take anything from the buffer. -/
theorem stepPayload_zero {s s' : Dec} {ev : Ev} (h0 : s.stepSize = 0) (hs : s.state = .inPayload) (h : stepPayload s = (s', .ok ev)) :
    (ev = .payload ∨ s'.stepSize = 0) ∧ (ev = .finished → s'.state = .eof) ∧ ev ≠ .step ∧ ev ≠ .nextFile := by
  have hr := stepPayload_res s hs h0
  rw [h] at hr
  generalize hp : (s', (Res.ok ev : Res Ev)) = p at hr
  cases hr with
  | err => injection hp with _ h2; cases h2
  | crash => injection hp with _ h2; cases h2
  | doneFile => injection hp with h1 h2; injection h2 with h2; subst h1 h2; exact ⟨.inr rfl, by simp, by simp, by simp⟩
  | finished => injection hp with h1 h2; injection h2 with h2; subst h1 h2; exact ⟨.inr rfl, fun _ => rfl, by simp, by simp⟩
  | payload => injection hp with h1 h2; injection h2 with h2; subst h2; exact ⟨.inl rfl, by simp, by simp, by simp⟩
  | request => injection hp with h1 h2; injection h2 with h2; subst h1 h2; exact ⟨.inr h0, by simp, by simp, by simp⟩
  | skip => injection hp with h1 h2; injection h2 with h2; subst h1 h2; exact ⟨.inr rfl, by simp, by simp, by simp⟩

theorem stepDirectory_zero {s s' : Dec} {ev : Ev} (h : stepDirectory s = (s', .ok ev)) :
    ev = .request ∨ (ev = .step ∧ (s'.state = .entered ∨ s'.state = .goodbye)) := by
  unfold stepDirectory at h
  cases hn : s.nodes with
  | nil => rw [hn] at h; simp at h
  | cons n rest =>
    rw [hn] at h
    simp only at h
    cases hm : nodeMode s n with
    | none => rw [hm] at h; simp at h
    | some m =>
      rw [hm] at h
      simp only at h
      split at h
      · simp at h
      · split at h
        · injection h with _ h; injection h with h; exact .inl h.symm
        · simp at h
        · split at h
          · simp at h
          · injection h with h1 h; injection h with h; subst h1; exact .inr ⟨h.symm, .inl rfl⟩
        · split at h
          · simp at h
          · injection h with h1 h; injection h with h; subst h1; exact .inr ⟨h.symm, .inr rfl⟩

theorem stepParse_zero {s s' : Dec} {ev : Ev} (h : stepParse s = (s', .ok ev)) : ev = .request ∨ (ev = .nextFile ∧ s'.state = .entry) := by
  unfold stepParse at h
  cases hn : s.nodes with
  | nil => rw [hn] at h; simp at h
  | cons n rest =>
    rw [hn] at h
    simp only at h
    split at h
    · injection h with _ h; injection h with h; exact .inl h.symm
    · simp at h
    · injection h with h1 h; injection h with h; subst h1; exact .inr ⟨h.symm, rfl⟩

theorem stepFinalize_zero {s s' : Dec} {ev : Ev} (h : stepFinalize s = (s', .ok ev)) :
    (ev = .finished ∧ s'.state = .eof ∧ s'.stepSize = 0) ∨ (ev = .step ∧ s'.state = .inDirectory ∧ s'.stepSize = 0) := by
  unfold stepFinalize at h
  cases hn : s.nodes with
  | nil => rw [hn] at h; simp at h
  | cons n rest =>
    rw [hn] at h
    simp only at h
    split at h <;> (injection h with h1 h; injection h with h; subst h1)
    · exact .inl ⟨h.symm, rfl, rfl⟩
    · exact .inr ⟨h.symm, rfl, rfl⟩

theorem stepNode_zero {s s' : Dec} {ev : Ev} (h0 : s.stepSize = 0) (h : stepNode s = (s', .ok ev)) :
    (ev = .doneFile → s'.stepSize = 0) ∧ (ev = .step → s'.state ≠ .entered → s'.state ≠ .goodbye → s'.stepSize = 0) ∧
    (ev = .finished → s'.state = .eof) := by
  have pay' : ∀ {q : Dec}, q.stepSize = 0 → q.state = .inPayload → stepPayload q = (s', .ok ev) →
      (ev = .doneFile → s'.stepSize = 0) ∧ (ev = .step → s'.state ≠ .entered → s'.state ≠ .goodbye → s'.stepSize = 0) ∧
      (ev = .finished → s'.state = .eof) := fun a b c => by
    obtain ⟨p1, p2, p3, p4⟩ := stepPayload_zero a b c
    refine ⟨fun h => ?_, fun h => absurd h p3, p2⟩
    rcases p1 with p1 | p1
    · rw [p1] at h; cases h
    · exact p1
  have dir : ∀ {q : Dec}, stepDirectory q = (s', .ok ev) →
      (ev = .doneFile → s'.stepSize = 0) ∧ (ev = .step → s'.state ≠ .entered → s'.state ≠ .goodbye → s'.stepSize = 0) ∧
      (ev = .finished → s'.state = .eof) := fun c => by
    rcases stepDirectory_zero c with p | ⟨p1, p2⟩
    · subst p; exact ⟨fun h => (by cases h), fun h => (by cases h), fun h => (by cases h)⟩
    · subst p1; exact ⟨fun h => (by cases h), fun _ a b => absurd p2 (by intro h; rcases h with h | h; exact a h; exact b h), fun h => (by cases h)⟩
  have prs : ∀ {q : Dec}, stepParse q = (s', .ok ev) →
      (ev = .doneFile → s'.stepSize = 0) ∧ (ev = .step → s'.state ≠ .entered → s'.state ≠ .goodbye → s'.stepSize = 0) ∧
      (ev = .finished → s'.state = .eof) := fun c => by
    rcases stepParse_zero c with p | ⟨p1, p2⟩
    · subst p; exact ⟨fun h => (by cases h), fun h => (by cases h), fun h => (by cases h)⟩
    · subst p1; exact ⟨fun h => (by cases h), fun h => (by cases h), fun h => (by cases h)⟩
  unfold stepNode at h
  cases hs : s.state with
  | init =>
    rw [hs] at h
    simp only at h
    split at h
    · exact pay' rfl rfl h
    · exact prs h
  | entered => rw [hs] at h; exact prs h
  | entry =>
    rw [hs] at h
    simp only at h
    split at h
    · simp at h
    · split at h
      · simp at h
      · split at h
        · exact pay' rfl rfl h
        · split at h
          · exact dir h
          · injection h with h1 h; injection h with h; subst h1 h
            exact ⟨fun _ => rfl, fun h => (by cases h), fun h => (by cases h)⟩
  | inPayload => rw [hs] at h; exact pay' h0 hs h
  | skipping =>
    rw [hs] at h
    injection h with h1 h; injection h with h; subst h1 h
    exact ⟨fun _ => rfl, fun h => (by cases h), fun h => (by cases h)⟩
  | inDirectory => rw [hs] at h; exact dir h
  | goodbye =>
    rw [hs] at h
    injection h with h1 h; injection h with h; subst h1 h
    exact ⟨fun _ => rfl, fun h => (by cases h), fun h => (by cases h)⟩
  | finalize =>
    rw [hs] at h
    rcases stepFinalize_zero h with ⟨a, b, c⟩ | ⟨a, b, c⟩
    · subst a; exact ⟨fun h => (by cases h), fun h => (by cases h), fun _ => b⟩
    · subst a; exact ⟨fun h => (by cases h), fun _ _ _ => c, fun h => (by cases h)⟩
  | eof =>
    rw [hs] at h
    injection h with h1 h; injection h with h; subst h1 h
    exact ⟨fun h => (by cases h), fun h => (by cases h), fun _ => hs⟩

theorem getPayload_zero {d : Dec} (h : d.stepSize = 0) : getPayload d = [] := by
  unfold getPayload
  rw [h, List.take_zero]

/-- With the digest of the archive wanted, a step writes what it takes from the buffer. -/
theorem write_archive {x x' : DDec} {ev : Ev} (hs : dStep x = (x', .ok ev)) (hsz : x.dec.stepSize ≤ x.dec.buf.length) (hw : x.want.archive = true)
    (hm : ev ∈ [Ev.step, .nextFile, .doneFile, .payload]) : x'.sum.archive = x.sum.archive ++ getPayload x'.dec := by
  obtain ⟨h1, _, h3⟩ := dStep_step hs
  have h2 := (step_eq hsz).2 (by rw [h1]; intro h; injection h with h; subst h; simp at hm)
  rw [h1] at h2
  have hz := stepNode_zero rfl h2.symm
  rw [h3]
  cases ev with
  | finished => simp at hm
  | request => simp at hm
  | skip => simp at hm
  | nextFile => rfl
  | payload => unfold dWrite feed; rw [if_pos hw]
  | doneFile => unfold dWrite; rw [getPayload_zero (hz.1 rfl), List.append_nil]
  | step =>
    unfold dWrite
    simp only
    split
    · unfold feed; rw [if_pos hw]
    · split
      · rfl
      · rename_i a b; rw [getPayload_zero (hz.2.1 rfl a b), List.append_nil]

theorem write_same {x x' : DDec} {r : Res Ev} (hs : dStep x = (x', r)) (hm : ∀ ev, r = .ok ev → ev ∉ [Ev.step, .nextFile, .payload]) : x'.sum = x.sum := by
  obtain ⟨_, _, h3⟩ := dStep_step hs
  rw [h3]
  cases r with
  | err e => rfl
  | ub => rfl
  | ok ev =>
    have := hm ev rfl
    cases ev <;> first | rfl | simp at this

theorem take_full {d' s : Dec} (hb : d'.buf = s.buf) (y : Bytes) : (full s y).buf = getPayload d' ++ (full (advance d') y).buf := by
  show s.buf ++ y = d'.buf.take d'.stepSize ++ (d'.buf.drop d'.stepSize ++ y)
  rw [← List.append_assoc, List.take_append_drop, hb]

theorem DRun.full {x : DDec} {h : Heard} {ps : List Bytes} {t : List Obs} {as : List Asked} {o : Outcome} {a : Res Bytes} (hd : DRun H x h ps t as o a)
    (hr : Ready x.dec ps) (hw : x.want.archive = true) :
    ∃ r c, BRun (full (advance x.dec) ps.flatten) (atoms t) (o, r) ∧
      (o = .finished → (Archive.full (advance x.dec) ps.flatten).buf = c ++ r ∧ a = .ok (H (x.sum.archive ++ c))) := by
  induction hd with
  | @finished x x' h ps hst =>
    have hst1 := (dStep_step hst).1
    have hsim := stepNode_sim (advance x.dec) ps.flatten hr.done rfl hr.want hr.init.advance
    have h2 := (step_eq hr.size).1
    rw [hst1] at h2
    have hsame := write_same hst (fun ev h => by injection h with h; subst h; simp)
    have hwant := (dStep_step hst).2.1
    have hst2 : x'.dec.state = .eof := by
      by_cases c : x.dec.state = .eof
      · unfold step at hst1; rw [if_pos c] at hst1; injection hst1 with hst1; rw [← hst1]; exact c
      · unfold step at hst1; rw [if_neg c, if_neg (by have := hr.size; omega)] at hst1
        exact (stepNode_zero rfl hst1).2.2 rfl
    have ha : dArchive H x' = .ok (H (x.sum.archive ++ [])) := by
      unfold dArchive
      rw [hwant, hw, hst2, hsame, List.append_nil]
      rfl
    generalize stepNode (advance x.dec) = p at hsim h2
    cases hsim with
    | same a1 a2 a3 a4 a5 a6 a7 a8 a9 =>
      simp only at h2
      subst h2
      refine ⟨_, [], .finished a9, fun _ => ⟨?_, ha⟩⟩
      rw [List.nil_append]
      show (advance x.dec).buf ++ _ = _ ++ _
      rw [a1]
    | request => cases h2
    | payload => cases h2
  | @error x x' h ps e hst =>
    obtain ⟨r, hb⟩ := Run.full (.error (dStep_step hst).1) hr
    exact ⟨r, [], hb, fun h => (by cases h)⟩
  | @crash x x' h ps hst =>
    obtain ⟨r, hb⟩ := Run.full (.crash (dStep_step hst).1) hr
    exact ⟨r, [], hb, fun h => (by cases h)⟩
  | @go x x' hh ps ev t as o a hst hev _ ih =>
    have hst1 := (dStep_step hst).1
    have hwr := write_archive hst hr.size hw hev
    have hwant := (dStep_step hst).2.1
    have hsim := stepNode_sim (advance x.dec) ps.flatten hr.done rfl hr.want hr.init.advance
    have h2 := (step_eq hr.size).2 (by rw [hst1]; intro h; injection h with h; subst h; simp at hev)
    rw [hst1] at h2
    rw [← h2] at hsim
    rw [atoms_append]
    generalize hres : (Res.ok ev : Res Ev) = r at hsim
    generalize hd' : x'.dec = d1 at hsim hwr ih
    cases hsim with
    | same a1 a2 a3 a4 a5 a6 a7 a8 a9 =>
      subst hres hd'
      obtain ⟨rr, c, hi, hc⟩ := ih ⟨a4, by rw [a3]; exact hr.want, a5, by rw [a2]; exact hr.done⟩ (by rw [hwant]; exact hw)
      rw [← advance_full _ _ a4] at hi
      have hev' : ev ≠ .payload := fun h => a7 (by rw [h])
      rw [← observe_full x'.dec ps.flatten ev hev']
      refine ⟨rr, getPayload x'.dec ++ c, .go a9 ?_ hi, fun ho => ?_⟩
      · simpa [hev'] using hev
      · obtain ⟨c1, c2⟩ := hc ho
        rw [take_full a1, c1, c2, hwr, List.append_assoc, List.append_assoc]
        exact ⟨rfl, rfl⟩
    | request => injection hres with hres; subst hres; simp at hev
    | @payload q k a1 a2 a3 a4 a5 a6 =>
      injection hres with hres
      subst hres
      obtain ⟨rr, c, hi, hc⟩ := ih ⟨a5.len, by show q.cfg.wantPayload = true; rw [a3]; exact hr.want, (fun h => by
        rw [show (setStep q k).state = .inPayload from a5.state] at h; cases h), by show q.eof = false ∨ _; rw [a2]; exact hr.done⟩ (by rw [hwant]; exact hw)
      have hi0 := hi
      rw [← advance_full _ _ a5.len] at hi
      have hp := pay_many k (Archive.full q ps.flatten) (atoms t) (o, rr) (a5.full _) hi
      have hfe : stepNode (Archive.full (advance x.dec) ps.flatten) = stepNode (Archive.full q ps.flatten) := by
        rw [a6]
        conv => rhs; unfold stepNode
        rw [show (Archive.full q ps.flatten).state = .inPayload from a5.state]
      have : atoms (observe (setStep q k) .payload) = ((Archive.full q ps.flatten).buf.take k).map .byte := by
        show List.flatMap Obs.atoms [.payload (q.buf.take k)] = _
        rw [show (Archive.full q ps.flatten).buf = q.buf ++ ps.flatten from rfl, List.take_append_of_le_length a5.len]
        simp [Obs.atoms]
      rw [this]
      refine ⟨rr, getPayload (setStep q k) ++ c, hp.congr hfe, fun ho => ?_⟩
      obtain ⟨c1, c2⟩ := hc ho
      rw [take_full (d' := setStep q k) a1, c1, c2, hwr, List.append_assoc, List.append_assoc]
      exact ⟨rfl, rfl⟩
  | @put x x' hh d p ps t as o a hst hput _ ih =>
    have hst1 := (dStep_step hst).1
    have hsame := write_same hst (fun ev h => by injection h with h; subst h; simp)
    have hwant := (dStep_step hst).2.1
    have hsim := stepNode_sim (advance x.dec) (p :: ps).flatten hr.done rfl hr.want hr.init.advance
    have h2 := (step_eq hr.size).2 (by rw [hst1]; simp)
    rw [hst1] at h2
    rw [← h2] at hsim
    generalize hd' : x'.dec = d1 at hsim hput
    cases hsim with
    | same a1 a2 a3 a4 a5 a6 => exact absurd rfl a6
    | request a1 a2 a3 a4 a5 a6 =>
      subst hd'
      unfold putData at hput
      have hdd : d = { x'.dec with buf := x'.dec.buf ++ p } := by
        by_cases c : p = []
        · rw [if_pos c] at hput; injection hput with hput; rw [← hput, c, List.append_nil]
        · rw [if_neg c] at hput
          split at hput
          · cases hput
          · injection hput with hput; exact hput.symm
      obtain ⟨rr, c, hi, hc⟩ := ih ⟨by show d.stepSize ≤ _; rw [hdd]; show x'.dec.stepSize ≤ _; rw [a4]; exact Nat.zero_le _, by show d.cfg.wantPayload = true; rw [hdd]; show x'.dec.cfg.wantPayload = true; rw [a3]; exact hr.want,
        by show InitOK d; rw [hdd]; exact a5, by
          show d.eof = false ∨ _
          rw [hdd]; show x'.dec.eof = false ∨ _; rw [a2]
          rcases hr.done with h | h
          · exact Or.inl h
          · right; rw [List.flatten_cons] at h; exact (List.append_eq_nil_iff.1 h).2⟩ (by show x'.want.archive = true; rw [hwant]; exact hw)
      have hadv : advance d = d := advance_id (by rw [hdd]; exact a4)
      have : Archive.full d ps.flatten = Archive.full x'.dec (p :: ps).flatten := by
        rw [hdd]; unfold Archive.full; simp only [List.flatten_cons, List.append_assoc]
      simp only [hadv] at hi hc
      rw [this] at hi hc
      refine ⟨rr, c, hi.congr a6.symm, fun ho => ?_⟩
      obtain ⟨c1, c2⟩ := hc ho
      refine ⟨?_, by rw [c2, hsame]⟩
      rw [← c1]
      show _ ++ _ = _ ++ _
      rw [a1]
  | @putFails x x' h p ps e hst hp =>
    obtain ⟨r, hb⟩ := Run.full (.putFails (dStep_step hst).1 hp) hr
    exact ⟨r, [], hb, fun h => (by cases h)⟩
  | @eof x x' hh t as o a hst he _ ih =>
    have hst1 := (dStep_step hst).1
    have hsame := write_same hst (fun ev h => by injection h with h; subst h; simp)
    have hwant := (dStep_step hst).2.1
    have h2 := (step_eq hr.size).2 (by rw [hst1]; simp)
    rw [hst1] at h2
    have hsim := stepNode_sim (advance x.dec) ([] : List Bytes).flatten hr.done rfl hr.want hr.init.advance
    rw [← h2] at hsim
    generalize hd' : x'.dec = d1 at hsim
    cases hsim with
    | same a1 a2 a3 a4 a5 a6 => exact absurd rfl a6
    | request a1 a2 a3 a4 a5 a6 =>
      subst hd'
      obtain ⟨rr, c, hi, hc⟩ := ih ⟨by show x'.dec.stepSize ≤ _; rw [a4]; exact Nat.zero_le _, by show x'.dec.cfg.wantPayload = true; rw [a3]; exact hr.want, a5, Or.inr rfl⟩
        (by show x'.want.archive = true; rw [hwant]; exact hw)
      have hadv : advance (putEof x'.dec) = putEof x'.dec := advance_id (show (putEof x'.dec).stepSize = 0 from a4)
      simp only [hadv] at hi hc
      refine ⟨rr, c, hi.congr a6.symm, fun ho => ?_⟩
      obtain ⟨c1, c2⟩ := hc ho
      refine ⟨?_, by rw [c2, hsame]⟩
      rw [← c1]
      show _ ++ _ = _ ++ _
      rw [← a1]
      rfl
  | @starved x x' h hst he =>
    obtain ⟨r, hb⟩ := Run.full (.starved (dStep_step hst).1 he) hr
    exact ⟨r, [], hb, fun h => (by cases h)⟩
  | @skip x x' hh ps t as o a hst _ _ =>
    exfalso
    have hst1 := (dStep_step hst).1
    have h2 := (step_eq hr.size).2 (by rw [hst1]; simp)
    rw [hst1] at h2
    have hsim := stepNode_sim (advance x.dec) ps.flatten hr.done rfl hr.want hr.init.advance
    rw [← h2] at hsim
    generalize hd' : x'.dec = d1 at hsim
    cases hsim with
    | same a1 a2 a3 a4 a5 a6 a7 a8 => exact absurd rfl a8

end Casync.Archive
