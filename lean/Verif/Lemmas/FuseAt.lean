import Verif.Lemmas.FusePay
import Verif.Lemmas.SeekEnd
import Verif.Props.Seek
/-!
The state of a decoder that has just reported an object.
-/
namespace Casync.Fuse
open Casync Flags Archive

theorem parseEntry_known {d d' : FF} {root : Bool} {b : Bytes} {r : Parsed × Nat} (hw : parseEntry d root b = (d', .ok r)) : d'.ff ≠ none64 := by
  have h2 : (parseLoop d {} 0 b).1 = d' ∧ (parseLoop d {} 0 b).2 ≠ .request ∧ ∀ st tm k, (parseLoop d {} 0 b).2 = .ok (st, tm, k) → st.entry ≠ none := by
    unfold parseEntry at hw
    generalize hp : parseLoop d {} 0 b = p at hw ⊢
    obtain ⟨e1, r1⟩ := p
    cases r1 with
    | request => simp only at hw; injection hw with _ h2; cases h2
    | err e => simp only at hw; injection hw with _ h2; cases h2
    | ok a =>
      obtain ⟨st, tm, off⟩ := a
      simp only at hw
      cases hst : st.entry with
      | none => rw [hst] at hw; injection hw with _ h2; cases h2
      | some e =>
        rw [hst] at hw
        simp only at hw
        refine ⟨?_, by simp, ?_⟩
        · split at hw
          · injection hw
          · injection hw with _ h2
        · intro st' tm' k h
          injection h with h
          injection h with h _
          rw [← h, hst]
          simp
  obtain ⟨h1, h2, h3⟩ := h2
  have h4 : ∀ e, (parseLoop d {} 0 b).2 ≠ .err e := by
    intro e he
    unfold parseEntry at hw
    generalize parseLoop d {} 0 b = p at *
    obtain ⟨e1, r1⟩ := p
    simp only at he
    subst he
    simp only at hw
    injection hw with _ h2
    cases h2
  rw [parseLoop_eq] at h1 h2 h3 h4
  cases hh : headRec d {} b with
  | request => rw [hh] at h2; exact absurd rfl h2
  | err e => rw [hh] at h4; exact absurd rfl (h4 e)
  | done a k => rw [hh] at h3; exact absurd rfl (h3 _ _ _ rfl)
  | more d2 st l =>
    rw [hh] at h1
    simp only at h1
    obtain ⟨hl, hl1, hl2, r, hr, hp, hends, ha⟩ := headRec_more hh
    have hre := pre_first rfl hp
    subst hre
    obtain ⟨ha1, ha2⟩ := accept_entry ha
    rw [parseLoop_ff (b.drop l).length d2 st (0 + l) (b.drop l) (Nat.le_refl _) (by rw [ha2]; rfl)] at h1
    rw [← h1]
    unfold acceptEntry at ha1
    cases hv : validateFeatureFlags d (readEntry ((b.take l).drop 16)).ff with
    | none => rw [hv] at ha1; cases ha1
    | some d3 =>
      have hk := (validateFeatureFlags_again hv).2.1
      have hn : (readEntry ((b.take l).drop 16)).ff ≠ none64 := by
        intro e
        unfold validateFeatureFlags at hv
        rw [if_pos (by rw [e]; decide)] at hv
        cases hv
      rw [hv] at ha1
      simp only at ha1
      have : d3 = d2 := by
        repeat' split at ha1
        all_goals first | (cases ha1; done) | (injection ha1)
      rw [← this, hk]
      exact hn

theorem pair_of {α β : Type} {p : α × β} {b : β} (h : p.2 = b) : p = (p.1, b) := by cases p; cases h; rfl

/-- What is reported is the object that has been read. -/
structure Reads (c : Dec) : Prop where
  state : c.state = .entry
  parsed : ∃ n ns p, c.nodes = n :: ns ∧ n.parsed = some p
  flags : c.ff.ff ≠ none64

theorem stepParse_nextFile {c c' : Dec} (h : stepParse c = (c', .ok .nextFile)) : Reads c' := by
  unfold stepParse at h
  cases hn : c.nodes with
  | nil => rw [hn] at h; injection h with _ h; cases h
  | cons n ns =>
    rw [hn] at h
    simp only at h
    cases hp : parseEntry c.ff (ns == []) c.buf with
    | mk f r =>
      rw [hp] at h
      cases r with
      | request => injection h with _ h; cases h
      | err e => injection h with _ h; cases h
      | ok x =>
        obtain ⟨p, o⟩ := x
        injection h with h _
        subst h
        exact ⟨rfl, ⟨_, _, p, rfl, rfl⟩, parseEntry_known hp⟩

theorem stepFinalize_nextFile {c c' : Dec} (h : stepFinalize c = (c', .ok .nextFile)) : False := by
  unfold stepFinalize at h
  repeat' split at h
  all_goals (injection h with _ h; first | (cases h; done) | (injection h with h; cases h))

theorem stepPayload_nextFile {c c' : Dec} (h : stepPayload c = (c', .ok .nextFile)) : False := by
  unfold stepPayload at h
  repeat' split at h
  all_goals first | exact stepFinalize_nextFile h | (injection h with _ h; first | (cases h; done) | (injection h with h; cases h))

theorem stepDirectory_nextFile {c c' : Dec} (h : stepDirectory c = (c', .ok .nextFile)) : False := by
  unfold stepDirectory at h
  simp only at h
  repeat' split at h
  all_goals (injection h with _ h; first | (cases h; done) | (injection h with h; cases h))

theorem dirBody_nextFile {c c' : Dec} (h : dirBody c = (c', .ok .nextFile)) : False := by
  unfold dirBody at h
  simp only at h
  repeat' split at h
  all_goals (injection h with _ h; first | (cases h; done) | (injection h with h; cases h))

theorem stepNode_nextFile {c c' : Dec} (h : stepNode c = (c', .ok .nextFile)) : Reads c' := by
  unfold stepNode at h
  repeat' split at h
  all_goals first
    | exact stepParse_nextFile h
    | exact absurd (stepPayload_nextFile h) id
    | exact absurd (stepDirectory_nextFile h) id
    | exact absurd (stepFinalize_nextFile h) id
    | (injection h with _ h; first | (cases h; done) | (injection h with h; cases h))

theorem plainEv_nextFile {r : Res Ev} (h : plainEv r = .ok (.plain .nextFile)) : r = .ok .nextFile := by
  cases r with
  | ok ev => injection h with h; injection h with h; rw [h]
  | err e => cases h
  | ub => cases h

theorem afterSeek_nextFile {p : SDec × Res Bool} {d : SDec} (h : afterSeek p = (d, .ok (.plain .nextFile))) : False := by
  unfold afterSeek at h
  repeat' split at h
  all_goals (injection h with _ h; first | (cases h; done) | (injection h with h; injection h with h; cases h))

theorem seekDirRec_nextFile {d d' : SDec} {tg : Target} (h : seekDirRec d tg = (d', .ok (.plain .nextFile))) : False := by
  unfold seekDirRec seekName at h
  simp only at h
  repeat' split at h
  all_goals first
    | exact afterSeek_nextFile h
    | (injection h with _ h; first | (cases h; done) | (injection h with h; first | (cases h; done) | (injection h with h; cases h)))

theorem seekTail_nextFile {d d' : SDec} (h : seekTail d = (d', .ok (.plain .nextFile))) : False := by
  unfold seekTail at h
  simp only at h
  repeat' split at h
  all_goals first
    | exact afterSeek_nextFile h
    | (injection h with _ h; first | (cases h; done) | (injection h with h; first | (cases h; done) | (injection h with h; cases h)))

theorem seekEntry_nextFile {d d' : SDec} (h : seekEntry d = (d', .ok (.plain .nextFile))) : False := by
  unfold seekEntry at h
  repeat' split at h
  all_goals first
    | exact afterSeek_nextFile h
    | (injection h with _ h; first | (cases h; done) | (injection h with h; first | (cases h; done) | (injection h with h; cases h)))

theorem stepSeek_nextFile {d d' : SDec} {m : SMode} (h : stepSeek d m = (d', .ok (.plain .nextFile))) : False := by
  unfold stepSeek at h
  simp only at h
  split at h
  case h_4 =>
    split at h
    · injection h with _ h
      have := plainEv_nextFile h
      exact stepPayload_nextFile (pair_of this)
    · injection h with _ h; cases h
  all_goals (repeat' split at h)
  all_goals first
    | exact seekDirRec_nextFile h
    | exact seekTail_nextFile h
    | exact seekEntry_nextFile h
    | (injection h with _ h; first | (cases h; done) | (injection h with h; first | (cases h; done) | (injection h with h; cases h)))

/-- The state after an object has been reported. -/
theorem sStep_nextFile {d d' : SDec} (h : sStep d = (d', .ok (.plain .nextFile))) : d'.mode = none ∧ Reads d'.core := by
  unfold sStep at h
  cases hm : d.mode with
  | none =>
    rw [hm] at h
    simp only at h
    injection h with h1 h2
    rw [← h1]
    refine ⟨(noted_mode' _ _).trans hm, ?_⟩
    rw [noted_core]
    have h3 := plainEv_nextFile h2
    unfold plainStep at h3 ⊢
    by_cases hb : baseDir d = true
    · rw [if_pos hb] at h3 ⊢
      split at h3
      · cases h3
      · exact absurd (dirBody_nextFile (pair_of h3)) id
    · rw [if_neg hb] at h3 ⊢
      unfold step at h3 ⊢
      split at h3
      · cases h3
      rename_i h4
      rw [if_neg h4]
      split at h3
      · cases h3
      rename_i h5
      rw [if_neg h5]
      exact stepNode_nextFile (pair_of h3)
  | some m =>
    rw [hm] at h
    simp only at h
    split at h
    · injection h with _ h; cases h
    · exact absurd (stepSeek_nextFile h) id

end Casync.Fuse
