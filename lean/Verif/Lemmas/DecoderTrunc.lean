import Verif.Lemmas.DecoderInv
import Verif.Lemmas.DecoderFeed
/-!
What a decoder does when the archive ends too early.
-/
namespace Casync.Archive
open Casync Flags

/-- More data in the buffer. -/
def more (s : Dec) (y : Bytes) : Dec := { s with buf := s.buf ++ y }

/-- The end of the archive is not known yet. -/
def noEof (s : Dec) : Dec := { s with eof := false }

theorem full_noEof_nil {s : Dec} (h : s.eof = true) : full (noEof s) [] = s := by
  cases s; simp only at h; subst h; simp [full, noEof]

theorem full_noEof {s : Dec} (y : Bytes) (h : s.eof = true) : full (noEof s) y = more s y := by
  cases s; simp only at h; subst h; rfl

theorem more_full (s : Dec) (y : Bytes) : more (full s []) y = full s y := by
  unfold more full; simp

theorem DInv.more {s : Dec} (h : DInv s) (y : Bytes) : DInv (more s y) :=
  ⟨by have := h.size; show s.stepSize ≤ (s.buf ++ y).length; rw [List.length_append]; omega, h.chain, h.head⟩

theorem DInv.noEof {s : Dec} (h : DInv s) : DInv (noEof s) := ⟨h.size, h.chain, h.head⟩

theorem stepParse_eof (s : Dec) (h : (stepParse s).2 = .ok .request) : (stepParse (putEof s)).2 = .ok .request := by
  unfold stepParse at h ⊢
  rw [show (putEof s).nodes = s.nodes from rfl]
  cases hn : s.nodes with
  | nil => rw [hn] at h; cases h
  | cons n rest =>
    rw [hn] at h
    simp only [show (putEof s).ff = s.ff from rfl, show (putEof s).buf = s.buf from rfl] at h ⊢
    generalize parseEntry s.ff (rest == []) s.buf = p at h ⊢
    obtain ⟨f, r⟩ := p
    cases r with
    | request => rfl
    | err e => cases h
    | ok x => cases h

theorem stepDirectory_eof (s : Dec) (h : (stepDirectory s).2 = .ok .request) : (stepDirectory (putEof s)).2 = .ok .request := by
  unfold stepDirectory at h ⊢
  rw [show (putEof s).nodes = s.nodes from rfl]
  cases hn : s.nodes with
  | nil => rw [hn] at h; cases h
  | cons n rest =>
    rw [hn] at h
    simp only [show (putEof s).buf = s.buf from rfl, show nodeMode (putEof s) n = nodeMode s n from rfl] at h ⊢
    cases hm : nodeMode s n with
    | none => rw [hm] at h; cases h
    | some m =>
      rw [hm] at h
      simp only at h ⊢
      by_cases hd : (!isType m ifDir) = true
      · rw [if_pos hd] at h; cases h
      · rw [if_neg hd] at h ⊢
        generalize parseDirRec s.buf = p at h ⊢
        cases p with
        | request => rfl
        | err e => cases h
        | ok x =>
          obtain ⟨x, l⟩ := x
          cases x with
          | filename name =>
            simp only at h
            split at h <;> cases h
          | goodbye tb eo =>
            simp only at h
            split at h <;> cases h

theorem stepPayload_eof {s : Dec} {n : DNode} {rest : List DNode} {z : Nat} (hn : s.nodes = n :: rest) (hz : nodeSize n = some z)
    (h : (stepPayload s).2 = .ok .request) : (stepPayload (putEof s)).2 = .err .EPIPE := by
  unfold stepPayload at h ⊢
  rw [show (putEof s).nodes = s.nodes from rfl]
  rw [hn] at h ⊢
  simp only [show (putEof s).buf = s.buf from rfl, show (putEof s).payloadOff = s.payloadOff from rfl,
    show nodeMode (putEof s) n = nodeMode s n from rfl, hz] at h ⊢
  cases hm : nodeMode s n with
  | none => rw [hm] at h; cases h
  | some m =>
    rw [hm] at h
    simp only at h ⊢
    by_cases c1 : (!(isType m ifReg || isType m ifBlk)) = true
    · rw [if_pos c1] at h; cases h
    · rw [if_neg c1] at h ⊢
      by_cases c2 : pastEnd n s.payloadOff = true
      · rw [if_pos c2] at h; cases h
      · rw [if_neg c2] at h ⊢
        by_cases c3 : some z = some s.payloadOff
        · rw [if_pos c3] at h; cases h
        · rw [if_neg c3] at h ⊢
          by_cases c4 : s.buf ≠ []
          · rw [if_pos c4] at h; cases h
          · rw [if_neg c4]
            rfl

/-- At the end of the data. -/
theorem stepNode_eof {s : Dec} (hi : DInv s) (hnk : s.cfg.naked = false) (h : (stepNode s).2 = .ok .request) :
    (stepNode (putEof s)).2 = .ok .request ∨ (stepNode (putEof s)).2 = .err .EPIPE := by
  obtain ⟨n, rest, hn⟩ := hi.nonempty
  have hh := hi.head n rest hn
  unfold HeadOK at hh
  unfold stepNode at h ⊢
  rw [show (putEof s).state = s.state from rfl]
  have hnk' : isNaked s = false := by unfold isNaked; rw [hnk]; rfl
  cases hs : s.state with
  | init =>
    rw [hs] at h
    simp only [show isNaked (putEof s) = isNaked s from rfl, hnk', Bool.false_eq_true, if_false] at h ⊢
    exact .inl (stepParse_eof s h)
  | entered => rw [hs] at h; exact .inl (stepParse_eof s h)
  | entry =>
    rw [hs] at h hh
    simp only [show (putEof s).nodes = s.nodes from rfl] at h hh ⊢
    rw [hn] at h ⊢
    obtain ⟨p, hp, ht⟩ := hh
    have hm : nodeMode s n = some p.entry.mode := nodeMode_parsed hp
    simp only [show nodeMode (putEof s) n = nodeMode s n from rfl, hm] at h ⊢
    by_cases hr : isType p.entry.mode ifReg = true
    · rw [if_pos hr] at h ⊢
      obtain ⟨z, hz⟩ := ht hr
      exact .inr (stepPayload_eof (s := enterState s .inPayload) hn (nodeSize_parsed hp hz) h)
    · rw [if_neg hr] at h ⊢
      by_cases hd : isType p.entry.mode ifDir = true
      · rw [if_pos hd] at h ⊢
        exact .inl (stepDirectory_eof (enterState s .inDirectory) h)
      · rw [if_neg hd] at h; cases h
  | inPayload =>
    rw [hs] at h hh
    rcases hh with ⟨p, z, hp, _, ht, _⟩ | ⟨_, _, hk⟩
    · exact .inr (stepPayload_eof hn (nodeSize_parsed hp ht) h)
    · rw [hnk] at hk; cases hk
  | skipping => rw [hs] at h; cases h
  | inDirectory => rw [hs] at h; exact .inl (stepDirectory_eof s h)
  | goodbye => rw [hs] at h; cases h
  | finalize =>
    rw [hs] at h
    simp only [stepFinalize] at h
    rw [hn] at h
    simp only at h
    split at h <;> cases h
  | eof => rw [hs] at h; cases h

/-- A session on the first bytes of some data: either it is not told apart from the session on all of them, or it ends because of the missing
data, and then the other one goes on from there. -/
theorem BRun.trunc {s : Dec} {t : List Atom} {p : Outcome × Bytes} (h : BRun s t p) : s.eof = true → s.stepSize = 0 → DInv s → InitOK s →
    s.cfg.naked = false → s.cfg.wantPayload = true → ∀ y,
    BRun (more s y) t (p.1, p.2 ++ y) ∨ ((p.1 = .starved ∨ p.1 = .error .EPIPE) ∧ ∃ u o, BRun (more s y) (t ++ u) o) := by
  have hex : ∀ {s : Dec}, s.eof = true → s.stepSize = 0 → DInv s → InitOK s → s.cfg.wantPayload = true → ∀ y, ∃ u o, BRun (more s y) u o := by
    intro s he h0 hi hI hw y
    obtain ⟨u, o, hr⟩ := Run.exists_of _ _ (noEof s) [y] rfl rfl hi.noEof.size
    obtain ⟨r, hb⟩ := hr.full ⟨hi.noEof.size, hw, hI, .inl rfl⟩
    rw [advance_id (show (noEof s).stepSize = 0 from h0), full_noEof _ he] at hb
    simp only [List.flatten_cons, List.flatten_nil, List.append_nil] at hb
    exact ⟨_, _, hb⟩
  have hsame : ∀ {s : Dec}, s.eof = true → s.stepSize = 0 → DInv s → InitOK s → s.cfg.naked = false → s.cfg.wantPayload = true → ∀ y,
      (∃ s' r, s'.eof = false ∧ s'.cfg = s.cfg ∧ s'.stepSize ≤ s'.buf.length ∧ InitOK s' ∧ r ≠ .ok .request ∧ r ≠ .ok .payload ∧
        stepNode s = (full s' [], r) ∧ stepNode (more s y) = (full s' y, r)) ∨
      ((stepNode s).2 = .ok .request ∨ (stepNode s).2 = .err .EPIPE) ∨
      (∃ q k, q.eof = false ∧ q.cfg = s.cfg ∧ PayAt q (k + 1) ∧ stepNode s = stepNode (full q []) ∧ stepNode (more s y) = stepNode (full q y)) := by
    intro s he h0 hi hI hnk hw y
    have s1 := stepNode_sim (noEof s) [] (.inl rfl) h0 hw hI
    have s2 := stepNode_sim (noEof s) y (.inl rfl) h0 hw hI
    have hreq : (stepNode (noEof s)).2 = .ok .request → (stepNode s).2 = .ok .request ∨ (stepNode s).2 = .err .EPIPE := by
      intro hr
      have := stepNode_eof hi.noEof hnk hr
      rwa [show putEof (noEof s) = s by cases s; simp only at he; subst he; rfl] at this
    generalize hp : stepNode (noEof s) = p at s1 s2 hreq
    cases s1 with
    | @same s' r a1 a2 a3 a4 a5 a6 a7 a8 a9 =>
      rw [full_noEof_nil he] at a9
      generalize hs' : s' = d1 at s2
      generalize hr' : r = r1 at s2
      cases s2 with
      | same b1 b2 b3 b4 b5 b6 b7 b8 b9 =>
        subst hs' hr'
        rw [full_noEof y he] at b9
        exact .inl ⟨s', r, a2, a3, a4, a5, a6, a7, a9, b9⟩
      | request => exact absurd hr' a6
      | payload => exact absurd hr' a7
    | request a1 a2 a3 a4 a5 a6 => exact .inr (.inl (hreq rfl))
    | @payload q k a1 a2 a3 a4 a5 a6 =>
      generalize hq : setStep q k = q1 at s2
      generalize hr : (Res.ok Ev.payload : Res Ev) = r1 at s2
      cases s2 with
      | same b1 b2 b3 b4 b5 b6 b7 b8 b9 => exact absurd hr.symm b7
      | request => cases hr
      | @payload q' k' b1 b2 b3 b4 b5 b6 =>
        have hqq : q' = q := by
          have e1 := b5.size0
          have e2 := a5.size0
          cases q; cases q'
          simp only [setStep] at hq
          simp only at e1 e2
          injection hq with h1 h2 h3 h4 h5 h6 h7 h8 h9 h10
          subst h1 h2 h3 h4 h5 h6 h7 h8 h10 e1 e2
          rfl
        subst hqq
        have hsn : ∀ x, stepNode (full q' x) = stepPayload (full q' x) := by
          intro x
          unfold stepNode
          rw [show (full q' x).state = .inPayload from a5.state]
        rw [full_noEof_nil he] at a6
        rw [full_noEof y he] at b6
        refine .inr (.inr ⟨q', k - 1, a2, a3, ?_, a6.trans (hsn _).symm, b6.trans (hsn _).symm⟩)
        rw [Nat.sub_add_cancel a4]
        exact a5
  induction h with
  | @finished s s' a =>
    intro he h0 hi hI hnk hw y
    rcases hsame he h0 hi hI hnk hw y with ⟨d, r, _, _, _, _, _, _, e1, e2⟩ | e | ⟨q, k, _, _, e1, e2, _⟩
    · rw [a] at e1
      injection e1 with e1 e3
      subst e1 e3
      left
      have := BRun.finished e2
      simpa [full] using this
    · rw [a] at e; rcases e with e | e <;> cases e
    · obtain ⟨j, _, hj⟩ := (e1.full []).step
      rw [← e2, a] at hj; cases hj
  | @error s s' x a =>
    intro he h0 hi hI hnk hw y
    rcases hsame he h0 hi hI hnk hw y with ⟨d, r, _, _, _, _, _, _, e1, e2⟩ | e | ⟨q, k, _, _, e1, e2, _⟩
    · rw [a] at e1
      injection e1 with e1 e3
      subst e1 e3
      left
      have := BRun.error e2
      simpa [full] using this
    · rw [a] at e
      rcases e with e | e
      · cases e
      · injection e with e
        exact .inr ⟨.inr (by rw [e]), by simpa using hex he h0 hi hI hw y⟩
    · obtain ⟨j, _, hj⟩ := (e1.full []).step
      rw [← e2, a] at hj; cases hj
  | @crash s s' a =>
    intro he h0 hi hI hnk hw y
    have := (stepNode_good hi h0).alive
    rw [a] at this
    exact absurd rfl this
  | @starved s s' a =>
    intro he h0 hi hI hnk hw y
    exact .inr ⟨.inl rfl, by simpa using hex he h0 hi hI hw y⟩
  | @go s s' ev t o a hev hr ih =>
    intro he h0 hi hI hnk hw y
    rcases hsame he h0 hi hI hnk hw y with ⟨d, r, d1, d2, d3, d4, _, hnp, e1, e2⟩ | e | ⟨q, k, _, _, e1, e2, _⟩
    · rw [a] at e1
      injection e1 with e1 e3
      subst e1 e3
      have hg := (stepNode_good hi h0).inv
      rw [a] at hg
      have := ih rfl rfl hg.advance (InitOK.advance (d := full d []) d4) (by show d.cfg.naked = false; rw [d2]; exact hnk)
        (by show d.cfg.wantPayload = true; rw [d2]; exact hw) y
      have hm : more (advance (full d [])) y = advance (full d y) := by
        rw [advance_full d [] d3, advance_full d y d3, more_full]
      rw [hm] at this
      have hev' : ev ≠ .payload := fun h => hnp (by rw [h])
      rw [observe_full d [] ev hev', ← observe_full d y ev hev']
      rcases this with h | ⟨h, u, o', h'⟩
      · exact .inl (.go e2 hev h)
      · exact .inr ⟨h, u, o', by rw [List.append_assoc]; exact .go e2 hev h'⟩
    · rw [a] at e
      rcases e with e | e
      · injection e with e; subst e; simp at hev
      · cases e
    · obtain ⟨j, _, hj⟩ := (e1.full []).step
      rw [← e2, a] at hj
      injection hj with _ hj; injection hj with hj; subst hj; simp at hev
  | @pay s s' b r t o a hb hr ih =>
    intro he h0 hi hI hnk hw y
    rcases hsame he h0 hi hI hnk hw y with ⟨d, r, _, _, _, _, _, hnp, e1, e2⟩ | e | ⟨q, k, q1, q2, e1, e2, e3⟩
    · rw [a] at e1
      injection e1 with _ e3
      exact absurd e3.symm hnp
    · rw [a] at e; rcases e with e | e <;> cases e
    · obtain ⟨j, hj0, hj⟩ := (e1.full []).step
      obtain ⟨j', hj0', hj'⟩ := (e1.full y).step
      have hg := (stepNode_good hi h0).inv
      rw [a] at hg
      rw [← e2, a] at hj
      injection hj with hj _
      subst hj
      have hqb : 1 ≤ q.buf.length := by have := e1.len; omega
      have hbq : (full q []).buf = b :: r := hb
      have hinv : DInv (setStep (full q []) 1) := by
        refine ⟨by show 1 ≤ (q.buf ++ []).length; rw [List.append_nil]; exact hqb, hg.chain, ?_⟩
        intro n rest hn
        have := hg.head n rest hn
        unfold HeadOK at this ⊢
        rw [show (setStep (full q []) 1).state = .inPayload from e1.state]
        rw [show (setStep (full q []) j).state = .inPayload from e1.state] at this
        rcases this with ⟨p, z, c1, c2, c3, c4⟩ | c
        · exact .inl ⟨p, z, c1, c2, c3, Nat.le_trans (Nat.add_le_add_left (show (setStep (full q []) 1).stepSize ≤ (setStep (full q []) j).stepSize from hj0) _) c4⟩
        · exact .inr c
      have := ih rfl rfl hinv.advance (fun h => by rw [show (advance (setStep (setStep (full q []) j) 1)).state = .inPayload from e1.state] at h; cases h)
        (by show q.cfg.naked = false; rw [q2]; exact hnk) (by show q.cfg.wantPayload = true; rw [q2]; exact hw) y
      have hm : more (advance (setStep (setStep (full q []) j) 1)) y = advance (setStep (setStep (full q y) j') 1) := by
        have h1 : setStep (setStep (full q []) j) 1 = full (setStep q 1) [] := rfl
        have h2 : setStep (setStep (full q y) j') 1 = full (setStep q 1) y := rfl
        rw [h1, h2, advance_full (setStep q 1) [] hqb, advance_full (setStep q 1) y hqb, more_full]
      rw [hm] at this
      have hby : (setStep (full q y) j').buf = b :: (r ++ y) := by
        show q.buf ++ y = _
        rw [← List.append_nil q.buf]
        rw [show q.buf ++ [] = b :: r from hbq]
        rfl
      have e4 := e3.trans hj'
      rcases this with h | ⟨h, u, o', h'⟩
      · exact .inl (.pay e4 hby h)
      · exact .inr ⟨h, u, o', .pay e4 hby h'⟩

end Casync.Archive
