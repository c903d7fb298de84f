import Verif.Lemmas.SeekReach
import Verif.Lemmas.DecoderFeed
import Verif.Props.Goodbye
/-!
Sessions with a seekable decoder end.
-/
namespace Casync.Archive
open Casync Flags

variable {q : List Goodbye.NameItem → List Goodbye.NameItem} {A : Bytes} {t : Tree} {ff : Word} {f' : FF}

/-! ### A measure -/

/-- The rows of the table that can still be tried. -/
def rowsLeft (d : SDec) : Nat :=
  match d.exts, d.path with
  | x :: _, some p =>
    match x.goodbye, (getComponent p).1 with
    | some tb, some c => (Goodbye.hits tb (nameHash c) 0).length - d.idx
    | _, _ => 0
  | _, _ => 0

def pathLeft (d : SDec) : Nat :=
  match d.path with
  | some p => p.length
  | none => 0

def tgStage : Target → Nat
  | .goodbyeTail => 4 | .goodbye => 3 | .filename => 2 | _ => 1

def mu1 (d : SDec) : Nat :=
  match d.mode with
  | some .nowhere => 0
  | some _ => pathLeft d + 1
  | none => 0

def mu2 (d : SDec) : Nat :=
  match d.mode with
  | some .entered => 5
  | some (.prep t) => tgStage t
  | some (.seeking t) => tgStage t
  | _ => 0

def mu3 (d : SDec) : Nat :=
  match d.mode with
  | some (.prep t) => (if t = .filename then 2 * rowsLeft d else 0) + 1
  | some (.seeking t) => if t = .filename then 2 * rowsLeft d else 0
  | _ => 0

/-- What of the archive has not been put. -/
def unread (A : Bytes) (c : Dec) : Nat := 2 * (A.length - (c.archiveOff + c.buf.length)) + (if c.eof then 0 else 1)

/-- The lexicographic order of the measures. -/
def SLess (A : Bytes) (d e : SDec) : Prop :=
  mu1 d < mu1 e ∨ mu1 d = mu1 e ∧ (mu2 d < mu2 e ∨ mu2 d = mu2 e ∧ (mu3 d < mu3 e ∨ mu3 d = mu3 e ∧
    (unread A d.core < unread A e.core ∨ unread A d.core = unread A e.core ∧ weight d.core < weight e.core)))

theorem sless_wf (A : Bytes) : WellFounded (SLess A) := by
  have hw : WellFounded (Prod.Lex (fun a b : Nat => a < b) (Prod.Lex (fun a b : Nat => a < b) (Prod.Lex (fun a b : Nat => a < b)
      (Prod.Lex (fun a b : Nat => a < b) (fun a b : Nat => a < b))))) :=
    (Prod.lex ⟨_, Nat.lt_wfRel.wf⟩ (Prod.lex ⟨_, Nat.lt_wfRel.wf⟩ (Prod.lex ⟨_, Nat.lt_wfRel.wf⟩ (Prod.lex ⟨_, Nat.lt_wfRel.wf⟩ ⟨_, Nat.lt_wfRel.wf⟩)))).wf
  refine Subrelation.wf ?_ (InvImage.wf (fun d : SDec => (mu1 d, mu2 d, mu3 d, unread A d.core, weight d.core)) hw)
  intro d e h
  unfold InvImage
  simp only
  rcases h with h | ⟨h1, h | ⟨h2, h | ⟨h3, h | ⟨h4, h⟩⟩⟩⟩
  · exact .left _ _ h
  · rw [h1]; exact .right _ (.left _ _ h)
  · rw [h1, h2]; exact .right _ (.right _ (.left _ _ h))
  · rw [h1, h2, h3]; exact .right _ (.right _ (.right _ (.left _ _ h)))
  · rw [h1, h2, h3, h4]; exact .right _ (.right _ (.right _ (.right _ h)))

/-! ### Steps outside of seeks -/

/-- The buffer stays as it is. -/
structure Still (s s' : Dec) : Prop where
  off : s'.archiveOff = s.archiveOff
  buf : s'.buf = s.buf
  eof : s'.eof = s.eof

theorem Still.enter {s s' : Dec} {x : DState} (h : Still (enterState s x) s') : Still s s' := ⟨h.off, h.buf, h.eof⟩

theorem stepFinalize_still (s : Dec) : Still s (stepFinalize s).1 := by
  unfold stepFinalize
  split
  · exact ⟨rfl, rfl, rfl⟩
  · split <;> exact ⟨rfl, rfl, rfl⟩

theorem stepPayload_still (s : Dec) : Still s (stepPayload s).1 := by
  unfold stepPayload
  cases s.nodes with
  | nil => exact ⟨rfl, rfl, rfl⟩
  | cons n r =>
    simp only
    cases nodeMode s n with
    | none => exact ⟨rfl, rfl, rfl⟩
    | some m =>
      simp only
      split
      · exact ⟨rfl, rfl, rfl⟩
      split
      · exact ⟨rfl, rfl, rfl⟩
      split
      · exact ⟨rfl, rfl, rfl⟩
      split
      · split <;> exact ⟨rfl, rfl, rfl⟩
      split
      · split
        · exact ⟨rfl, rfl, rfl⟩
        split
        · exact ⟨rfl, rfl, rfl⟩
        split
        · exact (stepFinalize_still (enterState s .finalize)).enter
        · exact ⟨rfl, rfl, rfl⟩
      · split
        · split <;> exact ⟨rfl, rfl, rfl⟩
        · exact ⟨rfl, rfl, rfl⟩

theorem dirBody_still (s : Dec) : Still s (dirBody s).1 := by
  unfold dirBody
  split
  · exact ⟨rfl, rfl, rfl⟩
  · split
    · exact ⟨rfl, rfl, rfl⟩
    · exact ⟨rfl, rfl, rfl⟩
    · simp only; split <;> exact ⟨rfl, rfl, rfl⟩
    · split <;> exact ⟨rfl, rfl, rfl⟩

theorem stepDirectory_still (s : Dec) : Still s (stepDirectory s).1 := by
  unfold stepDirectory
  split
  · exact ⟨rfl, rfl, rfl⟩
  · split
    · exact ⟨rfl, rfl, rfl⟩
    · split
      · exact ⟨rfl, rfl, rfl⟩
      · split
        · exact ⟨rfl, rfl, rfl⟩
        · exact ⟨rfl, rfl, rfl⟩
        · simp only; split <;> exact ⟨rfl, rfl, rfl⟩
        · split <;> exact ⟨rfl, rfl, rfl⟩

theorem stepParse_still (s : Dec) : Still s (stepParse s).1 := by
  unfold stepParse
  split
  · exact ⟨rfl, rfl, rfl⟩
  · split <;> exact ⟨rfl, rfl, rfl⟩

theorem stepNode_still (s : Dec) (h : s.state ≠ .skipping) : Still s (stepNode s).1 := by
  unfold stepNode
  cases hs : s.state with
  | init =>
    simp only
    split
    · exact (stepPayload_still (enterState s .inPayload)).enter
    · exact stepParse_still s
  | entered => exact stepParse_still s
  | entry =>
    simp only
    split
    · exact ⟨rfl, rfl, rfl⟩
    · split
      · exact ⟨rfl, rfl, rfl⟩
      · split
        · exact (stepPayload_still (enterState s .inPayload)).enter
        · split
          · exact (stepDirectory_still (enterState s .inDirectory)).enter
          · exact ⟨rfl, rfl, rfl⟩
  | inPayload => exact stepPayload_still s
  | skipping => exact absurd hs h
  | inDirectory => exact stepDirectory_still s
  | goodbye => exact ⟨rfl, rfl, rfl⟩
  | finalize => exact stepFinalize_still s
  | eof => exact ⟨rfl, rfl, rfl⟩

theorem dirBody_prog (s : Dec) (h0 : s.stepSize = 0) : Prog s (dirBody s) := by
  unfold dirBody
  have hsz : s.stepSize ≤ s.buf.length := by rw [h0]; exact Nat.zero_le _
  cases hn : s.nodes with
  | nil => exact ⟨rfl, hsz, by intro ev h; cases h⟩
  | cons n rest =>
    simp only
    cases hp : parseDirRec s.buf with
    | request => exact ⟨rfl, hsz, by intro ev h; injection h with h; subst h; intro h; exact absurd rfl h⟩
    | err e => exact ⟨rfl, hsz, by intro ev h; cases h⟩
    | ok a =>
      obtain ⟨r, l⟩ := a
      have hl := parseDirRec_size hp
      cases r with
      | filename name =>
        simp only
        by_cases c2 : (n :: rest).length ≥ nodesMax
        · rw [if_pos c2]; exact ⟨rfl, hsz, by intro ev h; cases h⟩
        · rw [if_neg c2]
          refine ⟨rfl, hl.2, ?_⟩
          intro ev _ _ _
          unfold weight
          simp only [enterState, setStep, hn, h0, rank, List.length_cons]
          omega
      | goodbye tb eo =>
        simp only
        by_cases c2 : eo ≠ s.archiveOff - n.entryOff
        · rw [if_pos c2]; exact ⟨rfl, hsz, by intro ev h; cases h⟩
        · rw [if_neg c2]
          refine ⟨rfl, hl.2, ?_⟩
          intro ev _ _ _
          unfold weight
          simp only [enterState, setStep, hn, h0, rank, List.length_cons]
          omega

theorem unread_advance {c : Dec} (h : c.stepSize ≤ c.buf.length) : unread A (advance c) = unread A c := by
  unfold unread
  have h1 : (advance c).archiveOff + (advance c).buf.length = c.archiveOff + c.buf.length := by
    show c.archiveOff + c.stepSize + (c.buf.drop c.stepSize).length = _
    rw [List.length_drop]
    omega
  rw [h1]
  rfl

theorem unread_still {s s' : Dec} (h : Still s s') : unread A s' = unread A s := by
  unfold unread; rw [h.off, h.buf, h.eof]

theorem weight_advance (c : Dec) : weight (advance c) = weight c := by
  unfold weight
  have : (advance c).buf.length = c.buf.length - c.stepSize := by show (c.buf.drop c.stepSize).length = _; rw [List.length_drop]
  rw [this]
  rfl

theorem setExt_core (d : SDec) (f : NX → NX) : (setExt d f).core = d.core := by
  unfold setExt; split <;> rfl
theorem setExt_mode (d : SDec) (f : NX → NX) : (setExt d f).mode = d.mode := by
  unfold setExt; split <;> rfl
theorem setExt_path (d : SDec) (f : NX → NX) : (setExt d f).path = d.path := by
  unfold setExt; split <;> rfl
theorem setExt_idx (d : SDec) (f : NX → NX) : (setExt d f).idx = d.idx := by
  unfold setExt; split <;> rfl

theorem moved_mode (d : SDec) (c : Dec) : (moved d c).mode = d.mode := by
  unfold moved
  split
  · rfl
  split
  · split <;> rfl
  · rfl

theorem noted_mode (d : SDec) (c : Dec) : (noted' d c).mode = d.mode := by
  unfold noted'
  simp only
  split
  · split
    · rw [setExt_mode, setExt_mode, moved_mode]
    · rw [setExt_mode, moved_mode]
  · split
    · rw [setExt_mode, moved_mode]
    · rw [moved_mode]

/-- A step outside of seeks. -/
theorem plain_prog (hc : Ctx q A t ff f') {d : SDec} {r : List Atom} (h : PlainOK q A t ff f' d r) :
    unread A (plainStep d).1 = unread A d.core ∧ ∀ ev, (plainStep d).2 = .ok ev → ev ≠ .request → ev ≠ .finished → weight (plainStep d).1 < weight d.core := by
  have main : ∀ p : Dec × Res Ev, plainStep d = p → d.core.stepSize ≤ d.core.buf.length → Prog (advance d.core) p → Still (advance d.core) p.1 →
      unread A (plainStep d).1 = unread A d.core ∧ ∀ ev, (plainStep d).2 = .ok ev → ev ≠ .request → ev ≠ .finished → weight (plainStep d).1 < weight d.core := by
    intro p hp hsz h1 h2
    rw [hp]
    refine ⟨by rw [unread_still h2, unread_advance hsz], fun ev a b c => ?_⟩
    have := h1.less ev a b c
    rw [weight_advance] at this
    exact this
  cases h with
  | eof h1 h2 h3 =>
    have : plainStep d = (d.core, .ok .finished) := by
      have hbd : baseDir d = false := by unfold baseDir; rw [h3]; rfl
      unfold plainStep step
      rw [hbd, if_neg (by simp), if_pos h3]
    rw [this]
    refine ⟨rfl, ?_⟩
    intro ev a _ b
    injection a with a
    exact absurd a.symm b
  | @at_ n ns x xs s path y own h1 h2 h3 h4 =>
    by_cases hst : d.core.state = .inDirectory
    · cases h4 with
      | enter a => rw [hst] at a; rcases a with a | a <;> cases a
      | entry a => rw [hst] at a; cases a
      | payload a => rw [hst] at a; cases a
      | goodbye a => rw [hst] at a; cases a
      | finalize a => rw [hst] at a; cases a
      | dir a1 a2 a3 =>
        exact main _ (plain_dir h1 hc h3 a1 a2 a3) h1.buf.size (dirBody_prog _ rfl) (dirBody_still _)
    · have hne : d.core.state ≠ .eof ∧ d.core.state ≠ .skipping := by
        cases h4 with
        | enter a => rcases a with a | a <;> rw [a] <;> simp
        | entry a => rw [a]; simp
        | payload a => rw [a]; simp
        | goodbye a => rw [a]; simp
        | finalize a => rw [a]; simp
        | dir a => rw [a]; simp
      exact main _ (plain_other h1 hst hne.1) h1.buf.size (stepNode_prog _ rfl) (stepNode_still _ hne.2)

/-! ### Steps of seeks -/

theorem getComponent_less {p c r : Bytes} (h : getComponent p = (some c, r)) : r.length < p.length := by
  unfold getComponent at h
  simp only at h
  split at h
  · cases h
  · rename_i hne
    injection h with h1 h2
    injection h1 with h1
    have hq : (p.dropWhile (· == 47)).length ≤ p.length := (List.dropWhile_sublist _).length_le
    have hr : r.length ≤ ((p.dropWhile (· == 47)).drop c.length).length := by rw [← h2, h1]; exact (List.dropWhile_sublist _).length_le
    have hcl : c.length ≤ (p.dropWhile (· == 47)).length := by rw [← h1]; exact (List.takeWhile_sublist _).length_le
    have hc0 : 0 < c.length := by rw [← h1]; exact List.length_pos_iff.2 hne
    rw [List.length_drop] at hr
    omega

/-- What `ca_decoder_do_seek()` does when there is more to do. -/
inductive DoRes (d : SDec) : SDec → Prop
  | near {d' tg} : d'.mode = some (.prep tg) → tgStage tg = 1 → d'.path = d.path → DoRes d d'
  | filename {d'} : d'.mode = some (.prep .filename) → d'.path = d.path → rowsLeft d' = rowsLeft d → 0 < rowsLeft d → DoRes d d'
  | goodbye {d' x xs} : d'.mode = some (.prep .goodbye) → d'.path = d.path → d.exts = x :: xs → x.goodbye = none → DoRes d d'
  | tail {d' x xs} : d'.mode = some (.prep .goodbyeTail) → d'.path = d.path → d.exts = x :: xs → x.goodbye = none → x.goodbyeOff = none → DoRes d d'

theorem doSeek_res {d d' : SDec} (h : doSeek d = (d', .ok true)) : DoRes d d' := by
  unfold doSeek at h
  split at h
  · rename_i p n up x xs hp hn hx
    split at h
    · unfold seekHere at h
      split at h
      · split at h
        · cases h
        · split at h
          · cases h
          · injection h with h _; subst h; exact .near (tg := .nextSibling) rfl rfl rfl
      · split at h
        · split at h
          · split at h
            · cases h
            split at h
            · cases h
            · injection h with h _; subst h; exact .near (tg := .payload) rfl rfl rfl
          · cases h
        · injection h with h _; subst h; exact .near (tg := .entry) rfl rfl rfl
    · rename_i c hcm
      split at h
      · cases h
      · split at h
        · cases h
        · unfold seekDown at h
          split at h
          · rename_i tb htb
            split at h
            · cases h
            · split at h
              · cases h
              · rename_i a b hl
                injection h with h _
                subst h
                refine .filename rfl rfl ?_ ?_
                · unfold rowsLeft setMode
                  rfl
                · unfold rowsLeft
                  rw [hx, hp]
                  simp only [htb, hcm]
                  unfold Goodbye.locate Goodbye.search at hl
                  rw [Goodbye.searchInner_eq] at hl
                  simp only at hl
                  cases hi : (Goodbye.hits tb (nameHash c) 0)[d.idx]? with
                  | none => rw [hi] at hl; cases hl
                  | some it =>
                    have := (List.getElem?_eq_some_iff.1 hi).1
                    omega
              · cases h
              · cases h
          · rename_i hg
            split at h
            · injection h with h _; subst h; exact .goodbye rfl rfl hx hg
            · rename_i hgo
              split at h
              · cases h
              · split at h
                · cases h
                · injection h with h _; subst h; exact .tail rfl rfl hx hg hgo
  · cases h

theorem afterSeek_step {r : SDec × Res Bool} {d' : SDec} {ev : SEv} (h : afterSeek r = (d', .ok ev)) :
    (r = (d', .ok true) ∧ ev = .plain .step) ∨ ev = .notFound := by
  unfold afterSeek at h
  split at h
  · injection h with h1 h2; injection h2 with h2; exact .inl ⟨by rw [h1], h2.symm⟩
  · injection h with h1 h2; injection h2 with h2; exact .inr h2.symm
  · cases h
  · cases h

/-- Progress: the session ends, or asks for data and nothing else has changed, or the measure is smaller. -/
inductive SProg (A : Bytes) (d : SDec) : SDec × Res SEv → Prop
  | stop {d' r} : (∀ ev, r = .ok ev → ev = .notFound ∨ ev = .plain .finished) → SProg A d (d', r)
  | request {d'} : mu1 d' = mu1 d → mu2 d' = mu2 d → mu3 d' = mu3 d → unread A d'.core = unread A d.core → SProg A d (d', .ok (.plain .request))
  | less {d' r} : SLess A d' d → SProg A d (d', r)

theorem SProg.err {d d' : SDec} {e : Errno} : SProg A d (d', .err e) := .stop (fun _ h => nomatch h)
theorem SProg.ub {d d' : SDec} : SProg A d (d', .ub) := .stop (fun _ h => nomatch h)
theorem SProg.gone {d d' : SDec} : SProg A d (d', .ok .notFound) := .stop (fun _ h => by injection h with h; exact .inl h.symm)

/-- After `ca_decoder_do_seek()`. -/
theorem SProg.seek {d e : SDec} (h : ∀ d', DoRes e d' → SLess A d' d) : SProg A d (afterSeek (doSeek e)) := by
  generalize hr : doSeek e = r
  obtain ⟨d', r⟩ := r
  cases r with
  | err e => exact .err
  | ub => exact .ub
  | ok b =>
    cases b with
    | true => exact .less (h d' (doSeek_res hr))
    | false => exact .gone

/-- The end of a seek. -/
theorem less_plain {d d' : SDec} {m : SMode} (h : d.mode = some m) (hm : m ≠ .nowhere) (h' : d'.mode = none) : SLess A d' d := by
  left
  have h1 : mu1 d' = 0 := by unfold mu1; rw [h']
  have h2 : mu1 d = pathLeft d + 1 := by unfold mu1; rw [h]; cases m <;> first | rfl | exact absurd rfl hm
  omega

theorem mu1_seek {d : SDec} {m : SMode} (h : d.mode = some m) (hm : m ≠ .nowhere) : mu1 d = pathLeft d + 1 := by
  unfold mu1; rw [h]; cases m <;> first | rfl | exact absurd rfl hm

theorem pathLeft_eq {d e : SDec} (h : d.path = e.path) : pathLeft d = pathLeft e := by unfold pathLeft; rw [h]

/-- `ca_decoder_do_seek()` from the state `m`. -/
theorem less_do {d e d' : SDec} {m : SMode} (h : d.mode = some m) (hm : m ≠ .nowhere) (hp : e.path = d.path) (hr : DoRes e d') (hs1 : 1 < mu2 d)
    (h2 : mu2 d ≤ 2 → 0 < rowsLeft e → rowsLeft e + 1 ≤ rowsLeft d ∧ m = .seeking .filename) (h3 : mu2 d ≤ 3 → ∀ x xs, e.exts = x :: xs → x.goodbye.isSome = true)
    (h4 : mu2 d ≤ 4 → ∀ x xs, e.exts = x :: xs → x.goodbyeOff.isSome = true) : SLess A d' d := by
  have e1 := mu1_seek h hm
  cases hr with
  | @near tg a1 a2 a3 =>
    right
    refine ⟨?_, .inl ?_⟩
    · rw [e1, mu1_seek a1 (by simp), pathLeft_eq (a3.trans hp)]
    · have : mu2 d' = tgStage tg := by unfold mu2; rw [a1]
      omega
  | filename a1 a2 a3 a4 =>
    right
    refine ⟨?_, ?_⟩
    · rw [e1, mu1_seek a1 (by simp), pathLeft_eq (a2.trans hp)]
    · have e2 : mu2 d' = 2 := by unfold mu2; rw [a1]; rfl
      by_cases hc : mu2 d = 2
      · right
        refine ⟨by omega, .inl ?_⟩
        obtain ⟨h2, h5⟩ := h2 (by omega) a4
        have e3 : mu3 d' = 2 * rowsLeft d' + 1 := by unfold mu3; rw [a1]; simp
        have e4 : mu3 d = 2 * rowsLeft d := by unfold mu3; rw [h, h5]; simp
        omega
      · left; omega
  | @goodbye x xs a1 a2 a3 a4 =>
    right
    refine ⟨?_, .inl ?_⟩
    · rw [e1, mu1_seek a1 (by simp), pathLeft_eq (a2.trans hp)]
    · have e2 : mu2 d' = 3 := by unfold mu2; rw [a1]; rfl
      by_cases hc : mu2 d ≤ 3
      · have := h3 hc x xs a3
        rw [a4] at this
        cases this
      · omega
  | @tail x xs a1 a2 a3 a4 a5 =>
    right
    refine ⟨?_, .inl ?_⟩
    · rw [e1, mu1_seek a1 (by simp), pathLeft_eq (a2.trans hp)]
    · have e2 : mu2 d' = 4 := by unfold mu2; rw [a1]; rfl
      by_cases hc : mu2 d ≤ 4
      · have := h4 hc x xs a3
        rw [a5] at this
        cases this
      · omega

theorem prep_less {d : SDec} {tg : Target} (h : d.mode = some (.prep tg)) (o : Nat) : SLess A (applySeek (setMode d (.seeking tg)) o) d := by
  right
  refine ⟨?_, .inr ⟨?_, .inl ?_⟩⟩
  · rw [mu1_seek (m := .seeking tg) rfl (by simp), mu1_seek h (by simp)]; rfl
  · have h1 : mu2 d = tgStage tg := by unfold mu2; rw [h]
    rw [h1]; rfl
  · have h1 : mu3 d = (if tg = .filename then 2 * rowsLeft d else 0) + 1 := by unfold mu3; rw [h]
    rw [h1]
    show (if tg = .filename then 2 * rowsLeft _ else 0) < _
    have : rowsLeft (applySeek (setMode d (.seeking tg)) o) = rowsLeft d := rfl
    rw [this]
    omega

theorem prep_prog {d : SDec} {tg : Target} (h : d.mode = some (.prep tg)) : SProg A d (stepSeek d (.prep tg)) := by
  by_cases he : tg = .entry
  · subst he
    unfold stepSeek
    simp only
    split
    · exact .less (prep_less h _)
    · exact .ub
  · have : stepSeek d (.prep tg) = match curMode d, d.off with
        | some m, some o =>
          if !isType m (if tg = .payload then ifReg else ifDir) then (d, .ub)
          else (applySeek (setMode d (.seeking tg)) o, .ok .seek)
        | none, _ => (d, .err .EUNATCH)
        | _, none => (d, .ub) := by
      cases tg <;> first | exact absurd rfl he | rfl
    rw [this]
    generalize (if tg = .payload then ifReg else ifDir) = ty
    split
    · split
      · exact .ub
      · exact .less (prep_less h _)
    · exact .err
    · exact .ub

theorem seekName_prog {d : SDec} {nm : Bytes} {l : Nat} (h : d.mode = some (.seeking .filename)) {x : NX} {xs : List NX} (hx : d.exts = x :: xs) (hg : x.goodbye.isSome = true)
    (hgo : x.goodbyeOff.isSome = true) {p c r : Bytes} (hp : d.path = some p) (hcm : getComponent p = (some c, r)) : SProg A d (seekName d nm l) := by
  have hin : SProg A d (match enterChild { d with idx := 0, path := some (getComponent p).2 } nm l d.endOff with
      | .ok d'' => (sSetStep (setMode d'' .entered) l, .ok (.plain .step))
      | .err e => ({ d with idx := 0, path := some (getComponent p).2 }, .err e)
      | .ub => ({ d with idx := 0, path := some (getComponent p).2 }, .ub)) := by
    unfold enterChild
    split
    · rename_i d'' h1
      split at h1
      · cases h1
      · injection h1 with h1
        subst h1
        refine .less (.inl ?_)
        rw [mu1_seek (m := .entered) rfl (by simp), mu1_seek h (by simp)]
        have e1 : pathLeft d = p.length := by unfold pathLeft; rw [hp]
        have e2 := getComponent_less hcm
        rw [e1]
        show (getComponent p).2.length + 1 < _
        rw [hcm]
        show r.length + 1 < _
        omega
    · exact .err
    · exact .ub
  have hout : SProg A d (match enterChild (setBoundary (resetSeek { d with idx := 0 }) d.core.nodes.length) nm l d.endOff with
      | .ok d'' => (sSetStep (setPlain d'' .entered) l, .ok .found)
      | .err e => (setBoundary (resetSeek { d with idx := 0 }) d.core.nodes.length, .err e)
      | .ub => (setBoundary (resetSeek { d with idx := 0 }) d.core.nodes.length, .ub)) := by
    split
    · exact .less (less_plain h (by simp) rfl)
    · exact .err
    · exact .ub
  have hno : SProg A d (afterSeek (doSeek { d with idx := d.idx + 1 })) := by
    refine .seek (fun d' hd' => ?_)
    have h2 : mu2 d = 2 := by unfold mu2; rw [h]; rfl
    refine less_do (e := { d with idx := d.idx + 1 }) h (by simp) rfl hd' (by omega) (fun _ => ?_) (fun _ => ?_) (fun _ => ?_)
    · intro hpos
      refine ⟨?_, rfl⟩
      obtain ⟨tb, hg⟩ := Option.isSome_iff_exists.1 hg
      have e1 : rowsLeft { d with idx := d.idx + 1 } = (Goodbye.hits tb (nameHash c) 0).length - (d.idx + 1) := by
        unfold rowsLeft
        simp only [hx, hp, hg, hcm]
      have e2 : rowsLeft d = (Goodbye.hits tb (nameHash c) 0).length - d.idx := by
        unfold rowsLeft
        simp only [hx, hp, hg, hcm]
      omega
    · intro x' xs' hx'
      rw [show ({ d with idx := d.idx + 1 } : SDec).exts = d.exts from rfl, hx] at hx'
      injection hx' with hx' _
      rw [← hx']; exact hg
    · intro x' xs' hx'
      rw [show ({ d with idx := d.idx + 1 } : SDec).exts = d.exts from rfl, hx] at hx'
      injection hx' with hx' _
      rw [← hx']; exact hgo
  unfold seekName
  split
  · exact .ub
  · rename_i p' hp'
    rw [hp] at hp'
    injection hp' with hp'
    subst hp'
    split
    · exact hno
    · split
      · exact hin
      · exact hout

theorem setExt_exts {d : SDec} {x : NX} {xs : List NX} (h : d.exts = x :: xs) (f : NX → NX) : (setExt d f).exts = f x :: xs := by
  unfold setExt; rw [h]

theorem component_of {p c : Bytes} {rest : List Bytes} (h : components p = c :: rest) : ∃ c' r, getComponent p = (some c', r) := by
  cases hgc : getComponent p with
  | mk o1 r1 =>
    cases o1 with
    | none => rw [getComponent_none hgc] at h; cases h
    | some c1 => exact ⟨c1, r1, rfl⟩

theorem entered_request {d e : SDec} (h : d.mode = some .entered) (h' : e.mode = d.mode) (hp : e.path = d.path) (hu : unread A e.core = unread A d.core) :
    SProg A d (e, .ok (.plain .request)) := by
  rw [h] at h'
  refine .request ?_ ?_ ?_ hu
  · rw [mu1_seek h' (by simp), mu1_seek h (by simp), pathLeft_eq hp]
  · unfold mu2; rw [h', h]
  · unfold mu3; rw [h', h]

theorem entered_seek {d e : SDec} (h : d.mode = some .entered) (hp : e.path = d.path) : SProg A d (afterSeek (doSeek e)) := by
  have h2 : mu2 d = 5 := by unfold mu2; rw [h]
  exact .seek (fun d' hd' => less_do h (by simp) hp hd' (by omega) (fun _ => by omega) (fun _ => by omega) (fun _ => by omega))

/-- All steps of a seek make progress. -/
theorem seek_prog {d : SDec} {l : Answer} (h : SeekOK q A t ff f' d l) : SProg A { d with core := advance d.core } (sStep d) := by
  have hb := h.base
  have hstep : ∀ m, d.mode = some m → sStep d = stepSeek { d with core := advance d.core } m := by
    intro m hm
    unfold sStep
    rw [hm]
    simp only
    rw [if_neg (by have := hb.buf.size; omega)]
  cases h with
  | nowhere hb hm =>
    rw [hstep _ hm]
    unfold stepSeek
    exact .gone
  | @prep tg o g goal hm ho hT =>
    rw [hstep _ hm]
    exact prep_prog (d := { d with core := advance d.core }) hm
  | @seeking tg g goal hm hT =>
    rw [hstep _ hm]
    have hm' : ({ d with core := advance d.core } : SDec).mode = some (.seeking tg) := hm
    have hp' : ({ d with core := advance d.core } : SDec).path = d.path := rfl
    have hx' : ({ d with core := advance d.core } : SDec).exts = d.exts := rfl
    generalize ({ d with core := advance d.core } : SDec) = e at hm' hp' hx' ⊢
    generalize d.core.archiveOff + d.core.stepSize = o at hT
    cases hT with
    | entry _ _ _ => exact .less (less_plain hm' (by simp) rfl)
    | payload _ _ _ _ _ _ =>
      unfold stepSeek
      simp only
      split
      · exact .less (less_plain hm' (by simp) (by rw [noted_mode]; rfl))
      · exact .ub
    | @filename n ns x xs s path y p c rest _ _ h hcomp hd hmm hg hgo _ _ =>
      obtain ⟨c', r, hgc⟩ := component_of hcomp
      unfold stepSeek
      simp only
      split
      · split
        · exact .ub
        · unfold seekDirRec
          split
          · exact .err
          · split
            · exact .err
            · split
              · exact .request rfl rfl rfl rfl
              · exact .err
              · simp only [if_true]
                exact seekName_prog hm' (hx'.trans h.cur.exts) hg hgo (hp'.trans h.sub) hgc
              · split
                · exact .err
                · simp only
                  rw [if_neg (by simp)]
                  exact .less (less_plain hm' (by simp) rfl)
      · exact .err
    | @nextSibling n ns x xs s path y nm s' r _ _ _ _ _ _ _ _ _ _ =>
      unfold stepSeek
      simp only
      split
      · split
        · exact .ub
        · unfold seekDirRec
          split
          · exact .err
          · split
            · exact .err
            · split
              · exact .request rfl rfl rfl rfl
              · exact .err
              · simp only [if_neg (show ¬ Target.nextSibling = .filename by simp)]
                split
                · exact .less (less_plain hm' (by simp) rfl)
                · exact .err
                · exact .ub
              · split
                · exact .err
                · simp only [if_neg (show ¬ Target.nextSibling = .goodbye by simp)]
                  exact .less (less_plain hm' (by simp) rfl)
      · exact .err
    | @goodbye n ns x xs s path y p c rest _ h hcomp hd hmm hgo =>
      have h2 : mu2 e = 3 := by unfold mu2; rw [hm']; rfl
      have hxs := hx'.trans h.cur.exts
      unfold stepSeek
      simp only
      split
      · split
        · exact .ub
        · unfold seekDirRec
          split
          · exact .err
          · split
            · exact .err
            · split
              · exact .request rfl rfl rfl rfl
              · exact .err
              · simp only [if_neg (show ¬ Target.goodbye = .filename by simp)]
                split
                · exact .less (less_plain hm' (by simp) rfl)
                · exact .err
                · exact .ub
              · rename_i table eo l' _
                split
                · exact .err
                · simp only [if_true]
                  refine .seek (fun d' hd' => less_do hm' (by simp) (setExt_path _ _) hd' (by omega) (fun _ => by omega) (fun _ => ?_) (fun _ => ?_))
                  · intro x1 xs1 hx1
                    rw [setExt_exts hxs] at hx1
                    injection hx1 with hx1 _
                    rw [← hx1]; rfl
                  · intro x1 xs1 hx1
                    rw [setExt_exts hxs] at hx1
                    injection hx1 with hx1 _
                    rw [← hx1]
                    show x.goodbyeOff.isSome = true
                    rw [hgo]; rfl
      · exact .err
    | @goodbyeTail n ns x xs s path y p c rest h hcomp hd hmm hgo =>
      have h2 : mu2 e = 4 := by unfold mu2; rw [hm']; rfl
      have hxs := hx'.trans h.cur.exts
      unfold stepSeek
      simp only
      split
      · split
        · exact .ub
        · unfold seekTail
          simp only
          split
          · exact .request rfl rfl rfl rfl
          split
          · exact .err
          split
          · exact .err
          split
          · exact .err
          split
          · exact .err
          split
          · exact .err
          split
          · exact .err
          split
          · exact .err
          refine .seek (fun d' hd' => less_do hm' (by simp) (setExt_path _ _) hd' (by omega) (fun _ => by omega) (fun _ => by omega) (fun _ => ?_))
          intro x1 xs1 hx1
          rw [setExt_exts hxs] at hx1
          injection hx1 with hx1 _
          rw [← hx1]; rfl
      · exact .err
  | @entered g goal n ns x xs s path y p hm hH hi ho hg =>
    rw [hstep _ hm]
    have hm' : ({ d with core := advance d.core } : SDec).mode = some .entered := hm
    generalize ({ d with core := advance d.core } : SDec) = e at hm' ⊢
    have h2 : mu2 e = 5 := by unfold mu2; rw [hm']
    unfold stepSeek
    simp only
    unfold seekEntry
    split
    · exact .err
    · split
      · exact entered_request hm' (setExt_mode _ _) (setExt_path _ _) (by rw [setExt_core]; rfl)
      · exact .err
      · exact entered_seek hm' (setExt_path _ _)

theorem mu_advance {d : SDec} (h : d.core.stepSize ≤ d.core.buf.length) :
    mu1 { d with core := advance d.core } = mu1 d ∧ mu2 { d with core := advance d.core } = mu2 d ∧ mu3 { d with core := advance d.core } = mu3 d ∧
      unread A ({ d with core := advance d.core } : SDec).core = unread A d.core ∧ weight ({ d with core := advance d.core } : SDec).core = weight d.core :=
  ⟨rfl, rfl, rfl, unread_advance h, weight_advance _⟩

/-- All steps make progress. -/
theorem all_prog (hc : Ctx q A t ff f') {d : SDec} {l : Answer} (h : OK q A t ff f' d l) : SProg A d (sStep d) := by
  rcases h with ⟨r, hr, h⟩ | h
  · have hm : d.mode = none := by cases h <;> assumption
    obtain ⟨h1, h2⟩ := plain_prog hc h
    rw [sStep_plain hm]
    have hm' : (noted' d (plainStep d).1).mode = none := (noted_mode _ _).trans hm
    have hz : ∀ {e : SDec}, e.mode = none → mu1 e = 0 ∧ mu2 e = 0 ∧ mu3 e = 0 := by
      intro e he
      unfold mu1 mu2 mu3
      rw [he]
      exact ⟨rfl, rfl, rfl⟩
    obtain ⟨a1, a2, a3⟩ := hz hm
    obtain ⟨b1, b2, b3⟩ := hz hm'
    have hcore : (noted' d (plainStep d).1).core = (plainStep d).1 := rfl
    cases hev : (plainStep d).2 with
    | err e => exact .err
    | ub => exact .ub
    | ok ev =>
      by_cases hq : ev = .request
      · subst hq
        exact .request (by rw [a1, b1]) (by rw [a2, b2]) (by rw [a3, b3]) h1
      by_cases hf : ev = .finished
      · subst hf
        exact .stop (fun _ h => by injection h with h; exact .inr h.symm)
      · exact .less (.inr ⟨by rw [a1, b1], .inr ⟨by rw [a2, b2], .inr ⟨by rw [a3, b3], .inr ⟨h1, h2 ev hev hq hf⟩⟩⟩⟩)
  · have hp := seek_prog h
    obtain ⟨e1, e2, e3, e4, e5⟩ := mu_advance (A := A) h.base.buf.size
    generalize hr : sStep d = r at hp
    cases hp with
    | stop h => exact .stop h
    | request h1 h2 h3 h4 => exact .request (h1.trans e1) (h2.trans e2) (h3.trans e3) (h4.trans e4)
    | less h =>
      refine .less ?_
      unfold SLess at h ⊢
      rw [e1, e2, e3, e4, e5] at h
      exact h

/-- Every interaction makes the measure smaller, and all stays well. -/
theorem next_less (hc : Ctx q A t ff f') {d e : SDec} {l : Answer} (h : OK q A t ff f' d l) (hn : SNext A d e) : SLess A e d ∧ ∃ l', OK q A t ff f' e l' := by
  have hp := all_prog hc h
  have hg := all_good hc h
  have data : ∀ {d' : SDec} {c : Dec}, sStep d = (d', .ok (.plain .request)) → SameBut d'.core c → BufOK A c → unread A c < unread A d'.core →
      SLess A (withCore d' c) d ∧ ∃ l', OK q A t ff f' (withCore d' c) l' := by
    intro d' c hs hsame hbuf hless
    rw [hs] at hp hg
    refine ⟨?_, ?_⟩
    · cases hp with
      | stop h => rcases h _ rfl with h | h <;> cases h
      | request h1 h2 h3 h4 =>
        refine .inr ⟨h1, .inr ⟨h2, .inr ⟨h3, .inl ?_⟩⟩⟩
        rw [← h4]
        exact hless
      | less h =>
        rcases h with h | ⟨h1, h | ⟨h2, h | ⟨h3, h⟩⟩⟩
        · exact .inl h
        · exact .inr ⟨h1, .inl h⟩
        · exact .inr ⟨h1, .inr ⟨h2, .inl h⟩⟩
        · refine .inr ⟨h1, .inr ⟨h2, .inr ⟨h3, .inl ?_⟩⟩⟩
          show unread A c < _
          rcases h with h | ⟨h, _⟩ <;> omega
    · cases hg with
      | request h1 h2 => exact ⟨_, h2.buffer hsame hbuf⟩
      | see h1 => simp at h1
  cases hn with
  | @go _ ev hs hev =>
    rw [hs] at hp hg
    refine ⟨?_, ?_⟩
    · cases hp with
      | stop h =>
        rcases h _ rfl with h | h
        · cases h
        · injection h with h; subst h; simp at hev
      | request => simp at hev
      | less h => exact h
    · cases hg with
      | request => simp at hev
      | finished => simp at hev
      | step h1 => exact ⟨_, h1⟩
      | see _ h1 => exact ⟨_, h1⟩
  | found hs =>
    rw [hs] at hp hg
    refine ⟨?_, ?_⟩
    · cases hp with
      | stop h => rcases h _ rfl with h | h <;> cases h
      | less h => exact h
    · cases hg with
      | found _ h1 => exact ⟨_, h1⟩
  | seek hs =>
    rw [hs] at hp hg
    refine ⟨?_, ?_⟩
    · cases hp with
      | stop h => rcases h _ rfl with h | h <;> cases h
      | less h => exact h
    · cases hg with
      | seek h1 => exact ⟨_, h1⟩
  | @put d' c p hs hne hpre hput =>
    have hbase : Base q A t ff f' d' := by
      rw [hs] at hg
      cases hg with
      | request h1 h2 => exact h2.base
      | see h1 => simp at h1
    refine data hs (.put hput) (hbase.buf.put hpre hput) ?_
    have hc' : c = { d'.core with buf := d'.core.buf ++ p } := by
      unfold putData at hput
      rw [if_neg hne] at hput
      split at hput
      · cases hput
      · injection hput with hput; exact hput.symm
    have hl := hpre.length_le
    have hpos : 0 < p.length := List.length_pos_iff.2 hne
    unfold requestOffset at hl
    rw [List.length_drop] at hl
    rw [hc']
    unfold unread
    simp only [List.length_append]
    omega
  | @eof d' hs hnil he =>
    have hbase : Base q A t ff f' d' := by
      rw [hs] at hg
      cases hg with
      | request h1 h2 => exact h2.base
      | see h1 => simp at h1
    refine data hs (.eof _) (hbase.buf.putEof hnil) ?_
    unfold unread putEof
    simp only [he, if_true, Bool.false_eq_true, if_false]
    omega

/-- No session goes on for ever. -/
theorem terminates (hc : Ctx q A t ff f') : ∀ {d : SDec} {l : Answer}, OK q A t ff f' d l → Terminates A d := by
  intro d
  induction d using (sless_wf A).induction with
  | _ d ih =>
    intro l h
    refine Acc.intro _ (fun e he => ?_)
    obtain ⟨h1, l', h2⟩ := next_less hc h he
    exact ih e h1 h2

/-- There are sessions. -/
theorem session_exists (hc : Ctx q A t ff f') : ∀ {d : SDec} {l : Answer}, OK q A t ff f' d l → ∃ obs o, SRun A d obs o := by
  intro d
  induction d using (sless_wf A).induction with
  | _ d ih =>
    intro l h
    have next : ∀ e, SNext A d e → ∃ obs o, SRun A e obs o := by
      intro e he
      obtain ⟨h1, l', h2⟩ := next_less hc h he
      exact ih e h1 h2
    generalize hs : sStep d = r
    obtain ⟨d', r⟩ := r
    cases r with
    | err e => exact ⟨_, _, .error hs⟩
    | ub => exact ⟨_, _, .crash hs⟩
    | ok ev =>
      cases ev with
      | seek => obtain ⟨obs, o, hr⟩ := next _ (.seek hs); exact ⟨_, _, .seek hs hr⟩
      | found => obtain ⟨obs, o, hr⟩ := next _ (.found hs); exact ⟨_, _, .found hs hr⟩
      | notFound => exact ⟨_, _, .notFound hs⟩
      | plain ev =>
        have go : ev ∈ [Ev.step, .nextFile, .doneFile, .payload] → ∃ obs o, SRun A d obs o := by
          intro hev
          obtain ⟨obs, o, hr⟩ := next _ (.go hs (by revert hev; simp; rintro (h | h | h | h) <;> simp [h]))
          exact ⟨_, _, .go hs hev hr⟩
        cases ev with
        | finished => exact ⟨_, _, .finished hs⟩
        | step => exact go (by simp)
        | nextFile => exact go (by simp)
        | doneFile => exact go (by simp)
        | payload => exact go (by simp)
        | skip => obtain ⟨obs, o, hr⟩ := next _ (.go hs (by simp)); exact ⟨_, _, .skip hs hr⟩
        | request =>
          by_cases hnil : A.drop (requestOffset d') = []
          · cases he : d'.core.eof with
            | true => exact ⟨_, _, .starved hs hnil he⟩
            | false => obtain ⟨obs, o, hr⟩ := next _ (.eof hs hnil he); exact ⟨_, _, .eof hs hnil he hr⟩
          · cases hp : putData d'.core (A.drop (requestOffset d')) with
            | err e => exact ⟨_, _, .putFails hs hnil List.prefix_rfl hp⟩
            | ub =>
              unfold putData at hp
              rw [if_neg hnil] at hp
              split at hp <;> cases hp
            | ok c => obtain ⟨obs, o, hr⟩ := next _ (.put hs hnil List.prefix_rfl hp); exact ⟨_, _, .put hs hnil List.prefix_rfl hp hr⟩

end Casync.Archive
