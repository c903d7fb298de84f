import Verif.Lemmas.DecoderRun
import Verif.Spec.Decoder
/-!
The session with all data in the buffer, byte by byte; every session is one of these.
-/
namespace Casync.Archive
open Casync Flags

/-- Sessions with everything in the buffer: what is seen, how it ends, and what is left in the buffer then. -/
inductive BRun : Dec → List Atom → Outcome × Bytes → Prop
  | finished {s s'} : stepNode s = (s', .ok .finished) → BRun s [] (.finished, s'.buf)
  | error {s s' e} : stepNode s = (s', .err e) → BRun s [] (.error e, s'.buf)
  | crash {s s'} : stepNode s = (s', .ub) → BRun s [] (.crash, s'.buf)
  | starved {s s'} : stepNode s = (s', .ok .request) → BRun s [] (.starved, s'.buf)
  | go {s s' ev t o} : stepNode s = (s', .ok ev) → ev ∈ [Ev.step, .nextFile, .doneFile] → BRun (advance s') t o →
      BRun s (atoms (observe s' ev) ++ t) o
  | pay {s s' b r t o} : stepNode s = (s', .ok .payload) → s'.buf = b :: r → BRun (advance (setStep s' 1)) t o → BRun s (.byte b :: t) o

theorem BRun.congr {s1 s2 : Dec} {t : List Atom} {o : Outcome × Bytes} (h : stepNode s1 = stepNode s2) (hr : BRun s2 t o) : BRun s1 t o := by
  cases hr with
  | finished a => exact .finished (h.trans a)
  | error a => exact .error (h.trans a)
  | crash a => exact .crash (h.trans a)
  | starved a => exact .starved (h.trans a)
  | go a b c => exact .go (h.trans a) b c
  | pay a b c => exact .pay (h.trans a) b c

theorem BRun.det {s : Dec} {t : List Atom} {o : Outcome × Bytes} (h : BRun s t o) : ∀ {t' o'}, BRun s t' o' → t = t' ∧ o = o' := by
  induction h with
  | finished a =>
    intro t' o' h'
    cases h' with
    | finished b => rw [a] at b; injection b with b; subst b; exact ⟨rfl, rfl⟩
    | error b => rw [a] at b; cases b
    | crash b => rw [a] at b; cases b
    | starved b => rw [a] at b; cases b
    | go b c => rw [a] at b; injection b with _ b; injection b with b; subst b; simp at c
    | pay b c => rw [a] at b; cases b
  | error a =>
    intro t' o' h'
    cases h' with
    | finished b => rw [a] at b; cases b
    | error b => rw [a] at b; injection b with b' b; injection b with b; subst b' b; exact ⟨rfl, rfl⟩
    | crash b => rw [a] at b; cases b
    | starved b => rw [a] at b; cases b
    | go b c => rw [a] at b; cases b
    | pay b c => rw [a] at b; cases b
  | crash a =>
    intro t' o' h'
    cases h' with
    | finished b => rw [a] at b; cases b
    | error b => rw [a] at b; cases b
    | crash b => rw [a] at b; injection b with b; subst b; exact ⟨rfl, rfl⟩
    | starved b => rw [a] at b; cases b
    | go b c => rw [a] at b; cases b
    | pay b c => rw [a] at b; cases b
  | starved a =>
    intro t' o' h'
    cases h' with
    | finished b => rw [a] at b; cases b
    | error b => rw [a] at b; cases b
    | crash b => rw [a] at b; cases b
    | starved b => rw [a] at b; injection b with b; subst b; exact ⟨rfl, rfl⟩
    | go b c => rw [a] at b; injection b with _ b; injection b with b; subst b; simp at c
    | pay b c => rw [a] at b; cases b
  | go a hev _ ih =>
    intro t' o' h'
    cases h' with
    | finished b => rw [a] at b; injection b with _ b; injection b with b; subst b; simp at hev
    | error b => rw [a] at b; cases b
    | crash b => rw [a] at b; cases b
    | starved b => rw [a] at b; injection b with _ b; injection b with b; subst b; simp at hev
    | go b c d =>
      rw [a] at b
      injection b with b1 b2
      injection b2 with b2
      subst b1 b2
      obtain ⟨h1, h2⟩ := ih d
      exact ⟨by rw [h1], h2⟩
    | pay b c => rw [a] at b; injection b with _ b; injection b with b; subst b; simp at hev
  | pay a hb _ ih =>
    intro t' o' h'
    cases h' with
    | finished b => rw [a] at b; cases b
    | error b => rw [a] at b; cases b
    | crash b => rw [a] at b; cases b
    | starved b => rw [a] at b; cases b
    | go b c d => rw [a] at b; injection b with _ b; injection b with b; subst b; simp at c
    | pay b c d =>
      rw [a] at b
      injection b with b1 b2
      subst b1
      rw [hb] at c
      injection c with c1 c2
      subst c1
      obtain ⟨h1, h2⟩ := ih d
      exact ⟨by rw [h1], h2⟩

theorem advance_full (d : Dec) (x : Bytes) (h : d.stepSize ≤ d.buf.length) : advance (full d x) = full (advance d) x := by
  unfold advance full
  simp only [List.drop_append_of_le_length h]

theorem advance_id {d : Dec} (h : d.stepSize = 0) : advance d = d := by
  cases d
  simp only at h
  subst h
  simp [advance]

theorem observe_full (d : Dec) (x : Bytes) (ev : Ev) (h : ev ≠ .payload) : observe (full d x) ev = observe d ev := by
  cases ev <;> first | rfl | exact absurd rfl h

theorem InitOK.advance {d : Dec} (h : InitOK d) : InitOK (advance d) := h

theorem PayAt.full {q : Dec} {k : Nat} (h : PayAt q k) (x : Bytes) : PayAt (full q x) k := by
  obtain ⟨a, b, c, n, rest, m, d1, d2, d3, d4⟩ := h
  exact ⟨a, b, by show k ≤ (q.buf ++ x).length; rw [List.length_append]; omega, n, rest, m, d1, d2, d3, d4⟩

/-- In the middle of a payload the next byte is delivered. -/
theorem PayAt.step {q : Dec} {k : Nat} (h : PayAt q (k + 1)) : ∃ j, 0 < j ∧ stepNode q = (setStep q j, .ok .payload) := by
  obtain ⟨hs, h0, hl, n, rest, m, hn, hm, hreg, hsz⟩ := h
  have hb : q.buf ≠ [] := by intro h; rw [h] at hl; simp at hl
  have hpos : 0 < q.buf.length := List.length_pos_iff.2 hb
  unfold stepNode
  rw [hs]
  simp only
  unfold stepPayload
  rw [hn]
  simp only
  rw [hm]
  simp only
  rw [if_neg (by rw [hreg]; simp)]
  cases hz : nodeSize n with
  | none =>
    rw [if_neg (by unfold pastEnd; rw [hz]; simp), if_neg (by simp), if_pos hb]
    exact ⟨_, hpos, rfl⟩
  | some z =>
    have := hsz z hz
    rw [if_neg (by unfold pastEnd; rw [hz]; simp only [decide_eq_true_eq]; omega), if_neg (by intro h; injection h with h; omega), if_pos hb]
    exact ⟨_, by omega, rfl⟩

theorem PayAt.next {q : Dec} {k : Nat} (h : PayAt q (k + 1)) : PayAt (Archive.advance (setStep q 1)) k := by
  obtain ⟨hs, h0, hl, n, rest, m, hn, hm, hreg, hsz⟩ := h
  refine ⟨hs, rfl, ?_, n, rest, m, hn, hm, hreg, ?_⟩
  · show k ≤ (q.buf.drop 1).length
    rw [List.length_drop]; omega
  · intro sz h
    have := hsz sz h
    have : (Archive.advance (setStep q 1)).payloadOff = q.payloadOff + 1 := by
      unfold Archive.advance setStep
      simp only [hs, if_pos]
    omega

theorem pay_many : ∀ (k : Nat) (q : Dec) (t : List Atom) (o : Outcome × Bytes), PayAt q k → BRun (advance (setStep q k)) t o →
    BRun q ((q.buf.take k).map .byte ++ t) o := by
  intro k
  induction k with
  | zero =>
    intro q t o h hr
    have : advance (setStep q 0) = q := by
      have : setStep q 0 = q := by
        have := h.size0
        cases q; simp only at this; subst this; rfl
      rw [this]
      exact advance_id h.size0
    rw [this] at hr
    simpa using hr
  | succ k ih =>
    intro q t o h hr
    obtain ⟨j, hj, hst⟩ := h.step
    have hl := h.len
    cases hb : q.buf with
    | nil => rw [hb] at hl; simp at hl
    | cons b r =>
      have hn := ih (advance (setStep q 1)) t o h.next ?_
      · have hbuf : (advance (setStep q 1)).buf = r := by show q.buf.drop 1 = r; rw [hb]; rfl
        rw [hbuf] at hn
        have := BRun.pay hst (show (setStep q j).buf = b :: r from hb) (by exact hn)
        simpa using this
      · have : advance (setStep (advance (setStep q 1)) k) = advance (setStep q (k + 1)) := by
          unfold advance setStep
          simp only [h.state, if_pos, List.drop_drop]
          congr 1 <;> first | omega | (rw [Nat.add_comm])
        rw [this]
        exact hr

theorem atoms_append (a b : List Obs) : atoms (a ++ b) = atoms a ++ atoms b := by
  unfold atoms; rw [List.flatMap_append]

theorem step_eq {d : Dec} (h : d.stepSize ≤ d.buf.length) : (step d).2 = (stepNode (advance d)).2 ∧
    ((step d).2 ≠ .ok .finished → step d = stepNode (advance d)) := by
  unfold step
  by_cases c : d.state = .eof
  · rw [if_pos c]
    have : stepNode (advance d) = (advance d, .ok .finished) := by
      unfold stepNode
      rw [show (advance d).state = .eof from c]
    rw [this]
    exact ⟨rfl, fun h => absurd rfl h⟩
  · rw [if_neg c, if_neg (by omega)]
    exact ⟨rfl, fun _ => rfl⟩

/-- What holds of the decoder of a session between two calls, `ps` being what is still to come. -/
structure Ready (d : Dec) (ps : List Bytes) : Prop where
  size : d.stepSize ≤ d.buf.length
  want : d.cfg.wantPayload = true
  init : InitOK d
  done : d.eof = false ∨ ps.flatten = []

theorem Run.full {d : Dec} {ps : List Bytes} {t : List Obs} {o : Outcome} (h : Run d ps t o) (hr : Ready d ps) :
    ∃ r, BRun (full (advance d) ps.flatten) (atoms t) (o, r) := by
  induction h with
  | @finished d d' ps hst =>
    have hsim := stepNode_sim (advance d) ps.flatten hr.done rfl hr.want hr.init.advance
    have h2 := (step_eq hr.size).1
    rw [hst] at h2
    generalize stepNode (advance d) = p at hsim h2
    cases hsim with
    | same a1 a2 a3 a4 a5 a6 a7 a8 a9 => simp only at h2; subst h2; exact ⟨_, .finished a9⟩
    | request => cases h2
    | payload => cases h2
  | @error d d' ps e hst =>
    have hsim := stepNode_sim (advance d) ps.flatten hr.done rfl hr.want hr.init.advance
    have h2 := (step_eq hr.size).1
    rw [hst] at h2
    generalize stepNode (advance d) = p at hsim h2
    cases hsim with
    | same a1 a2 a3 a4 a5 a6 a7 a8 a9 => simp only at h2; subst h2; exact ⟨_, .error a9⟩
    | request => cases h2
    | payload => cases h2
  | @crash d d' ps hst =>
    have hsim := stepNode_sim (advance d) ps.flatten hr.done rfl hr.want hr.init.advance
    have h2 := (step_eq hr.size).1
    rw [hst] at h2
    generalize stepNode (advance d) = p at hsim h2
    cases hsim with
    | same a1 a2 a3 a4 a5 a6 a7 a8 a9 => simp only at h2; subst h2; exact ⟨_, .crash a9⟩
    | request => cases h2
    | payload => cases h2
  | @go d d' ps ev t o hst hev _ ih =>
    have hsim := stepNode_sim (advance d) ps.flatten hr.done rfl hr.want hr.init.advance
    have h2 := (step_eq hr.size).2 (by rw [hst]; intro h; injection h with h; subst h; simp at hev)
    rw [hst] at h2
    rw [← h2] at hsim
    rw [atoms_append]
    generalize hres : (Res.ok ev : Res Ev) = r at hsim
    generalize hd' : d' = d1 at hsim
    cases hsim with
    | same a1 a2 a3 a4 a5 a6 a7 a8 a9 =>
      subst hres hd'
      obtain ⟨rr, hi⟩ := ih ⟨a4, by rw [a3]; exact hr.want, a5, by rw [a2]; exact hr.done⟩
      rw [← advance_full _ _ a4] at hi
      have hev' : ev ≠ .payload := fun h => a7 (by rw [h])
      rw [← observe_full d' ps.flatten ev hev']
      refine ⟨rr, .go a9 ?_ hi⟩
      simpa [hev'] using hev
    | request => injection hres with hres; subst hres; simp at hev
    | @payload q k a1 a2 a3 a4 a5 a6 =>
      injection hres with hres
      subst hres hd'
      obtain ⟨rr, hi⟩ := ih ⟨a5.len, by show q.cfg.wantPayload = true; rw [a3]; exact hr.want, (fun h => by
        rw [show (setStep q k).state = .inPayload from a5.state] at h; cases h), by show q.eof = false ∨ _; rw [a2]; exact hr.done⟩
      rw [← advance_full _ _ a5.len] at hi
      have hp := pay_many k (Archive.full q ps.flatten) (atoms t) (o, rr) (a5.full _) hi
      have hfe : stepNode (Archive.full (advance d) ps.flatten) = stepNode (Archive.full q ps.flatten) := by
        rw [a6]
        conv => rhs; unfold stepNode
        rw [show (Archive.full q ps.flatten).state = .inPayload from a5.state]
      have : atoms (observe (setStep q k) .payload) = ((Archive.full q ps.flatten).buf.take k).map .byte := by
        show List.flatMap Obs.atoms [.payload (q.buf.take k)] = _
        rw [show (Archive.full q ps.flatten).buf = q.buf ++ ps.flatten from rfl, List.take_append_of_le_length a5.len]
        simp [Obs.atoms]
      rw [this]
      exact ⟨rr, hp.congr hfe⟩
  | @put d d' d'' p ps t o hst hput _ ih =>
    have hsim := stepNode_sim (advance d) (p :: ps).flatten hr.done rfl hr.want hr.init.advance
    have h2 := (step_eq hr.size).2 (by rw [hst]; simp)
    rw [hst] at h2
    rw [← h2] at hsim
    generalize hd' : d' = d1 at hsim
    cases hsim with
    | same a1 a2 a3 a4 a5 a6 => exact absurd rfl a6
    | request a1 a2 a3 a4 a5 a6 =>
      subst hd'
      unfold putData at hput
      have hd : d'' = { d' with buf := d'.buf ++ p } := by
        by_cases c : p = []
        · rw [if_pos c] at hput; injection hput with hput; rw [← hput, c, List.append_nil]
        · rw [if_neg c] at hput
          split at hput
          · cases hput
          · injection hput with hput; exact hput.symm
      obtain ⟨rr, hi⟩ := ih ⟨by rw [hd]; show d'.stepSize ≤ _; rw [a4]; exact Nat.zero_le _, by rw [hd]; show d'.cfg.wantPayload = true; rw [a3]; exact hr.want,
        by rw [hd]; exact a5, by
          rw [hd]; show d'.eof = false ∨ _; rw [a2]
          rcases hr.done with h | h
          · exact Or.inl h
          · right; rw [List.flatten_cons] at h; exact (List.append_eq_nil_iff.1 h).2⟩
      rw [advance_id (by rw [hd]; exact a4)] at hi
      have : Archive.full d'' ps.flatten = Archive.full d' (p :: ps).flatten := by
        rw [hd]; unfold Archive.full; simp only [List.flatten_cons, List.append_assoc]
      rw [this] at hi
      exact ⟨rr, hi.congr a6.symm⟩
  | @putFails d d' p ps e hst hput =>
    exfalso
    have h2 := (step_eq hr.size).2 (by rw [hst]; simp)
    rw [hst] at h2
    have hsim := stepNode_sim (advance d) (p :: ps).flatten hr.done rfl hr.want hr.init.advance
    rw [← h2] at hsim
    generalize hd' : d' = d1 at hsim
    cases hsim with
    | same a1 a2 a3 a4 a5 a6 => exact absurd rfl a6
    | request a1 a2 a3 a4 a5 a6 =>
      subst hd'
      unfold putData at hput
      by_cases c : p = []
      · rw [if_pos c] at hput; cases hput
      · rw [if_neg c] at hput
        rcases hr.done with h | h
        · rw [if_neg (by rw [a2]; show ¬ (d.eof = true); rw [h]; simp)] at hput; cases hput
        · rw [List.flatten_cons] at h; exact c (List.append_eq_nil_iff.1 h).1
  | @eof d d' t o hst he _ ih =>
    have h2 := (step_eq hr.size).2 (by rw [hst]; simp)
    rw [hst] at h2
    have hsim := stepNode_sim (advance d) ([] : List Bytes).flatten hr.done rfl hr.want hr.init.advance
    rw [← h2] at hsim
    generalize hd' : d' = d1 at hsim
    cases hsim with
    | same a1 a2 a3 a4 a5 a6 => exact absurd rfl a6
    | request a1 a2 a3 a4 a5 a6 =>
      subst hd'
      obtain ⟨rr, hi⟩ := ih ⟨by show d'.stepSize ≤ _; rw [a4]; exact Nat.zero_le _, by show d'.cfg.wantPayload = true; rw [a3]; exact hr.want, a5, Or.inr rfl⟩
      rw [advance_id (show (putEof d').stepSize = 0 from a4)] at hi
      exact ⟨rr, hi.congr a6.symm⟩
  | @starved d d' hst he =>
    have h2 := (step_eq hr.size).2 (by rw [hst]; simp)
    rw [hst] at h2
    have hsim := stepNode_sim (advance d) ([] : List Bytes).flatten hr.done rfl hr.want hr.init.advance
    rw [← h2] at hsim
    generalize hd' : d' = d1 at hsim
    cases hsim with
    | same a1 a2 a3 a4 a5 a6 => exact absurd rfl a6
    | request a1 a2 a3 a4 a5 a6 =>
      subst hd'
      have hed : (advance d).eof = true := by rw [← a2]; exact he
      refine ⟨_, .starved (s' := d') ?_⟩
      rw [show ([] : List Bytes).flatten = [] from rfl, full_nil hed, ← h2]
  | @skip d d' ps t o hst _ _ =>
    exfalso
    have h2 := (step_eq hr.size).2 (by rw [hst]; simp)
    rw [hst] at h2
    have hsim := stepNode_sim (advance d) ps.flatten hr.done rfl hr.want hr.init.advance
    rw [← h2] at hsim
    generalize hd' : d' = d1 at hsim
    cases hsim with
    | same a1 a2 a3 a4 a5 a6 a7 a8 => exact absurd rfl a8

/-! ### Every session ends -/

/-- A weight that goes down with every step that does not ask for data. -/
def rank : DState → Nat
  | .init => 3 | .entered => 3 | .entry => 3 | .inPayload => 3 | .skipping => 2 | .goodbye => 2 | .finalize => 1 | .inDirectory => 0 | .eof => 0

def weight (d : Dec) : Nat := 4 * (d.buf.length - d.stepSize) + 4 * d.nodes.length + rank d.state

structure Prog (s : Dec) (p : Dec × Res Ev) : Prop where
  eof : p.1.eof = s.eof
  size : p.1.stepSize ≤ p.1.buf.length
  less : ∀ ev, p.2 = .ok ev → ev ≠ .request → ev ≠ .finished → weight p.1 < weight s

theorem stepFinalize_prog (s : Dec) (h0 : s.stepSize = 0) (hs : 1 ≤ rank s.state) : Prog s (stepFinalize s) := by
  unfold stepFinalize
  split
  · exact ⟨rfl, by rw [h0]; exact Nat.zero_le _, by intro ev h; cases h⟩
  rename_i a r hn
  split
  · exact ⟨rfl, Nat.zero_le _, by intro ev h; injection h with h; subst h; intro _ h; exact absurd rfl h⟩
  · refine ⟨rfl, Nat.zero_le _, ?_⟩
    intro ev _ _ _
    unfold weight
    simp only [enterState, hn, h0, rank, List.length_cons]
    omega

theorem stepPayload_prog (s : Dec) (hs : s.state = .inPayload) (h0 : s.stepSize = 0) : Prog s (stepPayload s) := by
  have hk := stepPayload_keeps s hs h0
  have hr := stepPayload_res s hs h0
  refine ⟨hk.eof, hk.size, ?_⟩
  generalize stepPayload s = p at hr
  cases hr with
  | err => intro ev h; cases h
  | crash => intro ev h; cases h
  | request => intro ev h; injection h with h; subst h; intro h; exact absurd rfl h
  | finished => intro ev h; injection h with h; subst h; intro _ h; exact absurd rfl h
  | doneFile => intro ev _ _ _; unfold weight; simp only [enterState, h0, hs, rank]; omega
  | skip => intro ev _ _ _; unfold weight; simp only [enterState, setSkip, h0, hs, rank]; omega
  | payload k hk ha =>
    intro ev _ _ _
    have := ha.len
    unfold weight
    simp only [setStep, h0, hs, rank]
    omega

theorem stepDirectory_prog (s : Dec) (h0 : s.stepSize = 0) : Prog s (stepDirectory s) := by
  unfold stepDirectory
  have hsz : s.stepSize ≤ s.buf.length := by rw [h0]; exact Nat.zero_le _
  cases hn : s.nodes with
  | nil => exact ⟨rfl, hsz, by intro ev h; cases h⟩
  | cons n rest =>
    simp only
    cases nodeMode s n with
    | none => exact ⟨rfl, hsz, by intro ev h; cases h⟩
    | some m =>
      simp only
      by_cases c1 : (!isType m ifDir) = true
      · rw [if_pos c1]; exact ⟨rfl, hsz, by intro ev h; cases h⟩
      rw [if_neg c1]
      cases hp : parseDirRec s.buf with
      | request => exact ⟨rfl, hsz, by intro ev h; injection h with h; subst h; intro h; exact absurd rfl h⟩
      | err e => exact ⟨rfl, hsz, by intro ev h; cases h⟩
      | ok a =>
        obtain ⟨r, l⟩ := a
        have hl := parseDirRec_size hp
        cases r with
        | filename name =>
          simp only
          by_cases c2 : (n :: rest).length ≥ nodesMax
          · rw [if_pos c2]; exact ⟨rfl, hsz, by intro ev h; cases h⟩
          · rw [if_neg c2]
            refine ⟨rfl, hl.2, ?_⟩
            intro ev _ _ _
            unfold weight
            simp only [enterState, setStep, hn, h0, rank, List.length_cons]
            omega
        | goodbye tb eo =>
          simp only
          by_cases c2 : eo ≠ s.archiveOff - n.entryOff
          · rw [if_pos c2]; exact ⟨rfl, hsz, by intro ev h; cases h⟩
          · rw [if_neg c2]
            refine ⟨rfl, hl.2, ?_⟩
            intro ev _ _ _
            unfold weight
            simp only [enterState, setStep, hn, h0, rank, List.length_cons]
            omega

theorem stepParse_prog (s : Dec) (h0 : s.stepSize = 0) : Prog s (stepParse s) := by
  unfold stepParse
  have hsz : s.stepSize ≤ s.buf.length := by rw [h0]; exact Nat.zero_le _
  cases hn : s.nodes with
  | nil => exact ⟨rfl, hsz, by intro ev h; cases h⟩
  | cons n rest =>
    simp only
    generalize hp : parseEntry s.ff (rest == []) s.buf = p
    obtain ⟨ff, r⟩ := p
    cases r with
    | request => exact ⟨rfl, hsz, by intro ev h; injection h with h; subst h; intro h; exact absurd rfl h⟩
    | err e => exact ⟨rfl, hsz, by intro ev h; cases h⟩
    | ok a =>
      obtain ⟨pp, off⟩ := a
      have hl := parseEntry_off hp
      refine ⟨rfl, hl.2, ?_⟩
      intro ev _ _ _
      unfold weight
      simp only [enterState, setStep, hn, h0, rank, List.length_cons]
      omega

theorem Prog.mono {s s1 : Dec} {p : Dec × Res Ev} (h : Prog s1 p) (he : s1.eof = s.eof) (hw : weight s1 ≤ weight s) : Prog s p :=
  ⟨h.eof.trans he, h.size, fun ev a b c => Nat.lt_of_lt_of_le (h.less ev a b c) hw⟩

theorem stepNode_prog (s : Dec) (h0 : s.stepSize = 0) : Prog s (stepNode s) := by
  have hsz : s.stepSize ≤ s.buf.length := by rw [h0]; exact Nat.zero_le _
  unfold stepNode
  cases hs : s.state with
  | init =>
    simp only
    split
    · exact (stepPayload_prog (enterState s .inPayload) rfl rfl).mono rfl (by unfold weight; simp only [enterState, hs, h0, rank]; omega)
    · exact stepParse_prog s h0
  | entered => exact stepParse_prog s h0
  | entry =>
    simp only
    cases s.nodes with
    | nil => exact ⟨rfl, hsz, by intro ev h; cases h⟩
    | cons n rest =>
      simp only
      cases nodeMode s n with
      | none => exact ⟨rfl, hsz, by intro ev h; cases h⟩
      | some m =>
        simp only
        split
        · exact (stepPayload_prog (enterState s .inPayload) rfl rfl).mono rfl (by unfold weight; simp only [enterState, hs, h0, rank]; omega)
        · split
          · exact (stepDirectory_prog (enterState s .inDirectory) rfl).mono rfl (by unfold weight; simp only [enterState, hs, h0, rank]; omega)
          · exact ⟨rfl, Nat.zero_le _, by intro ev _ _ _; unfold weight; simp only [enterState, hs, h0, rank]; omega⟩
  | inPayload => exact stepPayload_prog s hs h0
  | skipping => exact ⟨rfl, Nat.zero_le _, by intro ev _ _ _; unfold weight; simp only [enterState, hs, h0, rank]; omega⟩
  | inDirectory => exact stepDirectory_prog s h0
  | goodbye => exact ⟨rfl, Nat.zero_le _, by intro ev _ _ _; unfold weight; simp only [enterState, hs, h0, rank]; omega⟩
  | finalize => exact stepFinalize_prog s h0 (by rw [hs]; exact Nat.le_refl _)
  | eof => exact ⟨rfl, hsz, by intro ev h; injection h with h; subst h; intro _ h; exact absurd rfl h⟩

theorem dropPieces_length : ∀ (ps : List Bytes) (n : Nat), (dropPieces n ps).length ≤ ps.length := by
  intro ps
  induction ps with
  | nil => intro n; exact Nat.le_refl _
  | cons p ps ih =>
    intro n
    unfold dropPieces
    split
    · have := ih (n - p.length); simp only [List.length_cons]; omega
    · simp

theorem Run.exists_of : ∀ (a w : Nat) (d : Dec) (ps : List Bytes), 2 * ps.length + (if d.eof then 0 else 1) = a → weight d = w →
    d.stepSize ≤ d.buf.length → ∃ t o, Run d ps t o := by
  intro a
  induction a using Nat.strongRecOn with
  | ind a iha =>
    intro w
    induction w using Nat.strongRecOn with
    | ind w ihw =>
      intro d ps ha hw hsz
      by_cases hfin : (step d).2 = .ok .finished
      · exact ⟨[], .finished, .finished (d' := (step d).1) (by rw [← hfin])⟩
      have hst := (step_eq hsz).2 hfin
      have hp := stepNode_prog (advance d) rfl
      rw [← hst] at hp
      have hwa : weight (advance d) ≤ weight d := by
        unfold weight
        have : (advance d).buf.length = d.buf.length - d.stepSize := by show (d.buf.drop d.stepSize).length = _; rw [List.length_drop]
        rw [this]
        exact Nat.le_refl _
      generalize hsd : step d = p at hp
      obtain ⟨d', r⟩ := p
      have heof : d'.eof = d.eof := hp.eof
      cases r with
      | err e => exact ⟨[], .error e, .error hsd⟩
      | ub => exact ⟨[], .crash, .crash hsd⟩
      | ok ev =>
        have hless : ev ≠ .request → ev ≠ .finished → ∃ w', weight d' = w' ∧ w' < w := fun h1 h2 =>
          ⟨_, rfl, by have := hp.less ev rfl h1 h2; simp only at this; omega⟩
        have go : ev ∈ [Ev.step, .nextFile, .doneFile, .payload] → ∃ t o, Run d ps t o := by
          intro hev
          obtain ⟨w', h1, h2⟩ := hless (by intro h; subst h; simp at hev) (by intro h; subst h; simp at hev)
          obtain ⟨t, o, hr⟩ := ihw w' h2 d' ps (by rw [heof]; exact ha) h1 hp.size
          exact ⟨_, _, .go hsd hev hr⟩
        cases ev with
        | finished => rw [hsd] at hfin; exact absurd rfl hfin
        | step => exact go (by simp)
        | nextFile => exact go (by simp)
        | doneFile => exact go (by simp)
        | payload => exact go (by simp)
        | skip =>
          obtain ⟨w', h1, h2⟩ := hless (by simp) (by simp)
          have hlen := dropPieces_length ps d'.skip
          by_cases c : 2 * (dropPieces d'.skip ps).length + (if d'.eof then 0 else 1) = a
          · obtain ⟨t, o, hr⟩ := ihw w' h2 d' _ c h1 hp.size
            exact ⟨_, _, .skip hsd hr⟩
          · obtain ⟨t, o, hr⟩ := iha _ (by rw [heof] at c ⊢; omega) w' d' (dropPieces d'.skip ps) rfl h1 hp.size
            exact ⟨_, _, .skip hsd hr⟩
        | request =>
          cases ps with
          | nil =>
            cases he : d'.eof with
            | true => exact ⟨_, _, .starved hsd he⟩
            | false =>
              obtain ⟨t, o, hr⟩ := iha 0 (by
                rw [← ha, ← heof, he]; simp) (weight (putEof d')) (putEof d') [] (by simp [putEof]) rfl hp.size
              exact ⟨_, _, .eof hsd he hr⟩
          | cons q ps =>
            cases hq : putData d' q with
            | err e => exact ⟨_, _, .putFails hsd hq⟩
            | ub =>
              exfalso
              unfold putData at hq
              split at hq
              · cases hq
              · split at hq <;> cases hq
            | ok d'' =>
              have hd : d'' = { d' with buf := d'.buf ++ q } := by
                unfold putData at hq
                by_cases c : q = []
                · rw [if_pos c] at hq; injection hq with hq; rw [← hq, c, List.append_nil]
                · rw [if_neg c] at hq
                  split at hq
                  · cases hq
                  · injection hq with hq; exact hq.symm
              obtain ⟨t, o, hr⟩ := iha _ (by
                rw [← ha, ← heof, hd]; simp only [List.length_cons]; omega) (weight d'') d'' ps rfl rfl (by
                  rw [hd]; show d'.stepSize ≤ (d'.buf ++ q).length; rw [List.length_append]; have := hp.size; simp only at this; omega)
              exact ⟨_, _, .put hsd hq hr⟩

end Casync.Archive
