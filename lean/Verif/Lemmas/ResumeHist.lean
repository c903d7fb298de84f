import Verif.Lemmas.ResumeSeek
/-!
What holds at every point of a history of steps and seeks.
-/
namespace Casync.Resume
open Casync Archive

theorem stepDirents_data {e e' : Enc} {n : ENode} {rest : List ENode} {ev : EEv} (h : Archive.stepDirents e n rest = (e', .ok ev)) : ev = .data := by
  unfold Archive.stepDirents at h
  split at h
  · injection h with _ h; injection h with h; exact h.symm
  · split at h
    · injection h with _ h; cases h
    · split at h
      · injection h with _ h; injection h with h; exact h.symm
      · injection h with _ h; injection h with h; exact h.symm

theorem stepEntered_next {e e' : Enc} {ev : EEv} (h : Archive.stepEntered e = (e', .ok ev)) : ev = .nextFile := by
  unfold Archive.stepEntered at h
  split at h
  · injection h with _ h; cases h
  · injection h with _ h; injection h with h; exact h.symm

theorem stepEPayload_done {e e' : Enc} (h : stepEPayload e = (e', .ok .doneFile)) : e'.state = .finalize := by
  unfold stepEPayload at h
  split at h
  · injection h with _ h; cases h
  · split at h
    · split at h
      · split at h
        · injection h with _ h; cases h
        · injection h with h _; subst h; rfl
      · injection h with _ h; cases h
    · injection h with _ h; cases h

theorem eStep_done {e e' : Enc} (h : eStep e = (e', .ok .doneFile)) : e'.state = .finalize := by
  unfold eStep at h
  split at h
  · injection h with _ h; cases h
  · rename_i hne
    unfold eStepNode at h
    split at h
    · injection h with _ h; cases h
    · cases hs : (eAdvance e).state <;> rw [hs] at h <;> simp only at h
      case init =>
        split at h
        · exact stepEPayload_done h
        · cases stepEntered_next h
      case entered => cases stepEntered_next h
      case entry =>
        split at h
        · exact stepEPayload_done h
        · cases stepDirents_data h
        · injection h with _ h; cases h
        · injection h with h _; subst h; rfl
      case inPayload => exact stepEPayload_done h
      case nextDirent => cases stepDirents_data h
      case firstDirent => cases stepDirents_data h
      case filename =>
        split at h
        · cases stepEntered_next h
        · injection h with _ h; cases h
      case goodbye => injection h with h _; subst h; rfl
      case finalize =>
        split at h
        · injection h with _ h; cases h
        · cases stepDirents_data h
      case eof => injection h with _ h; cases h

theorem stepEPayload_end {e e' : Enc} (h : stepEPayload e = (e', .ok .finished)) : e'.state = .eof ∧ e'.buf = e.buf := by
  unfold stepEPayload at h
  split at h
  · injection h with _ h; cases h
  · split at h
    · split at h
      · split at h
        · injection h with h _; subst h; exact ⟨rfl, rfl⟩
        · injection h with _ h; cases h
      · injection h with _ h; cases h
    · injection h with _ h; cases h

/-- The step that finds the end. -/
theorem eStep_end {e e' : Enc} (h : eStep e = (e', .ok .finished)) : e'.state = .eof ∧ (e.state = .eof → e' = e) ∧ (e.state ≠ .eof → e'.buf = []) := by
  unfold eStep at h
  split at h
  · rename_i hs
    injection h with h _
    subst h
    exact ⟨hs, fun _ => rfl, fun hh => absurd hs hh⟩
  · rename_i hne
    suffices e'.state = .eof ∧ e'.buf = [] by exact ⟨this.1, fun hh => absurd hh hne, fun _ => this.2⟩
    have hb : (eAdvance e).buf = [] := rfl
    unfold eStepNode at h
    split at h
    · injection h with _ h; cases h
    · cases hs : (eAdvance e).state <;> rw [hs] at h <;> simp only at h
      case init =>
        split at h
        · have := stepEPayload_end h; exact ⟨this.1, this.2⟩
        · cases stepEntered_next h
      case entered => cases stepEntered_next h
      case entry =>
        split at h
        · have := stepEPayload_end h; exact ⟨this.1, this.2⟩
        · cases stepDirents_data h
        · injection h with _ h; cases h
        · injection h with _ h; cases h
      case inPayload => have := stepEPayload_end h; exact ⟨this.1, this.2⟩
      case nextDirent => cases stepDirents_data h
      case firstDirent => cases stepDirents_data h
      case filename =>
        split at h
        · cases stepEntered_next h
        · injection h with _ h; cases h
      case goodbye => injection h with _ h; cases h
      case finalize =>
        split at h
        · injection h with h _; subst h; exact ⟨rfl, rfl⟩
        · cases stepDirents_data h
      case eof => injection h with h _; subst h; exact ⟨hs, hb⟩

theorem ERun.steps {q : List Goodbye.NameItem → List Goodbye.NameItem} {sz : Nat → Option Nat} {e : Enc} {b : Bytes} (h : ERun q sz e b .finished) : ∃ e' ev, eStep e = (e', .ok ev) := by
  cases h with
  | finished a => exact ⟨_, _, a⟩
  | done a _ => exact ⟨_, _, a⟩
  | data a _ _ _ => exact ⟨_, _, a⟩

/-- The data in the buffer was fetched at this point. -/
def Held (env : Env) (A : Bytes) (s : REnc) : Prop :=
  Fetched env.qsort (toEnc env { s with buf := [] }) s.buf ∧ PayOK env { s with buf := [] } ∧ RestD env.qsort A (toEnc env { s with buf := [] })

structure HInv (env : Env) (R : Obj) (A : Bytes) (pos a : Nat) (st due : Bool) (s : REnc) : Prop where
  inv : RInv env R st a s
  bound : pos ≤ A.length
  todo : due = true → pos = a ∧ s.buf = [] ∧ PayOK env s ∧ RestD env.qsort A (toEnc env s) ∧ LeftE env.qsort (toEnc env s)
  done : due = false → pos = a + s.buf.length ∧ RestE env.qsort A (toEnc env s) ∧ (Held env A s ∨ (s.buf = [] ∧ ∀ v, reported s ≠ .ok v))

section
variable {env : Env} {R : Obj}

theorem positive_none : Positive (fun _ => none) := by intro n m hm; cases hm

theorem HInv.start (hf : Fine env R) (hq : Goodbye.Sorts env.qsort) : HInv env R (archiveOf env R) 0 0 false false (rStart R) := by
  have hinv : RInv env R false 0 (rStart R) := by
    refine ⟨.root rfl rfl, rfl, .nil, .refl, fun _ => rfl, Nat.zero_le _, ?_⟩
    unfold StateOK
    rfl
  refine ⟨hinv, Nat.zero_le _, by simp, fun _ => ⟨rfl, ?_, .inr ⟨rfl, by intro v hv; cases hv⟩⟩⟩
  intro sz hp
  have e1 : toEnc env (rStart R) = eStart (view env [] R) := by
    unfold toEnc rStart eStart
    simp only [List.map_cons, List.map_nil]
    rw [toENode_opened]
    rfl
  rw [e1]
  show ERun env.qsort sz (eStart (view env [] R)) (archiveOf env R) .finished
  rcases hf.root with h | ⟨e, a, api, c, h⟩
  · have ht : (view env [] R).isDir = true := by
      cases R with
      | leaf l => cases h
      | dir e a api own k => unfold view Tree.isDir; rfl
    have := C25_session_exists (q := env.qsort) hq _ ht hf.depth sz hp
    unfold archiveOf
    split
    · cases h
    · exact this
  · subst h
    unfold archiveOf view
    simp only [Leaf.tree]
    exact ERun.congr (e2 := eat .inPayload [freshNode (.file e a api c)] 0) rfl (naked_content rfl c.length sz 0 0 (by omega) (by omega) hp)

variable {A : Bytes} {pos a : Nat} {st due : Bool} {s : REnc}

theorem HInv.more (hf : Fine env R) (hA : A.length < u64max) (h : HInv env R A pos a st false s) {s' : REnc} {ev : EEv} (hs : step env s = (s', .ok ev)) (hne : ev ≠ .finished) :
    HInv env R A pos pos false (hasData ev) s' := by
  obtain ⟨d1, d2, _⟩ := h.done rfl
  obtain ⟨e', ev', g⟩ := ERun.steps (d2 _ positive_none)
  have hb := h.bound
  obtain ⟨s1, h1, h2, h3⟩ := step_sim hf h.inv (by omega) g
  rw [hs] at h1
  injection h1 with h1 h4
  injection h4 with h4
  subst h1 h4
  have hsh := eStep_shape g hne
  have hnst : ¬ s.state = .eof := hsh.1
  rw [if_neg hnst, ← d1] at h3
  rw [show (st && decide (s.state = .eof)) = false by simp [hnst]] at h3
  rw [← h2] at hsh
  have hb' : s'.buf = [] := hsh.2.1
  have hr := d2.step g hne
  rw [← h2] at hr
  refine ⟨h3, hb, fun hd => ⟨rfl, hb', payOK_zero hsh.2.2.2, hr.1 hd, by rw [h2]; exact (eStep_busy g hd).left⟩, fun hd => ⟨by rw [hb']; rfl, hr.2 hd, .inr ⟨hb', ?_⟩⟩⟩
  have : ev = .doneFile := by cases ev <;> simp_all [hasData]
  subst this
  have hfin := eStep_done g
  rw [← h2] at hfin
  have hfin : s'.state = .finalize := hfin
  intro v hv
  unfold reported at hv
  rw [hfin] at hv
  cases hv

/-- The end was found. -/
theorem HInv.finish (hf : Fine env R) (hA : A.length < u64max) (h : HInv env R A pos a st false s) {s' : REnc} (hs : step env s = (s', .ok .finished)) :
    ∃ a', HInv env R A pos a' false false s' := by
  obtain ⟨d1, d2, d3⟩ := h.done rfl
  obtain ⟨e', ev', g⟩ := ERun.steps (d2 _ positive_none)
  have hb := h.bound
  obtain ⟨s1, h1, h2, h3⟩ := step_sim hf h.inv (by omega) g
  rw [hs] at h1
  injection h1 with h1 h4
  injection h4 with h4
  subst h1 h4
  obtain ⟨f1, f2, f3⟩ := eStep_end g
  by_cases he : s.state = .eof
  · have hss : s' = s := by
      unfold step at hs
      rw [if_pos he] at hs
      injection hs with hs _
      exact hs.symm
    subst hss
    refine ⟨a, ⟨h.inv.spine, h.inv.off, h.inv.tabs, h.inv.suff, h.inv.leaf, h.inv.pay, ?_⟩, hb, by simp, fun _ => ⟨d1, d2, d3⟩⟩
    have := h.inv.state
    unfold StateOK at this ⊢
    rw [he] at this ⊢
    exact this
  · have hf' : s'.state = .eof := by rw [← h2] at f1; exact f1
    have hbuf : s'.buf = [] := by have := f3 he; rw [← h2] at this; exact this
    rw [if_neg he, ← d1, show (st && decide (s.state = .eof)) = false by simp [he]] at h3
    refine ⟨pos, h3, hb, by simp, fun _ => ⟨by rw [hbuf]; rfl, ?_, .inr ⟨hbuf, ?_⟩⟩⟩
    · intro sz hp
      have hoff : (toEnc env s').archiveOff + (toEnc env s').buf.length = pos := by
        unfold toEnc; simp only [h3.off, Option.getD_some, hbuf, List.length_nil, Nat.add_zero]
      have hoff' : (toEnc env s).archiveOff + (toEnc env s).buf.length = pos := by
        rw [d1]; unfold toEnc; simp only [h.inv.off, Option.getD_some]
      have hr := d2 sz hp
      rw [hoff'] at hr
      rw [hoff]
      rcases ERun.after hr g with ⟨_, c⟩ | ⟨c, _⟩ | ⟨c, _⟩
      · rw [c]
        refine .finished (e' := toEnc env s') ?_
        unfold eStep
        rw [if_pos (show (toEnc env s').state = .eof from hf')]
      · cases c
      · cases c
    · intro v hv
      unfold reported at hv
      rw [hf'] at hv
      cases hv

/-- Data is kept in the buffer. -/
theorem HInv.keep (h : HInv env R A pos a st true s) {x : Bytes} (hx : Fetched env.qsort (toEnc env s) x) (hne : x ≠ []) (hi : RInv env R st a { s with buf := x }) :
    HInv env R A (pos + x.length) a st false { s with buf := x } := by
  obtain ⟨d1, d2, d3, d4, d5⟩ := h.todo rfl
  have hs : ({ s with buf := [] } : REnc) = s := by
    obtain ⟨s1, s2, s3, s4, s5, s6, s7⟩ := s
    simp only at d2
    rw [d2]
  have hle := hx.le d4 d2 hne
  have hoff : (toEnc env s).archiveOff = a := by unfold toEnc; simp only [h.inv.off, Option.getD_some]
  refine ⟨hi, by omega, by simp, fun _ => ⟨by rw [d1], hx.rest d4 d2, .inl ?_⟩⟩
  show Fetched env.qsort (toEnc env { s with buf := [] }) x ∧ PayOK env { s with buf := [] } ∧ RestD env.qsort A (toEnc env { s with buf := [] })
  rw [hs]
  exact ⟨hx, d3, d4⟩

theorem HInv.fetch (hf : Fine env R) (hA : A.length < u64max) (h : HInv env R A pos a st true s) {k : Option Nat} (hk : NotEmpty k) :
    ∃ x, x ≠ [] ∧ getData env s k = ({ s with buf := x }, .ok x) ∧ makeData env.qsort (toEnc env s) k = .ok x ∧ HInv env R A (pos + x.length) a st false { s with buf := x } := by
  obtain ⟨d1, d2, d3, d4, d5⟩ := h.todo rfl
  obtain ⟨e1, x, b, g, _, _⟩ := d4 (scons k (fun _ => none)) (Positive.scons hk positive_none)
  have hb := h.bound
  obtain ⟨g1, g2, g3⟩ := getData_sim hf h.inv (by omega) d2 d3 g
  obtain ⟨m1, m2⟩ := getData_shape (e := toEnc env s) d2 g
  have hne := d5 k x hk m2
  exact ⟨x, hne, g1, m2, h.keep (.inl ⟨k, hk, m2⟩) hne g3⟩

/-- Skipping instead. -/
theorem HInv.pass (hf : Fine env R) (hA : A.length < u64max) (h : HInv env R A pos a st true s) {k : Option Nat} (hk : NotEmpty k) :
    ∃ x, x ≠ [] ∧ skipData env s k = ({ s with buf := x }, .ok x) ∧ HInv env R A (pos + x.length) a st false { s with buf := x } := by
  obtain ⟨x, hne, g1, g2, g3⟩ := h.fetch hf hA hk
  obtain ⟨d1, d2, d3, d4, d5⟩ := h.todo rfl
  by_cases hs : s.state = .inPayload
  · have hso := h.inv.state
    unfold StateOK at hso
    rw [hs] at hso
    simp only at hso
    have hfi : ∃ e0 a0 api c, s.cur.obj = .leaf (.file e0 a0 api c) := by
      have o1 := hso.1
      unfold isFile at o1
      split at o1
      · rename_i ho; exact ⟨_, _, _, _, ho⟩
      · cases o1
    obtain ⟨e0, a0, api, c, hob⟩ := hfi
    have htr : (toENode env s.cur).tree = .file e0 a0 api c := by simp [toENode, hob, view, Leaf.tree]
    have hlt : s.payloadOff < c.length := by
      apply Classical.byContradiction
      intro hge
      unfold makeData at g2
      have hn : (toEnc env s).nodes = toENode env s.cur :: s.up.map (toENode env) := rfl
      rw [hn, show (toEnc env s).state = .inPayload from hs] at g2
      simp only at g2
      rw [htr] at g2
      simp only at g2
      rw [if_pos (by show s.payloadOff ≥ c.length; omega)] at g2
      injection g2 with g2
      exact hne g2.symm
    have hsk : skipData env s k = ({ s with buf := skipPayload c s.payloadOff k }, .ok (skipPayload c s.payloadOff k)) := by
      unfold skipData wholeRecord
      rw [if_neg (by rw [d2]; simp), hs]
      simp only
      rw [hob]
      simp only
      rw [if_neg (by omega)]
    have hfe : ∃ d, skipPayload c s.payloadOff k = (c.drop s.payloadOff).take d ∧ 0 < d := by
      unfold skipPayload
      cases k with
      | none => exact ⟨c.length, by rw [List.take_of_length_le (by rw [List.length_drop]; omega)], by omega⟩
      | some n => exact ⟨n, rfl, hk n rfl⟩
    obtain ⟨d, f1, f2⟩ := hfe
    have hne' : skipPayload c s.payloadOff k ≠ [] := by
      rw [f1]
      intro hh
      have := congrArg List.length hh
      rw [List.length_take, List.length_drop, List.length_nil] at this
      omega
    refine ⟨_, hne', hsk, h.keep (.inr ⟨_, _, e0, a0, api, c, d, rfl, htr, hs, hlt, f1, f2⟩) hne' ?_⟩
    refine ⟨h.inv.spine, h.inv.off, h.inv.tabs, h.inv.suff, h.inv.leaf, h.inv.pay, ?_⟩
    unfold StateOK
    simp only
    rw [hs]
    exact hso
  · refine ⟨x, hne, ?_, g3⟩
    unfold skipData
    rw [if_neg (by rw [d2]; simp)]
    split
    · exact g1
    · rename_i hw
      unfold wholeRecord at hw
      cases hss : s.state <;> rw [hss] at hw <;> simp only at hw
      case inPayload => exact absurd hss hs
      case filename => split at hw <;> cases hw
      all_goals cases hw

theorem RInv.unbuf (h : RInv env R st a s) (hs : s.state ≠ .init) : RInv env R st a { s with buf := [] } := by
  refine ⟨h.spine, h.off, h.tabs, h.suff, h.leaf, h.pay, ?_⟩
  have := h.state
  unfold StateOK at this ⊢
  simp only
  cases hst : s.state <;> rw [hst] at this <;> simp only at this ⊢
  case init => exact absurd hst hs
  all_goals exact this

/-- The place that is reported. -/
theorem HInv.plan (hf : Fine env R) (hA : A.length < u64max) (h : HInv env R A pos a st due s) {x : Bytes} {add : Nat} (hd : Data env due s x) (hx : add < x.length)
    (hrep : ∃ v, reported s = .ok v) :
    dataPos due pos x = a ∧ a + x.length ≤ A.length ∧ ∀ l' : Location.Location, l'.offset = s.payloadOff + add → knownOff l'.archiveOffset = some (a + add) → l'.size ≠ 0 →
      Plan env R A st a add { s with buf := [] } x l' := by
  have hxne : x ≠ [] := by intro hh; rw [hh] at hx; simp at hx
  rcases hd with ⟨rfl, k, s', hk, hg⟩ | ⟨rfl, hb⟩
  · obtain ⟨x', _, g1, g2, g3⟩ := h.fetch hf hA hk
    rw [hg] at g1
    injection g1 with _ g1
    injection g1 with g1
    subst g1
    obtain ⟨d1, d2, d3, d4, _⟩ := h.todo rfl
    have hs : ({ s with buf := [] } : REnc) = s := by
      obtain ⟨s1, s2, s3, s4, s5, s6, s7⟩ := s
      simp only at d2
      rw [d2]
    rw [hs]
    refine ⟨d1, by have := g3.bound; omega, fun l' h1 h2 h3 => ⟨h.inv, d2, d3, d4, .inl ⟨k, hk, g2⟩, hx, h1, h2, h3⟩⟩
  · subst hb
    obtain ⟨d1, d2, d3⟩ := h.done rfl
    have hni : s.state ≠ .init := by
      intro hi
      obtain ⟨v, hv⟩ := hrep
      unfold reported at hv
      rw [hi] at hv
      cases hv
    rcases d3 with ⟨m1, m2, m3⟩ | d3
    · have hb := h.bound
      refine ⟨?_, by omega, fun l' h1 h2 h3 => ⟨h.inv.unbuf hni, rfl, m2, m3, m1, hx, h1, h2, h3⟩⟩
      unfold dataPos
      rw [if_neg (by simp)]
      omega
    · obtain ⟨v, hv⟩ := hrep
      exact absurd hv (d3.2 v)

theorem arrived_inv {pos : Nat} {t : REnc} (h : Arrived env R A pos st t) (hb : pos ≤ A.length) : HInv env R A pos pos st true t :=
  ⟨h.inv, hb, fun _ => ⟨rfl, h.buf, h.pay, h.rest, h.left⟩, by simp⟩

theorem knownOff_of {n m : Nat} (h : n = m % 2 ^ 64) (hm : m < u64max) : knownOff n = some m := by
  have hu : u64max = 2 ^ 64 - 1 := by decide
  rw [Nat.mod_eq_of_lt (by omega)] at h
  unfold knownOff
  rw [if_neg (by omega), h]

/-- A seek to a place that was reported. -/
theorem HInv.seek (hf : Fine env R) (hA : A.length < u64max) {pos0 a0 : Nat} {st0 due0 : Bool} {s0 : REnc} (h0 : HInv env R A pos0 a0 st0 due0 s0) {x : Bytes} {add : Nat}
    (hd : Data env due0 s0 x) (hx : add < x.length) {l l' : Location.Location} (hl : currentLocation env s0 add = .ok l) (hsame : SamePlace l l')
    (h : HInv env R A pos a false due s) (hopen : l.designator = 110 → ¬ Open s l.path) :
    ∃ t ev st', seekLocation s l' = .ok (t, ev) ∧ hasData ev = true ∧ HInv env R A (dataPos due0 pos0 x + add) (dataPos due0 pos0 x + add) st' true t ∧
      (¬ (l.designator = 101 ∧ Open s l.path) → st' = false) ∧ canon (toEnc env t) = canon (toEnc env s0) := by
  obtain ⟨up, d, tab, ns, r1, r2, r3, r4, r5, r6, r7, r8⟩ := currentLocation_ok hl
  obtain ⟨p1, p2, p3⟩ := h0.plan hf hA hd hx ⟨_, r1⟩
  have hu : u64max = 2 ^ 64 - 1 := by decide
  have hpay := h0.inv.pay
  have hplan := p3 l' (by rw [hsame.offset, r5, Nat.mod_eq_of_lt (by omega)]) (knownOff_of (by rw [hsame.archiveOffset]; exact r7 _ h0.inv.off) (by omega)) hsame.size
  rw [p1]
  have hbound : a0 + add ≤ A.length := by omega
  have hpath : l'.path = joinNames ns := by rw [hsame.path, r3]
  unfold reported at r1
  unfold seekLocation
  rw [if_neg hsame.size, hsame.designator, r4]
  simp only at r1
  cases hs : s0.state <;> rw [hs] at r1 <;> simp only at r1
  case entry =>
    injection r1 with r1
    injection r1 with q1 r1
    injection r1 with q2 q3
    subst q1 q2
    obtain ⟨t, ev, st', t1, t2, t3, t4, t5⟩ := arrive_entry hf (by omega) hplan hs h.inv r2 hpath (by rw [hsame.nameTable, r6, ← q3]; cases s0.up <;> rfl)
    rw [if_neg (by decide), if_pos rfl]
    refine ⟨t, ev, st', t1, t2, arrived_inv t3 hbound, fun ho => t4 ?_, t5⟩
    rw [hsame.path]
    intro hh
    exact ho ⟨rfl, hh⟩
  case inPayload =>
    injection r1 with r1
    injection r1 with q1 r1
    injection r1 with q2 q3
    subst q1 q2
    obtain ⟨t, ev, t1, t2, t3, t5⟩ := arrive_payload hf hplan hs h.inv r2 hpath (by rw [hsame.nameTable, r6, ← q3]; cases s0.up <;> rfl)
    rw [if_neg (by decide), if_neg (by decide), if_pos rfl]
    exact ⟨t, ev, false, t1, t2, arrived_inv t3 hbound, fun _ => rfl, t5⟩
  case filename =>
    split at r1
    · cases r1
    · injection r1 with r1
      injection r1 with q1 r1
      injection r1 with q2 q3
      subst q1 q2
      obtain ⟨t, ev, t1, t2, t3, t5⟩ := arrive_filename hf (by omega) hplan hs h.inv r2 hpath (by rw [hsame.nameTable, r6, ← q3]) (by rw [hsame.path]; exact hopen r4)
      rw [if_neg (by decide), if_neg (by decide), if_neg (by decide), if_pos rfl]
      exact ⟨t, ev, false, t1, t2, arrived_inv t3 hbound, fun _ => rfl, t5⟩
  case goodbye =>
    injection r1 with r1
    injection r1 with q1 r1
    injection r1 with q2 q3
    subst q1 q2
    obtain ⟨t, ev, t1, t2, t3, t5⟩ := arrive_goodbye hf (by omega) hplan hs h.inv r2 hpath (by rw [hsame.nameTable, r6, ← q3])
    rw [if_neg (by decide), if_neg (by decide), if_neg (by decide), if_neg (by decide), if_pos rfl]
    exact ⟨t, ev, false, t1, t2, arrived_inv t3 hbound, fun _ => rfl, t5⟩
  all_goals cases r1

theorem Hist.inv (hf : Fine env R) (hq : Goodbye.Sorts env.qsort) {m : Bool} (h : Hist env R pos m due s) :
    ∃ a st, (m = true → st = false) ∧ HInv env R (archiveOf env R) pos a st due s := by
  have hA := hf.size
  induction h with
  | start => exact ⟨0, false, fun _ => rfl, HInv.start hf hq⟩
  | more _ hs hne ih =>
    obtain ⟨a, st, _, hi⟩ := ih
    exact ⟨_, false, fun _ => rfl, hi.more hf hA hs hne⟩
  | finish _ hs ih =>
    obtain ⟨a, st, _, hi⟩ := ih
    obtain ⟨a', h'⟩ := hi.finish hf hA hs
    exact ⟨a', false, fun _ => rfl, h'⟩
  | data _ hk hg ih =>
    obtain ⟨a, st, h1, hi⟩ := ih
    obtain ⟨x, _, g1, _, g3⟩ := hi.fetch hf hA hk
    rw [hg] at g1
    injection g1 with g1 g2
    injection g2 with g2
    subst g1 g2
    exact ⟨a, st, h1, g3⟩
  | skip _ hk hg ih =>
    obtain ⟨a, st, h1, hi⟩ := ih
    obtain ⟨x, _, g1, g3⟩ := hi.pass hf hA hk
    rw [hg] at g1
    injection g1 with g1 g2
    injection g2 with g2
    subst g1 g2
    exact ⟨a, st, h1, g3⟩
  | seek _ hd hx hl hsame _ hopen hseek hm ih0 ih =>
    obtain ⟨a0, st0, _, h0⟩ := ih0
    obtain ⟨a, st, h1, hi⟩ := ih
    have := h1 rfl
    subst this
    obtain ⟨t', ev', st', t1, t2, t3, t4, _⟩ := h0.seek hf hA hd hx hl hsame hi hopen
    rw [hseek] at t1
    injection t1 with t1
    injection t1 with t1 t5
    subst t1 t5
    rw [t2]
    refine ⟨_, st', fun hmt => t4 (fun hh => ?_), t3⟩
    rw [hm hh] at hmt
    cases hmt

/-- What is delivered from there on. -/
theorem HInv.run (hf : Fine env R) (hA : A.length < u64max) (h : HInv env R A pos a st due s) {sz : Nat → Option Nat} (hp : Positive sz) :
    RRun env sz due s (A.drop pos) .finished := by
  have hb := h.bound
  cases due with
  | false =>
    obtain ⟨d1, d2, _⟩ := h.done rfl
    have hr := d2 sz hp
    have hoff : (toEnc env s).archiveOff + (toEnc env s).buf.length = pos := by
      rw [d1]; unfold toEnc; simp only [h.inv.off, Option.getD_some]
    rw [hoff] at hr
    exact run_sim hf hr rfl rfl h.inv (by rw [List.length_drop]; omega)
  | true =>
    obtain ⟨d1, d2, d3, d4, _⟩ := h.todo rfl
    obtain ⟨e1, x, b, g, r, c⟩ := d4 sz hp
    obtain ⟨g1, g2, g3⟩ := getData_sim hf h.inv (by omega) d2 d3 g
    have hoff : (toEnc env s).archiveOff = a := by unfold toEnc; simp only [h.inv.off, Option.getD_some]
    rw [hoff, ← d1] at c
    rw [← c]
    refine .data g1 (run_sim hf r g2.symm rfl g3 ?_)
    have := congrArg List.length c
    rw [List.length_append, List.length_drop] at this
    simp only
    omega

end

end Casync.Resume
