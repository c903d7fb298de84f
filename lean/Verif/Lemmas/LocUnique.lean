import Verif.Lemmas.ResumePlain
import Verif.Lemmas.CacheMake
/-!
A place of the archive is reported for one byte only.
-/
namespace Casync.Resume
open Casync Archive

section
variable {env : Env} {R : Obj} {pos : Nat} {m due : Bool} {s : REnc}

theorem reported_state (hi : RInv env R m pos s) : (∃ v, reported s = .ok v) ↔ (s.state = .entry ∨ s.state = .filename ∨ s.state = .inPayload ∨ s.state = .goodbye) := by
  have hso := hi.state
  unfold StateOK at hso
  unfold reported
  cases hs : s.state <;> rw [hs] at hso <;> simp only at hso <;> simp
  obtain ⟨_, _, _, b, _, _, _, h, _⟩ := hso
  rw [h]
  simp

theorem unreported_state (hi : RInv env R m pos s) (h : ¬ ∃ v, reported s = .ok v) (he : s.state ≠ .eof) : s.state = .init ∨ s.state = .finalize := by
  rw [reported_state hi] at h
  have hso := hi.state
  unfold StateOK at hso
  cases hs : s.state <;> rw [hs] at hso h <;> simp only at hso <;> simp_all

theorem step_plain (hf : Fine env R) {A : Bytes} (hA : A.length < u64max) {a : Nat} {st : Bool} (h : HInv env R A pos a st false s) (hb : (∃ v, reported s = .ok v) → s.buf ≠ [])
    {s' : REnc} {ev : EEv} (hs : step env s = (s', .ok ev)) : canon (toEnc env s') = canon (toEnc env s) ∨ Next env.qsort (canon (toEnc env s)) (canon (toEnc env s')) := by
  by_cases he : s.state = .eof
  · left
    unfold step at hs
    rw [if_pos he] at hs
    injection hs with hs _
    rw [hs]
  · obtain ⟨d1, d2, d3⟩ := h.done rfl
    obtain ⟨e', ev', g⟩ := ERun.steps (d2 _ positive_none)
    have hbd := h.bound
    obtain ⟨s1, h1, h2, h3⟩ := step_sim hf h.inv (by omega) g
    rw [hs] at h1
    injection h1 with h1 h4
    injection h4 with h4
    subst h1 h4
    have hpa : s.payloadOff ≤ s.archiveOff.getD 0 := by rw [h.inv.off]; exact h.inv.pay
    have hc : canon (toEnc env s) = canon (toEnc env { s with buf := [] }) := by
      unfold canon
      cases hs : s.state <;> simp only [toEnc, hs]
    rw [hc, h2]
    refine follow (e := toEnc env { s with buf := [] }) (x := s.buf) rfl hpa he ?_ g
    by_cases hr : ∃ v, reported s = .ok v
    · rcases d3 with ⟨m1, _, _⟩ | d3
      · exact .inl ⟨m1, hb hr, (reported_state h.inv).1 hr⟩
      · obtain ⟨v, hv⟩ := hr
        exact absurd hv (d3.2 v)
    · have hst := unreported_state h.inv hr he
      refine .inr ⟨?_, hst⟩
      rcases d3 with ⟨m1, _, _⟩ | d3
      · exfalso
        rcases m1 with ⟨k, _, hm⟩ | ⟨_, _, _, _, _, _, _, _, _, f3, _⟩
        · unfold makeData at hm
          have hn : (toEnc env { s with buf := [] }).nodes = toENode env s.cur :: s.up.map (toENode env) := rfl
          rw [hn] at hm
          simp only at hm
          rw [show (toEnc env { s with buf := [] }).state = s.state from rfl] at hm
          rcases hst with h | h <;> rw [h] at hm <;> cases hm
        · have f3 : s.state = .inPayload := f3
          rw [f3] at hst
          rcases hst with h | h <;> cases h
      · exact d3.1

theorem canon_buf (s : REnc) (x : Bytes) : canon (toEnc env { s with buf := x }) = canon (toEnc env s) := by
  unfold canon
  cases hs : s.state <;> simp only [toEnc, hs]

theorem Hist.plain (hf : Fine env R) (hq : Goodbye.Sorts env.qsort) (h : Hist env R pos m due s) :
    Resume.Chain env.qsort (canon (eStart (view env [] R))) (canon (toEnc env s)) ∧ (due = false → (∃ v, reported s = .ok v) → s.buf ≠ []) := by
  have hA := hf.size
  induction h with
  | start =>
    have e1 : toEnc env (rStart R) = eStart (view env [] R) := by
      unfold toEnc rStart eStart
      simp only [List.map_cons, List.map_nil]
      rw [toENode_opened]
      rfl
    rw [e1]
    refine ⟨.refl, fun _ hv => ?_⟩
    obtain ⟨v, hv⟩ := hv
    cases hv
  | @more _ _ _ _ ev hh hs hne ih =>
    obtain ⟨a, st, hx, hi⟩ := hh.inv hf hq
    clear hx
    refine ⟨?_, fun hd hv => ?_⟩
    · rcases step_plain hf hA hi (ih.2 rfl) hs with h | h
      · rw [h]; exact ih.1
      · exact ih.1.snoc h
    · have : ev = .doneFile := by cases ev <;> simp_all [hasData]
      subst this
      obtain ⟨d1, d2, _⟩ := hi.done rfl
      obtain ⟨e', ev', g⟩ := ERun.steps (d2 _ positive_none)
      have hbd := hi.bound
      obtain ⟨s1, h1, h2, h3⟩ := step_sim hf hi.inv (by omega) g
      rw [hs] at h1
      injection h1 with h1 h4
      injection h4 with h4
      subst h1 h4
      have hfin := eStep_done g
      rw [← h2] at hfin
      have hfin : _ = EState.finalize := hfin
      obtain ⟨v, hv⟩ := hv
      unfold reported at hv
      simp only [toEnc] at hfin
      rw [hfin] at hv
      cases hv
  | finish hh hs ih =>
    obtain ⟨a, st, _, hi⟩ := hh.inv hf hq
    refine ⟨?_, fun hd hv => ?_⟩
    · rcases step_plain hf hA hi (ih.2 rfl) hs with h | h
      · rw [h]; exact ih.1
      · exact ih.1.snoc h
    · obtain ⟨d1, d2, _⟩ := hi.done rfl
      obtain ⟨e', ev', g⟩ := ERun.steps (d2 _ positive_none)
      have hbd := hi.bound
      obtain ⟨s1, h1, h2, h3⟩ := step_sim hf hi.inv (by omega) g
      rw [hs] at h1
      injection h1 with h1 h4
      injection h4 with h4
      subst h1 h4
      have hfin := (eStep_end g).1
      rw [← h2] at hfin
      obtain ⟨v, hv⟩ := hv
      unfold reported at hv
      simp only [toEnc] at hfin
      rw [hfin] at hv
      cases hv
  | data hh hk hg ih =>
    obtain ⟨a, st, h1, hi⟩ := hh.inv hf hq
    obtain ⟨x, hx, g1, _, g3⟩ := hi.fetch hf hA hk
    rw [hg] at g1
    injection g1 with g1 g2
    injection g2 with g2
    subst g1 g2
    rw [canon_buf]
    exact ⟨ih.1, fun _ _ => hx⟩
  | skip hh hk hg ih =>
    obtain ⟨a, st, h1, hi⟩ := hh.inv hf hq
    obtain ⟨x, hx, g1, g3⟩ := hi.pass hf hA hk
    rw [hg] at g1
    injection g1 with g1 g2
    injection g2 with g2
    subst g1 g2
    rw [canon_buf]
    exact ⟨ih.1, fun _ _ => hx⟩
  | seek hh0 hd hx hl hsame hh hopen hseek hm ih0 ih =>
    obtain ⟨a0, st0, _, h0⟩ := hh0.inv hf hq
    obtain ⟨a, st, h1, hi⟩ := hh.inv hf hq
    have := h1 rfl
    subst this
    obtain ⟨t', ev', st', t1, t2, t3, t4, t5⟩ := h0.seek hf hA hd hx hl hsame hi hopen
    rw [hseek] at t1
    injection t1 with t1
    injection t1 with t1 t6
    subst t1 t6
    rw [t5, t2]
    exact ⟨ih0.1, fun h => by cases h⟩

/-! ### The path -/

theorem upNames_nil {us : List RNode} (h : upNames us = some []) : us = [] := by
  cases us with
  | nil => rfl
  | cons u us =>
    unfold upNames at h
    split at h
    · injection h with h
      exact absurd h (by simp)
    · cases h

theorem upNames_cons {u : RNode} {us : List RNode} {ns : List Bytes} (h : upNames (u :: us) = some ns) : ∃ k n o r l, u.rest = .cons k n o r ∧ upNames us = some l ∧ ns = l ++ [n] := by
  unfold upNames at h
  split at h
  · rename_i h1 h2
    injection h with h
    exact ⟨_, _, _, _, _, h1, h2, h.symm⟩
  · cases h

theorem kids_same {env : Env} {n n' : RNode} (h1 : RulesOK n) (h2 : RulesOK n') (ho : n.obj = n'.obj) (hr : n.rest = n'.rest) (hd : n.obj.isDir = true) : (toENode env n).kids = (toENode env n').kids := by
  have e1 : n.rules = [] := h1 hd
  have e2 : n'.rules = [] := h2 (by rw [← ho]; exact hd)
  unfold toENode
  simp only
  rw [e1, e2, ho, hr]

theorem Spine.unique {us us' : List RNode} {c c' : RNode} (h : Spine env R us c) (h' : Spine env R us' c') (hn : R.Named) (hl : R.Local env) {ns : List Bytes} (h1 : upNames us = some ns) (h2 : upNames us' = some ns) :
    c.obj = c'.obj ∧ upSize (us.map (toENode env)) = upSize (us'.map (toENode env)) := by
  induction h generalizing us' c' ns with
  | root e1 e2 =>
    have e : ns = [] := by
      injection h1 with h1
      exact h1.symm
    subst e
    have := upNames_nil h2
    subst this
    cases h' with
    | root f1 f2 => exact ⟨by rw [e1, f1], rfl⟩
  | @down u us c name g1 g2 g3 ih =>
    obtain ⟨k, n, o, r, l, p1, p2, p3⟩ := upNames_cons h1
    cases h' with
    | root f1 f2 =>
      injection h2 with h2
      rw [p3] at h2
      exact absurd h2 (by simp)
    | @down u' us' _ name' f1 f2 f3 =>
      obtain ⟨k', n', o', r', l', p1', p2', p3'⟩ := upNames_cons h2
      rw [p3] at p3'
      obtain ⟨e1, e2⟩ := List.append_inj' p3' rfl
      injection e2 with e2 _
      subst e1 e2
      obtain ⟨i1, i2⟩ := ih f1 p2 p2'
      obtain ⟨ka, ra, suba, a1, a2, a3, _⟩ := g2
      obtain ⟨kb, rb, subb, b1, b2, b3, _⟩ := f2
      have hnm := (g1.subobj hn hl).1
      rw [p1] at a2 a1
      rw [p1', ← i1] at b2
      rw [p1'] at b1
      have hu := a2.unique b2 (Obj.kids_named hnm)
      injection a1 with _ _ a1 _
      injection b1 with _ _ b1 _
      have hrest : u.rest = u'.rest := by rw [p1, p1', hu]
      refine ⟨?_, ?_⟩
      · injection hu with _ _ hu _
        rw [← a1, ← b1]; exact hu
      · simp only [List.map_cons, upSize]
        rw [i2, kids_same g1.rulesOK f1.rulesOK i1 hrest (scanned_dir a3)]

theorem reported_cases {up : List RNode} {d : UInt8} {tb : NameTable.Chain} {a : Nat} {st : Bool} (hi : RInv env R st a s) (hr : reported s = .ok (up, d, tb)) :
      (s.state = .entry ∧ d = 101 ∧ up = s.up ∧ s.cur.rest = s.cur.obj.kids) ∨ (s.state = .inPayload ∧ d = 112 ∧ up = s.up) ∨
      (s.state = .filename ∧ d = 110 ∧ up = s.cur :: s.up ∧ ∃ b, Spine env R (s.cur :: s.up) b ∧ s.cur.obj.isDir = true) ∨ (s.state = .goodbye ∧ d = 103 ∧ up = s.up) := by
  have hso := hi.state
  unfold StateOK at hso
  unfold reported at hr
  simp only at hr
  cases hs : s.state <;> rw [hs] at hr hso <;> simp only at hr hso
  case entry =>
    injection hr with hr
    injection hr with q1 hr
    injection hr with q2 _
    exact .inl ⟨rfl, q2.symm, q1.symm, hso.1⟩
  case inPayload =>
    injection hr with hr
    injection hr with q1 hr
    injection hr with q2 _
    exact .inr (.inl ⟨rfl, q2.symm, q1.symm⟩)
  case filename =>
    obtain ⟨name, o, lv, b, o1, o2, o3, o4, o5, o6, o7, o8⟩ := hso
    rw [if_neg (by rw [o4]; simp)] at hr
    injection hr with hr
    injection hr with q1 hr
    injection hr with q2 _
    refine .inr (.inr (.inl ⟨rfl, q2.symm, q1.symm, b, .down hi.spine (by rw [o5]; exact o1) o8, ?_⟩))
    obtain ⟨_, _, _, _, _, q, _⟩ := o1
    exact scanned_dir q
  case goodbye =>
    injection hr with hr
    injection hr with q1 hr
    injection hr with q2 _
    exact .inr (.inr (.inr ⟨rfl, q2.symm, q1.symm⟩))
  all_goals cases hr

theorem reported_spine {up : List RNode} {d : UInt8} {tb : NameTable.Chain} {a : Nat} {st : Bool} (hi : RInv env R st a s) (hr : reported s = .ok (up, d, tb)) : ∃ c, Spine env R up c := by
  rcases reported_cases hi hr with ⟨_, _, k, _⟩ | ⟨_, _, k⟩ | ⟨_, _, k, b, k4, _⟩ | ⟨_, _, k⟩
  · exact ⟨_, by rw [k]; exact hi.spine⟩
  · exact ⟨_, by rw [k]; exact hi.spine⟩
  · exact ⟨b, by rw [k]; exact k4⟩
  · exact ⟨_, by rw [k]; exact hi.spine⟩

theorem joinNames_inj {ns ns' : List Bytes} (h : ∀ n ∈ ns, SafeName n) (h' : ∀ n ∈ ns', SafeName n) (he : joinNames ns = joinNames ns') : ns = ns' := by
  by_cases h1 : ns = []
  · by_cases h2 : ns' = []
    · rw [h1, h2]
    · rw [h1] at he
      exact absurd he.symm (joinNames_ne h2 h')
  · by_cases h2 : ns' = []
    · rw [h2] at he
      exact absurd he (joinNames_ne h1 h)
    · rw [← components_join h1 h, ← components_join h2 h', he]

/-- The nodes of two encoders with the same path and designator are of the same size. -/
theorem same_size (hf : Fine env R) {a a' : Nat} {st st' : Bool} {s' : REnc} (hi : RInv env R st a s) (hi' : RInv env R st' a' s') {up up' : List RNode} {d : UInt8} {tb tb' : NameTable.Chain} {ns : List Bytes}
    (r1 : reported s = .ok (up, d, tb)) (r2 : reported s' = .ok (up', d, tb')) (n1 : upNames up = some ns) (n2 : upNames up' = some ns) :
    msr (toEnc env s) = msr (toEnc env s') := by
  have hm : ∀ s : REnc, msr (toEnc env s) = topSize s.state (toENode env s.cur) + upSize (s.up.map (toENode env)) := fun s => rfl
  rw [hm, hm]
  rcases reported_cases hi r1 with ⟨k1, k2, k3, k4⟩ | ⟨k1, k2, k3⟩ | ⟨k1, k2, k3, b, k4, k5⟩ | ⟨k1, k2, k3⟩
  · rcases reported_cases hi' r2 with ⟨j1, j2, j3, j4⟩ | ⟨j1, j2, j3⟩ | ⟨j1, j2, j3, b', j4, j5⟩ | ⟨j1, j2, j3⟩
    · subst k3 j3
      obtain ⟨u1, u2⟩ := hi.spine.unique hi'.spine hf.names hf.rules n1 n2
      rw [u2, k1, j1]
      simp only [topSize]
      cases hd : s.cur.obj.isDir with
      | true => rw [kids_same hi.spine.rulesOK hi'.spine.rulesOK u1 (by rw [k4, j4, u1]) hd]
      | false =>
        have e1 : s.cur.rest = .nil := by rw [k4, leaf_kids hd]
        have e2 : s'.cur.rest = .nil := by rw [j4, leaf_kids (by rw [← u1]; exact hd)]
        unfold toENode
        simp only [e1, e2]
        rfl
    all_goals rw [k2] at j2; cases j2
  · rcases reported_cases hi' r2 with ⟨j1, j2, j3, j4⟩ | ⟨j1, j2, j3⟩ | ⟨j1, j2, j3, b', j4, j5⟩ | ⟨j1, j2, j3⟩
    case inr.inl =>
      subst k3 j3
      obtain ⟨u1, u2⟩ := hi.spine.unique hi'.spine hf.names hf.rules n1 n2
      rw [u2, k1, j1]
      rfl
    all_goals rw [k2] at j2; cases j2
  · rcases reported_cases hi' r2 with ⟨j1, j2, j3, j4⟩ | ⟨j1, j2, j3⟩ | ⟨j1, j2, j3, b', j4, j5⟩ | ⟨j1, j2, j3⟩
    case inr.inr.inl =>
      subst k3 j3
      obtain ⟨k, n, o, r, l, p1, p2, p3⟩ := upNames_cons n1
      obtain ⟨k', n', o', r', l', p1', p2', p3'⟩ := upNames_cons n2
      rw [p3] at p3'
      obtain ⟨e1, e2⟩ := List.append_inj' p3' rfl
      injection e2 with e2 _
      subst e1 e2
      obtain ⟨u1, u2⟩ := hi.spine.unique hi'.spine hf.names hf.rules p2 p2'
      have a2 := hi.suff
      have b2 := hi'.suff
      rw [p1] at a2
      rw [p1', ← u1] at b2
      have hu := a2.unique b2 (Obj.kids_named (hi.spine.subobj hf.names hf.rules).1)
      rw [u2, k1, j1]
      simp only [topSize]
      rw [kids_same hi.spine.rulesOK hi'.spine.rulesOK u1 (by rw [p1, p1', hu]) k5]
    all_goals rw [k2] at j2; cases j2
  · rcases reported_cases hi' r2 with ⟨j1, j2, j3, j4⟩ | ⟨j1, j2, j3⟩ | ⟨j1, j2, j3, b', j4, j5⟩ | ⟨j1, j2, j3⟩
    case inr.inr.inr =>
      subst k3 j3
      obtain ⟨u1, u2⟩ := hi.spine.unique hi'.spine hf.names hf.rules n1 n2
      rw [u2, k1, j1]
      rfl
    all_goals rw [k2] at j2; cases j2

end

end Casync.Resume

namespace Casync.CacheMake
open Resume

/-- A place is reported for one byte only. -/
theorem LocAt.unique {env : Env} {R : Obj} (hf : Fine env R) (hq : Goodbye.Sorts env.qsort) {i i' : Nat} {l l' : Location.Location} (h : LocAt env R i l) (h' : LocAt env R i' l')
    (hp : l.path = l'.path) (hd : l.designator = l'.designator) (ho : l.offset = l'.offset) : i = i' := by
  have key : ∀ {i : Nat} {l : Location.Location}, LocAt env R i l → ∃ a st s up tb ns, RInv env R st a s ∧ reported s = .ok (up, l.designator, tb) ∧ upNames up = some ns ∧ l.path = joinNames ns ∧ (∀ n ∈ ns, Archive.SafeName n) ∧
      Resume.Chain env.qsort (canon (Archive.eStart (view env [] R))) (canon (toEnc env s)) ∧ i = (canon (toEnc env s)).archiveOff + l.offset := by
    intro i l h
    obtain ⟨pos, m, due, s, x, add, h1, h2, h3, h4, h5⟩ := h
    obtain ⟨a, st, _, hi⟩ := h1.inv hf hq
    obtain ⟨up, d, tab, ns, r1, r2, r3, r4, r5, r6, r7, r8⟩ := currentLocation_ok h4
    obtain ⟨p1, p2, _⟩ := hi.plan hf hf.size h2 h3 ⟨_, r1⟩
    have hst := (reported_state hi.inv).1 ⟨_, r1⟩
    have hu : u64max = 2 ^ 64 - 1 := by decide
    have hs := hf.size
    have hpa := hi.inv.pay
    refine ⟨a, st, s, up, tab, ns, hi.inv, by rw [r4]; exact r1, r2, r3, ?_, (h1.plain hf hq).1, ?_⟩
    · obtain ⟨c, hc⟩ := reported_spine hi.inv r1
      obtain ⟨ns', e1, e2⟩ := hc.safe hf.names hf.rules
      rw [r2] at e1
      injection e1 with e1
      subst e1
      exact e2
    · rw [canon_record (e := toEnc env s) hst]
      show i = s.archiveOff.getD 0 - s.payloadOff + l.offset
      rw [hi.inv.off, r5, Nat.mod_eq_of_lt (by omega), h5, p1]
      simp only [Option.getD_some]
      omega
  obtain ⟨a, st, s, up, tb, ns, h1, h2, h3, h4, h5, h6, h7⟩ := key h
  obtain ⟨a', st', s', up', tb', ns', h1', h2', h3', h4', h5', h6', h7'⟩ := key h'
  have hns : ns = ns' := joinNames_inj h5 h5' (by rw [← h4, ← h4', hp])
  subst hns
  rw [← hd] at h2'
  have := same_size hf h1 h1' h2 h2' h3 h3'
  have he := h6.unique h6' (by rw [msr_canon, msr_canon]; exact this)
  rw [h7, h7', he, ho]

end Casync.CacheMake
