import Verif.Lemmas.ResumeRange
/-!
C41: encoding can be resumed at any reported location.
-/
namespace Casync.Resume
open Casync Archive

variable {env : Env} {R : Obj}

/-- A session is determined by the state it starts in and the sizes that are suggested. -/
theorem RRun.det {sz : Nat → Option Nat} {due : Bool} {s : REnc} {b b' : Bytes} {o o' : EOutcome} (h : RRun env sz due s b o) (h' : RRun env sz due s b' o') : b = b' ∧ o = o' := by
  induction h generalizing b' o' with
  | finished a =>
    cases h' with
    | finished => exact ⟨rfl, rfl⟩
    | error c => rw [a] at c; injection c with _ c; cases c
    | crash c => rw [a] at c; injection c with _ c; cases c
    | more c n _ => rw [a] at c; injection c with _ c; injection c with c; exact absurd c.symm n
  | error a =>
    cases h' with
    | finished c => rw [a] at c; injection c with _ c; cases c
    | error c => rw [a] at c; injection c with _ c; injection c with c; exact ⟨rfl, by rw [c]⟩
    | crash c => rw [a] at c; injection c with _ c; cases c
    | more c n _ => rw [a] at c; injection c with _ c; cases c
  | crash a =>
    cases h' with
    | finished c => rw [a] at c; injection c with _ c; cases c
    | error c => rw [a] at c; injection c with _ c; cases c
    | crash c => exact ⟨rfl, rfl⟩
    | more c n _ => rw [a] at c; injection c with _ c; cases c
  | more a n _ ih =>
    cases h' with
    | finished c => rw [a] at c; injection c with _ c; injection c with c; exact absurd c n
    | error c => rw [a] at c; injection c with _ c; cases c
    | crash c => rw [a] at c; injection c with _ c; cases c
    | more c _ g =>
      rw [a] at c
      injection c with c1 c2
      injection c2 with c2
      subst c1 c2
      exact ih g
  | data a _ ih =>
    cases h' with
    | data c g =>
      rw [a] at c
      injection c with c1 c2
      injection c2 with c2
      subst c1 c2
      obtain ⟨i1, i2⟩ := ih g
      exact ⟨by rw [i1], i2⟩
    | dataError c => rw [a] at c; injection c with _ c; cases c
    | dataCrash c => rw [a] at c; injection c with _ c; cases c
  | dataError a =>
    cases h' with
    | data c g => rw [a] at c; injection c with _ c; cases c
    | dataError c => rw [a] at c; injection c with _ c; injection c with c; exact ⟨rfl, by rw [c]⟩
    | dataCrash c => rw [a] at c; injection c with _ c; cases c
  | dataCrash a =>
    cases h' with
    | data c g => rw [a] at c; injection c with _ c; cases c
    | dataError c => rw [a] at c; injection c with _ c; cases c
    | dataCrash c => exact ⟨rfl, rfl⟩

/-- **C41**, part: whatever was done with an encoder before, steps and seeks to reported places, the rest of the session delivers exactly the bytes
of the archive that follow this point, and it ends well.  Missing: trees with exclusion rules that reach into subdirectories
(`C41_rules_violated`), a seek to the name of a directory that is open (`C41_filename_violated`), a seek right after one to the beginning of a
directory that is open (`C41_twice_violated`). -/
theorem C41_resume_partial (hf : Fine env R) (hq : Goodbye.Sorts env.qsort) {pos : Nat} {m due : Bool} {s : REnc} (h : Hist env R pos m due s)
    {sz : Nat → Option Nat} (hp : Positive sz) :
    RRun env sz due s ((archiveOf env R).drop pos) .finished ∧ ∀ b o, RRun env sz due s b o → b = (archiveOf env R).drop pos ∧ o = .finished := by
  obtain ⟨a, st, _, hi⟩ := h.inv hf hq
  have := hi.run hf hf.size hp
  exact ⟨this, fun b o g => g.det this⟩

/-- The whole session delivers the archive. -/
theorem C41_archive (hf : Fine env R) (hq : Goodbye.Sorts env.qsort) {sz : Nat → Option Nat} (hp : Positive sz) : RRun env sz false (rStart R) (archiveOf env R) .finished :=
  (C41_resume_partial hf hq .start hp).1

theorem Spine.safe {us : List RNode} {c : RNode} (h : Spine env R us c) (hn : R.Named) (hl : R.Local env) : ∃ ns, upNames us = some ns ∧ ∀ n ∈ ns, SafeName n := by
  induction h with
  | root _ _ => exact ⟨[], rfl, by simp⟩
  | @down u us c name hsp hst hr ih =>
    obtain ⟨ns, g1, g2⟩ := ih
    have hsafe := (hst.named (hsp.subobj hn hl).1).1
    obtain ⟨keep, r, sub, q1, _⟩ := hst
    refine ⟨ns ++ [name], by unfold upNames; rw [q1, g1], ?_⟩
    intro n hmem
    rw [List.mem_append, List.mem_singleton] at hmem
    rcases hmem with hmem | hmem
    · exact g2 n hmem
    · rw [hmem]; exact hsafe

/-- Where there is data, the state is one that has a location. -/
theorem HInv.reports (hf : Fine env R) {A : Bytes} {pos a : Nat} {st due : Bool} {s : REnc} (hA : A.length < u64max) (h : HInv env R A pos a st due s) {x : Bytes}
    (hd : Data env due s x) (hx : x ≠ []) : ∃ up d tab ns, reported s = .ok (up, d, tab) ∧ upNames up = some ns ∧ ∀ n ∈ ns, SafeName n := by
  have hmk : ∃ k y, makeData env.qsort (toEnc env { s with buf := [] }) k = .ok y := by
    rcases hd with ⟨rfl, k, s', hk, hg⟩ | ⟨rfl, hb⟩
    · obtain ⟨y, _, _, g2, _⟩ := h.fetch hf hA hk
      obtain ⟨_, d2, _⟩ := h.todo rfl
      have hs : ({ s with buf := [] } : REnc) = s := by
        obtain ⟨s1, s2, s3, s4, s5, s6, s7⟩ := s
        simp only at d2
        rw [d2]
      rw [hs]
      exact ⟨k, y, g2⟩
    · obtain ⟨_, _, d3⟩ := h.done rfl
      rcases d3 with ⟨m1, m2, m3⟩ | d3
      · obtain ⟨e1, x, b, g, _, _⟩ := m3 _ positive_none
        exact ⟨_, _, (getData_shape rfl g).2⟩
      · exact absurd (hb.symm.trans d3.1) hx
  obtain ⟨k, y, hmk⟩ := hmk
  have hso := h.inv.state
  obtain ⟨ns, hn1, hn2⟩ := h.inv.spine.safe hf.names hf.rules
  unfold StateOK at hso
  unfold makeData toEnc at hmk
  simp only [List.map_cons] at hmk
  unfold reported
  simp only
  cases hs : s.state <;> rw [hs] at hso hmk <;> simp only at hso hmk ⊢
  case entry => exact ⟨_, _, _, ns, rfl, hn1, hn2⟩
  case inPayload => exact ⟨_, _, _, ns, rfl, hn1, hn2⟩
  case filename =>
    obtain ⟨name, o, lv, b, hst, _, _, hbl, _⟩ := hso
    rw [hbl, if_neg (by simp)]
    have hsafe := (hst.named (h.inv.spine.subobj hf.names hf.rules).1).1
    obtain ⟨keep, r, sub, q1, _⟩ := hst
    refine ⟨_, _, _, ns ++ [name], rfl, by unfold upNames; rw [q1, hn1], ?_⟩
    intro n hmem
    rw [List.mem_append, List.mem_singleton] at hmem
    rcases hmem with hmem | hmem
    · exact hn2 n hmem
    · rw [hmem]; exact hsafe
  case goodbye => exact ⟨_, _, _, ns, rfl, hn1, hn2⟩
  all_goals cases hmk

/-- What is outside of the encoder fits into the fields of a location. -/
structure Env.Fits (env : Env) : Prop where
  mtime : ∀ p, (env.stamp p).1 ≤ u64max
  inode : ∀ p, (env.stamp p).2.1 ≤ u64max
  generation : ∀ p g, (env.stamp p).2.2 = some g → g < 2 ^ 32
  flags : env.featureFlags ≤ u64max

/-- **C41**: for every byte the encoder is about to deliver, or has just delivered, there is a location.  It says where in the archive the byte is,
and its text, parsed again, is the same place. -/
theorem C41_location (hf : Fine env R) (hq : Goodbye.Sorts env.qsort) {pos : Nat} {m due : Bool} {s : REnc} (h : Hist env R pos m due s) {x : Bytes} {add : Nat}
    (hd : Data env due s x) (hx : add < x.length) :
    ∃ l, currentLocation env s add = .ok l ∧ l.archiveOffset = dataPos due pos x + add ∧ l.archiveOffset < (archiveOf env R).length ∧
      (archiveOf env R)[dataPos due pos x + add]? = x[add]? ∧
      (env.Fits → ∃ l', Location.parse (Location.format l Location.withAll) = .ok l' ∧ SamePlace l l') := by
  obtain ⟨a, st, _, hi⟩ := h.inv hf hq
  have hu : u64max = 2 ^ 64 - 1 := by decide
  have hA := hf.size
  have hxne : x ≠ [] := by intro hh; rw [hh] at hx; simp at hx
  obtain ⟨up, d, tab, ns, r1, r2, r3⟩ := hi.reports hf hA hd hxne
  obtain ⟨p1, p2, p3⟩ := hi.plan hf hA hd hx ⟨_, r1⟩
  obtain ⟨v1, v2, v3⟩ := reported_range (h.range hf hq) r1
  have hpay := hi.inv.pay
  have hnew : Location.new (some (joinNames ns)) d ((s.payloadOff + add) % 2 ^ 64) u64max = .ok { path := joinNames ns, designator := d, offset := s.payloadOff + add, size := u64max } := by
    unfold Location.new
    rw [Nat.mod_eq_of_lt (by omega), v2, Option.getD_some]
    simp only [Bool.not_true, Bool.false_eq_true, if_false]
    rw [if_neg (joinNames_slash r3), if_neg (by omega), if_neg (by decide), if_neg (fun hh => v3 hh.1), if_neg (by simp), if_neg v3]
  refine ⟨{ path := joinNames ns, designator := d, offset := s.payloadOff + add, size := u64max, mtime := (env.stamp (joinNames ns)).1, inode := (env.stamp (joinNames ns)).2.1,
            generation := (env.stamp (joinNames ns)).2.2, nameTable := tab, archiveOffset := a + add, featureFlags := env.featureFlags }, ?_, ?_, ?_, ?_, ?_⟩
  · unfold currentLocation nodePath
    rw [r1]
    show (match upNames up with | some l => Res.ok (joinNames l) | none => .err .EINVAL).bind _ = _
    rw [r2]
    show (Location.new (some (joinNames ns)) d ((s.payloadOff + add) % 2 ^ 64) u64max).bind _ = _
    rw [hnew, hi.inv.off]
    simp only [Res.bind]
    rw [Nat.mod_eq_of_lt (by omega)]
  · rw [p1]
  · simp only; omega
  · have hp := p3 { path := [], designator := 0, offset := s.payloadOff + add, size := 1, archiveOffset := a + add } rfl
      (by unfold knownOff; simp only; rw [if_neg (by omega)]) (by simp)
    have hoff : (toEnc env { s with buf := [] }).archiveOff = a := by unfold toEnc; simp only [hi.inv.off, Option.getD_some]
    rw [p1, ← hoff]
    exact hp.data.bytes hp.rest rfl hx
  · intro hfit
    obtain ⟨l', g1, g2, g3, g4, g5, _, _, _, g6, g7, _⟩ := Location.C18_roundtrip
      { path := joinNames ns, designator := d, offset := s.payloadOff + add, size := u64max, mtime := (env.stamp (joinNames ns)).1, inode := (env.stamp (joinNames ns)).2.1,
        generation := (env.stamp (joinNames ns)).2.2, nameTable := tab, archiveOffset := a + add, featureFlags := env.featureFlags }
      { designator := v2, path := joinNames_slash r3, offset := (by simp only; omega), size := (by simp only; decide), fits := (fun hh => absurd rfl hh),
        void := (fun hh => absurd hh v3), mtime := hfit.mtime _, inode := hfit.inode _, generation := hfit.generation _, featureFlags := hfit.flags,
        archiveOffset := (by simp only; omega), nameTable := v1 }
    exact ⟨l', g1, ⟨g2, g3, g4, g7, g6, by rw [g5]; show u64max ≠ 0; decide⟩⟩

/-- **C41**, part: a seek to a reported place, of the same or another encoder for this tree, succeeds, and then exactly the bytes of the archive from
this place on are delivered, whatever sizes are suggested.  Missing: see `C41_resume_partial`. -/
theorem C41_seek_partial (hf : Fine env R) (hq : Goodbye.Sorts env.qsort) {pos0 pos : Nat} {m0 due0 due : Bool} {s0 s : REnc} {x : Bytes} {add : Nat} {l l' : Location.Location}
    (h0 : Hist env R pos0 m0 due0 s0) (hd : Data env due0 s0 x) (hx : add < x.length) (hl : currentLocation env s0 add = .ok l) (hsame : SamePlace l l')
    (h : Hist env R pos true due s) (hopen : l.designator = 110 → ¬ Open s l.path) :
    ∃ t ev, seekLocation s l' = .ok (t, ev) ∧ ∀ sz, Positive sz → ∀ b o,
      RRun env sz (hasData ev) t b o ↔ b = (archiveOf env R).drop (dataPos due0 pos0 x + add) ∧ o = .finished := by
  obtain ⟨a0, st0, _, i0⟩ := h0.inv hf hq
  obtain ⟨a, st, hst, hi⟩ := h.inv hf hq
  have := hst rfl
  subst this
  obtain ⟨t, ev, st', t1, t2, t3, _, _⟩ := i0.seek hf hf.size hd hx hl hsame hi hopen
  refine ⟨t, ev, t1, ?_⟩
  intro sz hp b o
  rw [t2]
  have hrun := t3.run hf hf.size hp
  constructor
  · intro g; exact g.det hrun
  · rintro ⟨rfl, rfl⟩; exact hrun

/-- **C41**, part, for a new encoder: it can be started at any place another one for the same tree has reported, with the text of the location, and
delivers the archive from there on.  Missing: trees with exclusion rules that reach into subdirectories (`C41_rules_violated`). -/
theorem C41_restart_partial (hf : Fine env R) (hq : Goodbye.Sorts env.qsort) (hfit : env.Fits) {pos0 : Nat} {m0 due0 : Bool} {s0 : REnc} {x : Bytes} {add : Nat}
    (h0 : Hist env R pos0 m0 due0 s0) (hd : Data env due0 s0 x) (hx : add < x.length) :
    ∃ l l' t ev, currentLocation env s0 add = .ok l ∧ Location.parse (Location.format l Location.withAll) = .ok l' ∧ seekLocation (rStart R) l' = .ok (t, ev) ∧
      ∀ sz, Positive sz → ∀ b o, RRun env sz (hasData ev) t b o ↔ b = (archiveOf env R).drop (dataPos due0 pos0 x + add) ∧ o = .finished := by
  obtain ⟨l, g1, _, _, _, g2⟩ := C41_location hf hq h0 hd hx
  obtain ⟨l', g3, g4⟩ := g2 hfit
  obtain ⟨a0, st0, _, i0⟩ := h0.inv hf hq
  have hopen : l.designator = 110 → ¬ Open (rStart R) l.path := by
    intro h110 ho
    have hxne : x ≠ [] := by intro hh; rw [hh] at hx; simp at hx
    obtain ⟨up, d, tab, ns, r1, r2, r3⟩ := i0.reports hf hf.size hd hxne
    obtain ⟨up', d', tab', ns', q1, q2, q3, q4, _⟩ := currentLocation_ok g1
    rw [r1] at q1
    injection q1 with q1
    injection q1 with q5 q1
    injection q1 with q6 q7
    subst q5 q6 q7
    rw [r2] at q2
    injection q2 with q2
    subst q2
    obtain ⟨names, more, n1, n2⟩ := ho
    have : names = [] := by
      have : (some [] : Option (List Bytes)) = some (names ++ more) := n1
      injection this with this
      exact (List.append_eq_nil_iff.1 this.symm).1
    subst this
    rw [q3] at n2
    have hns : ns ≠ [] := by
      intro hh
      subst hh
      rw [q4] at h110
      unfold reported at r1
      simp only at r1
      cases hs : s0.state <;> rw [hs] at r1 <;> simp only at r1
      case entry => injection r1 with r1; injection r1 with _ r1; injection r1 with r1 _; subst r1; exact absurd h110 (by decide)
      case inPayload => injection r1 with r1; injection r1 with _ r1; injection r1 with r1 _; subst r1; exact absurd h110 (by decide)
      case goodbye => injection r1 with r1; injection r1 with _ r1; injection r1 with r1 _; subst r1; exact absurd h110 (by decide)
      case filename =>
        split at r1
        · cases r1
        · injection r1 with r1
          injection r1 with r1 _
          rw [← r1] at r2
          unfold upNames at r2
          split at r2
          · injection r2 with r2; simp at r2
          · cases r2
      all_goals cases r1
    exact joinNames_ne hns r3 n2.symm
  obtain ⟨t, ev, t1, t2⟩ := C41_seek_partial hf hq h0 hd hx g1 g4 .start hopen
  exact ⟨l, l', t, ev, g1, g3, t1, t2⟩

end Casync.Resume
