import Verif.Lemmas.OriginLoc
import Verif.Props.Resume
/-!
What the driver of `Model/CacheMake.lean` relies on in the encoder.
-/
namespace Casync.CacheMake
open Resume
open Location (Location)

section
variable {env : Env} {R : Obj}

/-- The location for the bytes at a point, in full. -/
theorem located (hf : Fine env R) (hq : Goodbye.Sorts env.qsort) {pos : Nat} {m due : Bool} {s : REnc} (h : Hist env R pos m due s) {x : Bytes} (hd : Data env due s x) (hx : x ≠ []) :
    ∃ up d tab ns, reported s = .ok (up, d, tab) ∧ d ≠ Location.void ∧ s.payloadOff ≤ dataPos due pos x ∧ dataPos due pos x + x.length ≤ (archiveOf env R).length ∧
      (∀ add, add < x.length → currentLocation env s add =
        .ok { path := joinNames ns, designator := d, offset := s.payloadOff + add, size := u64max, mtime := (env.stamp (joinNames ns)).1, inode := (env.stamp (joinNames ns)).2.1,
              generation := (env.stamp (joinNames ns)).2.2, nameTable := tab, archiveOffset := dataPos due pos x + add, featureFlags := env.featureFlags }) ∧
      x = slice (archiveOf env R) (dataPos due pos x) x.length := by
  obtain ⟨a, st, _, hi⟩ := h.inv hf hq
  have hu : u64max = 2 ^ 64 - 1 := by decide
  have hA := hf.size
  have hlen : 0 < x.length := by cases x with | nil => exact absurd rfl hx | cons => simp
  obtain ⟨up, d, tab, ns, r1, r2, r3⟩ := hi.reports hf hA hd hx
  obtain ⟨v1, v2, v3⟩ := reported_range (h.range hf hq) r1
  have hpay := hi.inv.pay
  obtain ⟨p1, p2, _⟩ := hi.plan hf hA hd hlen ⟨_, r1⟩
  refine ⟨up, d, tab, ns, r1, v3, by omega, by omega, ?_, ?_⟩
  · intro add hadd
    have hnew : Location.new (some (joinNames ns)) d ((s.payloadOff + add) % 2 ^ 64) u64max = .ok { path := joinNames ns, designator := d, offset := s.payloadOff + add, size := u64max } := by
      unfold Location.new
      rw [Nat.mod_eq_of_lt (by omega), v2, Option.getD_some]
      simp only [Bool.not_true, Bool.false_eq_true, if_false]
      rw [if_neg (joinNames_slash r3), if_neg (by omega), if_neg (by decide), if_neg (fun hh => v3 hh.1), if_neg (by simp), if_neg v3]
    unfold currentLocation nodePath
    rw [r1]
    show (match upNames up with | some l => Res.ok (joinNames l) | none => .err .EINVAL).bind _ = _
    rw [r2]
    show (Location.new (some (joinNames ns)) d ((s.payloadOff + add) % 2 ^ 64) u64max).bind _ = _
    rw [hnew, hi.inv.off]
    simp only [Res.bind]
    rw [Nat.mod_eq_of_lt (by omega), p1]
  · apply List.ext_getElem?
    intro i
    unfold slice
    by_cases hi' : i < x.length
    · obtain ⟨l, _, _, _, g, _⟩ := C41_location hf hq h hd hi'
      rw [List.getElem?_take_of_lt hi', List.getElem?_drop, g]
    · rw [List.getElem?_eq_none (by omega), List.getElem?_eq_none (by rw [List.length_take]; omega)]

/-- What is known of a location that is reported for byte `i`. -/
structure Std (env : Env) (i : Nat) (l : Location) : Prop where
  root : l.root = none
  size : l.size = u64max
  mtime : l.mtime = (env.stamp l.path).1
  inode : l.inode = (env.stamp l.path).2.1
  generation : l.generation = (env.stamp l.path).2.2
  flags : l.featureFlags = env.featureFlags
  off : l.archiveOffset = i
  le : l.offset ≤ i
  designator : l.designator ≠ Location.void

theorem LocAt.std (hf : Fine env R) (hq : Goodbye.Sorts env.qsort) {i : Nat} {l : Location} (h : LocAt env R i l) : Std env i l ∧ i < (archiveOf env R).length := by
  obtain ⟨pos, m, due, s, x, add, h1, h2, h3, h4, h5⟩ := h
  have hx : x ≠ [] := by intro hh; rw [hh] at h3; simp at h3
  obtain ⟨up, d, tab, ns, r1, r2, r3, r4, r5, _⟩ := located hf hq h1 h2 hx
  rw [r5 add h3] at h4
  injection h4 with h4
  subst h4
  refine ⟨⟨rfl, rfl, rfl, rfl, rfl, rfl, h5.symm, ?_, r2⟩, by omega⟩
  show s.payloadOff + add ≤ i
  omega

/-- The table that is reported with the content of a file. -/
def upTable (s : REnc) : NameTable.Chain := match s.up with | [] => [] | p :: _ => p.table

/-- Where data was fetched or skipped. -/
theorem fetched (hf : Fine env R) (hq : Goodbye.Sorts env.qsort) {pos : Nat} {m : Bool} {s : REnc} {x : Bytes} (h : Hist env R (pos + x.length) m false { s with buf := x }) (hx : x ≠ []) :
    ∃ l, currentLocation env s 0 = .ok l ∧ currentLocation env { s with buf := x } 0 = .ok l ∧ l.offset = s.payloadOff ∧ l.size = u64max ∧ (s.state = .inPayload → l.nameTable = upTable s) ∧
      (∀ j, j < x.length → LocAt env R (pos + j) (byteLoc l j)) ∧ x = slice (archiveOf env R) pos x.length ∧ pos + x.length ≤ (archiveOf env R).length := by
  have hd : Data env false { s with buf := x } x := .inr ⟨rfl, rfl⟩
  obtain ⟨up, d, tab, ns, r1, r2, r3, r4, r5, r6⟩ := located hf hq h hd hx
  have hp : dataPos false (pos + x.length) x = pos := by unfold dataPos; rw [if_neg (by simp)]; omega
  rw [hp] at r3 r4 r5 r6
  have hlen : 0 < x.length := by cases x with | nil => exact absurd rfl hx | cons => simp
  refine ⟨_, r5 0 hlen, r5 0 hlen, rfl, rfl, ?_, ?_, r6, r4⟩
  · intro hst
    unfold reported at r1
    simp only at r1
    rw [hst] at r1
    injection r1 with r1
    injection r1 with _ r1
    injection r1 with _ r1
    exact r1.symm
  · intro j hj
    refine ⟨_, _, _, _, x, j, h, hd, hj, ?_, by rw [hp]⟩
    rw [r5 j hj]
    rfl

theorem enc_data (hf : Fine env R) (hq : Goodbye.Sorts env.qsort) {pos : Nat} {m : Bool} {s : REnc} (h : Hist env R pos m true s) {k : Option Nat} (hk : NotEmpty k) :
    s.buf = [] ∧ ∃ x, x ≠ [] ∧ getData env s k = ({ s with buf := x }, .ok x) ∧ Hist env R (pos + x.length) m false { s with buf := x } := by
  obtain ⟨a, st, _, hi⟩ := h.inv hf hq
  obtain ⟨x, h1, h2, _⟩ := hi.fetch hf hf.size hk
  exact ⟨(hi.todo rfl).2.1, x, h1, h2, .data h hk h2⟩

theorem enc_skip (hf : Fine env R) (hq : Goodbye.Sorts env.qsort) {pos : Nat} {m : Bool} {s : REnc} (h : Hist env R pos m true s) {k : Option Nat} (hk : NotEmpty k) :
    ∃ x, x ≠ [] ∧ skipData env s k = ({ s with buf := x }, .ok x) ∧ Hist env R (pos + x.length) m false { s with buf := x } ∧
      (s.state = .inPayload → ∀ n, k = some n → x.length ≤ n) := by
  obtain ⟨a, st, _, hi⟩ := h.inv hf hq
  obtain ⟨x, h1, h2, _⟩ := hi.pass hf hf.size hk
  refine ⟨x, h1, h2, .skip h hk h2, ?_⟩
  intro hst n hn
  have hb := (hi.todo rfl).2.1
  unfold skipData wholeRecord at h2
  rw [if_neg (by rw [hb]; simp), hst] at h2
  simp only at h2
  split at h2
  · injection h2 with _ h2
    injection h2 with h2
    rw [← h2]
    split
    · simp
    · rw [hn]
      unfold skipPayload
      simp only
      rw [List.length_take]
      omega
  · injection h2 with _ h2; cases h2

/-- A step: it succeeds, and the end is where the archive ends. -/
theorem enc_step (hf : Fine env R) (hq : Goodbye.Sorts env.qsort) {pos : Nat} {m : Bool} {s : REnc} (h : Hist env R pos m false s) :
    ∃ s' ev, step env s = (s', .ok ev) ∧ (ev = .finished → pos = (archiveOf env R).length) := by
  have hrun := (C41_resume_partial hf hq h positive_none).1
  have hb := (h.inv hf hq)
  obtain ⟨a, st, _, hi⟩ := hb
  have hle := hi.bound
  generalize hb : (archiveOf env R).drop pos = b at hrun
  generalize ho : Archive.EOutcome.finished = o at hrun
  generalize hdue : false = due at hrun
  cases hrun with
  | finished a =>
    refine ⟨_, _, a, fun _ => ?_⟩
    have := congrArg List.length hb
    rw [List.length_drop, List.length_nil] at this
    omega
  | error => cases ho
  | crash => cases ho
  | more a n _ => exact ⟨_, _, a, fun hh => absurd hh n⟩
  | data => cases hdue
  | dataError => cases hdue
  | dataCrash => cases hdue

/-- New data begins at offset 0, except in the content of a file. -/
theorem step_offset {s s' : REnc} {ev : Archive.EEv} (h : step env s = (s', .ok ev)) (he : ev ≠ .finished) :
    s'.payloadOff = 0 ∨ (s.state = .inPayload ∧ s'.state = .inPayload ∧ upTable s' = upTable s) := by
  have hent : ∀ (t : REnc) (ev : Archive.EEv), Resume.stepEntered t = (s', .ok ev) → s'.payloadOff = 0 := by
    intro t ev ht
    unfold Resume.stepEntered at ht
    split at ht
    · injection ht with ht _; subst ht; rfl
    · injection ht with _ ht; cases ht
    · injection ht with _ ht; cases ht
  have hpay : ∀ (t : REnc) (ev : Archive.EEv), ev ≠ .finished → stepPayload t = (s', .ok ev) → s'.payloadOff = 0 ∨ s' = t := by
    intro t ev hne ht
    unfold stepPayload at ht
    split at ht
    · split at ht
      · split at ht
        · injection ht with _ ht; injection ht with ht; exact absurd ht.symm hne
        · injection ht with ht _; subst ht; exact .inl rfl
      · injection ht with ht _; exact .inr ht.symm
    · injection ht with _ ht; cases ht
  have hdir : ∀ (t : REnc) (ev : Archive.EEv), Resume.stepDirents env t = (s', .ok ev) → s'.payloadOff = 0 := by
    intro t ev ht
    unfold Resume.stepDirents at ht
    split at ht
    · injection ht with ht _; subst ht; rfl
    · split at ht
      · injection ht with _ ht; cases ht
      · split at ht
        · injection ht with ht _; subst ht; rfl
        · split at ht
          · injection ht with ht _; subst ht; rfl
          · injection ht with _ ht; cases ht
          · injection ht with _ ht; cases ht
        · injection ht with _ ht; cases ht
        · injection ht with _ ht; cases ht
  have hnext : ∀ (t : REnc) (ev : Archive.EEv), stepNextDirent env t = (s', .ok ev) → s'.payloadOff = 0 := by
    intro t ev ht
    unfold stepNextDirent at ht
    split at ht
    · exact hdir _ _ ht
    · injection ht with _ ht; cases ht
    · injection ht with _ ht; cases ht
  unfold step at h
  split at h
  · injection h with _ h; injection h with h; exact absurd h.symm he
  · have hst : (advance s).state = s.state := rfl
    unfold stepNode at h
    rw [hst] at h
    cases hs : s.state <;> rw [hs] at h <;> simp only at h
    case init =>
      split at h
      · rcases hpay _ _ he h with h | h
        · exact .inl h
        · left; rw [h]; rfl
      · exact .inl (hent _ _ h)
    case entered => exact .inl (hent _ _ h)
    case entry =>
      split at h
      · rcases hpay _ _ he h with h | h
        · exact .inl h
        · left; rw [h]; rfl
      · injection h with h _; subst h; exact .inl rfl
      · exact .inl (hdir _ _ h)
      · injection h with h _; subst h; exact .inl rfl
    case inPayload =>
      rcases hpay _ _ he h with h | h
      · exact .inl h
      · right; rw [h]; exact ⟨rfl, hs, rfl⟩
    case nextDirent => exact .inl (hnext _ _ h)
    case firstDirent => exact .inl (hdir _ _ h)
    case filename =>
      split at h
      · exact .inl (hent _ _ h)
      · injection h with _ h; cases h
    case goodbye => injection h with h _; subst h; exact .inl rfl
    case finalize =>
      split at h
      · injection h with _ h; injection h with h; exact absurd h.symm he
      · exact .inl (hnext _ _ h)
    case eof => injection h with _ h; injection h with h; exact absurd h.symm he

/-- The end of a file. -/
theorem done_state {s s' : REnc} (h : step env s = (s', .ok .doneFile)) : s'.state = .finalize := by
  have hent : ∀ (t : REnc), Resume.stepEntered t ≠ (s', .ok .doneFile) := by
    intro t ht
    unfold Resume.stepEntered at ht
    split at ht
    · injection ht with _ ht; cases ht
    · injection ht with _ ht; cases ht
    · injection ht with _ ht; cases ht
  have hpay : ∀ (t : REnc), stepPayload t = (s', .ok .doneFile) → s'.state = .finalize := by
    intro t ht
    unfold stepPayload at ht
    split at ht
    · split at ht
      · split at ht
        · injection ht with _ ht; cases ht
        · injection ht with ht _; subst ht; rfl
      · injection ht with _ ht; cases ht
    · injection ht with _ ht; cases ht
  have hdir : ∀ (t : REnc), Resume.stepDirents env t ≠ (s', .ok .doneFile) := by
    intro t ht
    unfold Resume.stepDirents at ht
    split at ht
    · injection ht with _ ht; cases ht
    · split at ht
      · injection ht with _ ht; cases ht
      · split at ht
        · injection ht with _ ht; cases ht
        · split at ht
          · injection ht with _ ht; cases ht
          · injection ht with _ ht; cases ht
          · injection ht with _ ht; cases ht
        · injection ht with _ ht; cases ht
        · injection ht with _ ht; cases ht
  have hnext : ∀ (t : REnc), stepNextDirent env t ≠ (s', .ok .doneFile) := by
    intro t ht
    unfold stepNextDirent at ht
    split at ht
    · exact hdir _ ht
    · injection ht with _ ht; cases ht
    · injection ht with _ ht; cases ht
  unfold step at h
  split at h
  · injection h with _ h; cases h
  · unfold stepNode at h
    rw [show (advance s).state = s.state from rfl] at h
    cases hs : s.state <;> rw [hs] at h <;> simp only at h
    case init =>
      split at h
      · exact hpay _ h
      · exact absurd h (hent _)
    case entered => exact absurd h (hent _)
    case entry =>
      split at h
      · exact hpay _ h
      · injection h with h _; subst h; rfl
      · exact absurd h (hdir _)
      · injection h with _ h; cases h
    case inPayload => exact hpay _ h
    case nextDirent => exact absurd h (hnext _)
    case firstDirent => exact absurd h (hdir _)
    case filename =>
      split at h
      · exact absurd h (hent _)
      · injection h with _ h; cases h
    case goodbye => injection h with h _; subst h; rfl
    case finalize =>
      split at h
      · injection h with _ h; cases h
      · exact absurd h (hnext _)
    case eof => injection h with _ h; cases h

theorem enc_seek (hf : Fine env R) (hq : Goodbye.Sorts env.qsort) {i pos : Nat} {due : Bool} {s : REnc} {l l' : Location} (hl : LocAt env R i l) (hsame : SamePlace l l')
    (h : Hist env R pos true due s) (hopen : l.designator = 110 → ¬ Open s l.path) :
    ∃ t ev, seekLocation s l' = .ok (t, ev) ∧ hasData ev = true ∧ Hist env R i false true t := by
  obtain ⟨pos0, m0, due0, s0, x, add, h1, h2, h3, h4, h5⟩ := hl
  obtain ⟨a0, st0, _, i0⟩ := h1.inv hf hq
  obtain ⟨a, st, hst, hi⟩ := h.inv hf hq
  have := hst rfl
  subst this
  obtain ⟨t, ev, st', t1, t2, _, _, _⟩ := i0.seek hf hf.size h2 h3 h4 hsame hi hopen
  refine ⟨t, ev, t1, t2, ?_⟩
  have := Hist.seek (m := false) h1 h2 h3 h4 hsame h hopen t1 (fun _ => rfl)
  rw [t2, ← h5] at this
  exact this

end

end Casync.CacheMake
