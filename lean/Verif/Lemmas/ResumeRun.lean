import Verif.Lemmas.ResumeSim
import Verif.Props.Archive
/-!
What is left of a session at each point of it.
-/
namespace Casync.Resume
open Casync Archive

theorem stepDirents_shape {e e' : Enc} {n : ENode} {rest : List ENode} {ev : EEv} (h : Archive.stepDirents e n rest = (e', .ok ev)) :
    e'.buf = e.buf ∧ e'.archiveOff = e.archiveOff ∧ e'.payloadOff = 0 := by
  unfold Archive.stepDirents at h
  split at h
  · injection h with h _; subst h; exact ⟨rfl, rfl, rfl⟩
  · split at h
    · injection h with _ h; cases h
    · split at h
      · injection h with h _; subst h; exact ⟨rfl, rfl, rfl⟩
      · injection h with h _; subst h; exact ⟨rfl, rfl, rfl⟩

theorem stepEntered_shape {e e' : Enc} {ev : EEv} (h : Archive.stepEntered e = (e', .ok ev)) : e'.buf = e.buf ∧ e'.archiveOff = e.archiveOff ∧ e'.payloadOff = 0 := by
  unfold Archive.stepEntered at h
  split at h
  · injection h with _ h; cases h
  · injection h with h _; subst h; exact ⟨rfl, rfl, rfl⟩

theorem stepEPayload_shape {e e' : Enc} {ev : EEv} (hs : e.state = .inPayload) (h : stepEPayload e = (e', .ok ev)) :
    e'.buf = e.buf ∧ e'.archiveOff = e.archiveOff ∧ (e'.payloadOff = 0 ∨ e'.state = .inPayload) := by
  unfold stepEPayload at h
  split at h
  · injection h with _ h; cases h
  · split at h
    · split at h
      · split at h
        · injection h with h _; subst h; exact ⟨rfl, rfl, .inl rfl⟩
        · injection h with h _; subst h; exact ⟨rfl, rfl, .inl rfl⟩
      · injection h with h _; subst h; exact ⟨rfl, rfl, .inr hs⟩
    · injection h with _ h; cases h

theorem eStepNode_shape {e e' : Enc} {ev : EEv} (h : eStepNode e = (e', .ok ev)) (hne : e.state ≠ .eof) :
    e'.buf = e.buf ∧ e'.archiveOff = e.archiveOff ∧ (e'.payloadOff = 0 ∨ e'.state = .inPayload) := by
  unfold eStepNode at h
  split at h
  · injection h with _ h; cases h
  · rename_i n rest hn
    cases hs : e.state <;> rw [hs] at h <;> simp only at h
    case init =>
      split at h
      · exact stepEPayload_shape (e := eEnter e .inPayload) rfl h
      · have := stepEntered_shape h
        exact ⟨this.1, this.2.1, .inl this.2.2⟩
    case entered =>
      have := stepEntered_shape h
      exact ⟨this.1, this.2.1, .inl this.2.2⟩
    case entry =>
      split at h
      · exact stepEPayload_shape (e := eEnter e .inPayload) rfl h
      · have := stepDirents_shape h
        exact ⟨this.1, this.2.1, .inl this.2.2⟩
      · injection h with h _; subst h; exact ⟨rfl, rfl, .inl rfl⟩
      · injection h with h _; subst h; exact ⟨rfl, rfl, .inl rfl⟩
    case inPayload => exact stepEPayload_shape hs h
    case nextDirent =>
      have := stepDirents_shape h
      exact ⟨this.1, this.2.1, .inl this.2.2⟩
    case firstDirent =>
      have := stepDirents_shape h
      exact ⟨this.1, this.2.1, .inl this.2.2⟩
    case filename =>
      split at h
      · have := stepEntered_shape h
        exact ⟨this.1, this.2.1, .inl this.2.2⟩
      · injection h with _ h; cases h
    case goodbye => injection h with h _; subst h; exact ⟨rfl, rfl, .inl rfl⟩
    case finalize =>
      split at h
      · injection h with h _; subst h; exact ⟨rfl, rfl, .inl rfl⟩
      · have := stepDirents_shape h
        exact ⟨this.1, this.2.1, .inl this.2.2⟩
    case eof => exact absurd hs hne

theorem eStep_shape {e e' : Enc} {ev : EEv} (h : eStep e = (e', .ok ev)) (hne : ev ≠ .finished) :
    e.state ≠ .eof ∧ e'.buf = [] ∧ e'.archiveOff = e.archiveOff + e.buf.length ∧ (e'.payloadOff = 0 ∨ e'.state = .inPayload) := by
  unfold eStep at h
  split at h
  · injection h with _ h; injection h with h; exact absurd h.symm hne
  · rename_i hs
    have := eStepNode_shape h (by exact hs)
    exact ⟨hs, this.1, this.2.1, this.2.2⟩

/-! ### What is left -/

variable {q : List Goodbye.NameItem → List Goodbye.NameItem}

def RestE (q : List Goodbye.NameItem → List Goodbye.NameItem) (A : Bytes) (e : Enc) : Prop :=
  ∀ sz, Positive sz → ERun q sz e (A.drop (e.archiveOff + e.buf.length)) .finished

def RestD (q : List Goodbye.NameItem → List Goodbye.NameItem) (A : Bytes) (e : Enc) : Prop :=
  ∀ sz, Positive sz → ∃ e1 x b, Archive.getData q e (sz 0) = (e1, .ok x) ∧ ERun q (fun n => sz (n + 1)) e1 b .finished ∧ x ++ b = A.drop e.archiveOff

theorem hasData_mem {ev : EEv} : hasData ev = true ↔ ev ∈ [EEv.nextFile, .payload, .data] := by
  cases ev <;> simp [hasData]

theorem ERun.after {sz : Nat → Option Nat} {e e' : Enc} {ev : EEv} {b : Bytes} (h : ERun q sz e b .finished) (hs : eStep e = (e', .ok ev)) :
    (ev = .finished ∧ b = []) ∨ (ev = .doneFile ∧ ERun q sz e' b .finished) ∨
      (hasData ev = true ∧ ∃ e1 x b', Archive.getData q e' (sz 0) = (e1, .ok x) ∧ ERun q (fun n => sz (n + 1)) e1 b' .finished ∧ x ++ b' = b) := by
  cases h with
  | finished a => rw [hs] at a; injection a with _ a; injection a with a; exact .inl ⟨a, rfl⟩
  | done a r =>
    rw [hs] at a; injection a with a1 a2; injection a2 with a2; subst a1 a2
    exact .inr (.inl ⟨rfl, r⟩)
  | data a m g r =>
    rw [hs] at a; injection a with a1 a2; injection a2 with a2; subst a1 a2
    exact .inr (.inr ⟨hasData_mem.2 m, _, _, _, g, r, rfl⟩)

theorem RestE.step {A : Bytes} {e e' : Enc} {ev : EEv} (h : RestE q A e) (hs : eStep e = (e', .ok ev)) (hne : ev ≠ .finished) :
    (hasData ev = true → RestD q A e') ∧ (hasData ev = false → RestE q A e') := by
  obtain ⟨_, h1, h2, _⟩ := eStep_shape hs hne
  constructor
  · intro hd sz hp
    rcases ERun.after (h sz hp) hs with a | a | ⟨_, e1, x, b, g, r, c⟩
    · exact absurd a.1 hne
    · rw [a.1] at hd; cases hd
    · exact ⟨e1, x, b, g, r, by rw [c, h2]⟩
  · intro hd sz hp
    rcases ERun.after (h sz hp) hs with a | a | a
    · exact absurd a.1 hne
    · have := a.2
      rw [h1, h2, List.length_nil, Nat.add_zero]
      exact this
    · rw [a.1] at hd; cases hd

def scons (k : Option Nat) (sz : Nat → Option Nat) : Nat → Option Nat
  | 0 => k
  | n + 1 => sz n

theorem Positive.scons {k : Option Nat} {sz : Nat → Option Nat} (hk : NotEmpty k) (h : Positive sz) : Positive (Resume.scons k sz) := by
  intro n m hm
  cases n with
  | zero => exact hk m hm
  | succ n => exact h n m hm

theorem getData_shape {e e' : Enc} {k : Option Nat} {x : Bytes} (hb : e.buf = []) (h : Archive.getData q e k = (e', .ok x)) :
    e' = setBuf e x ∧ makeData q e k = .ok x := by
  unfold Archive.getData at h
  rw [if_neg (by rw [hb]; simp)] at h
  cases hm : makeData q e k with
  | ok b => rw [hm] at h; injection h with h1 h2; injection h2 with h2; subst h2; exact ⟨h1.symm, rfl⟩
  | err y => rw [hm] at h; injection h with _ h; cases h
  | ub => rw [hm] at h; injection h with _ h; cases h

theorem RestD.data {A : Bytes} {e e' : Enc} {k : Option Nat} {x : Bytes} (h : RestD q A e) (hb : e.buf = []) (hk : NotEmpty k)
    (hg : Archive.getData q e k = (e', .ok x)) : RestE q A e' ∧ e.archiveOff + x.length ≤ A.length + (if x = [] then e.archiveOff else 0) := by
  obtain ⟨h1, h2⟩ := getData_shape hb hg
  have key : ∀ sz, Positive sz → ∃ b, ERun q sz e' b .finished ∧ x ++ b = A.drop e.archiveOff := by
    intro sz hp
    obtain ⟨e1, y, b, g, r, c⟩ := h (scons k sz) (Positive.scons hk hp)
    rw [show scons k sz 0 = k from rfl, hg] at g
    injection g with g1 g2
    injection g2 with g2
    subst g1 g2
    exact ⟨b, r, c⟩
  have hlen : ∀ b, x ++ b = A.drop e.archiveOff → b = A.drop (e.archiveOff + x.length) := by
    intro b hb
    rw [← List.drop_drop, ← hb, List.drop_left' rfl]
  constructor
  · intro sz hp
    obtain ⟨b, r, c⟩ := key sz hp
    rw [hlen b c] at r
    rw [h1]
    rw [h1] at r
    exact r
  · obtain ⟨b, _, c⟩ := key (fun _ => none) (by intro n m hm; cases hm)
    have := congrArg List.length c
    rw [List.length_append, List.length_drop] at this
    split
    · rename_i hx; rw [hx, List.length_nil]; omega
    · rename_i hx
      have : 0 < x.length := List.length_pos_iff.2 hx
      omega

/-! ### Inside of a record -/

/-- The same point, `add` bytes further on. -/
def shift (e : Enc) (add : Nat) : Enc := { e with archiveOff := e.archiveOff + add, payloadOff := e.payloadOff + add }

theorem ERun.shift {sz : Nat → Option Nat} {e : Enc} {x b : Bytes} {add : Nat} {o : EOutcome} (hs : e.state ≠ .eof) (ha : add ≤ x.length)
    (h : ERun q sz (setBuf e x) b o) : ERun q sz (setBuf (Resume.shift e add) (x.drop add)) b o := by
  refine ERun.congr ?_ h
  unfold eStep
  rw [if_neg (show ¬ (setBuf (Resume.shift e add) (x.drop add)).state = .eof from hs), if_neg (show ¬ (setBuf e x).state = .eof from hs)]
  congr 1
  unfold eAdvance setBuf Resume.shift
  simp only [List.length_drop]
  rw [show e.payloadOff + add + (x.length - add) = e.payloadOff + x.length by omega, show e.archiveOff + add + (x.length - add) = e.archiveOff + x.length by omega]

/-- Data that does not depend on the suggested size. -/
theorem RestD.shift_record {A : Bytes} {e : Enc} {k0 : Option Nat} {x0 : Bytes} {add : Nat} (h : RestD q A e) (hb : e.buf = []) (hs : e.state ≠ .eof)
    (hm0 : makeData q e k0 = .ok x0) (ha : add ≤ x0.length) (hk : ∀ k, makeData q e k = makeData q e k0)
    (hm : ∀ k, makeData q (shift e add) k = .ok (x0.drop add)) : RestD q A (shift e add) := by
  intro sz hp
  obtain ⟨e1, x, b, g, r, c⟩ := h sz hp
  obtain ⟨g1, g2⟩ := getData_shape hb g
  rw [hk, hm0] at g2
  injection g2 with g2
  subst g1 g2
  refine ⟨_, _, b, getData_make (e := shift e add) hb (hm _), ERun.shift hs ha r, ?_⟩
  show x0.drop add ++ b = A.drop (e.archiveOff + add)
  rw [← List.drop_drop, ← c, List.drop_append_of_le_length ha]

theorem getPayloadData_len (c : Bytes) (off : Nat) (k : Option Nat) : (getPayloadData c off k).length ≤ bufferSize ∧ (getPayloadData c off k).length ≤ c.length - off := by
  unfold getPayloadData
  simp only [List.length_take, List.length_drop]
  cases k <;> simp only <;> omega

theorem getPayloadData_exact {c : Bytes} {off add : Nat} (h1 : add ≤ bufferSize) (h2 : add ≤ c.length - off) : getPayloadData c off (some add) = (c.drop off).take add := by
  unfold getPayloadData
  simp only
  congr 1
  omega

theorem RestD.shift {A : Bytes} {e : Enc} {k0 : Option Nat} {x0 : Bytes} {add : Nat} (h : RestD q A e) (hb : e.buf = [])
    (hm0 : makeData q e k0 = .ok x0) (ha : add < x0.length) : RestD q A (Resume.shift e add) := by
  have hm0' := hm0
  unfold makeData at hm0'
  cases hn : e.nodes with
  | nil => rw [hn] at hm0'; simp at hm0'
  | cons n rest =>
    rw [hn] at hm0'
    simp only at hm0'
    have hn' : (Resume.shift e add).nodes = n :: rest := hn
    cases hs : e.state <;> rw [hs] at hm0' <;> simp only at hm0'
    case entry =>
      injection hm0' with hm0'
      refine h.shift_record hb (by rw [hs]; simp) hm0 (by omega) ?_ ?_
      · intro k; unfold makeData; rw [hn, hs]
      · intro k
        unfold makeData
        rw [hn', show (Resume.shift e add).state = .entry from hs]
        simp only
        rw [← hm0', List.drop_drop]; rfl
    case filename =>
      refine h.shift_record hb (by rw [hs]; simp) hm0 (by omega) ?_ ?_
      · intro k; unfold makeData; rw [hn, hs]
      · intro k
        unfold makeData
        rw [hn', show (Resume.shift e add).state = .filename from hs]
        simp only
        split at hm0'
        · rename_i heq
          injection hm0' with hm0'
          rw [← hm0', List.drop_drop]; rfl
        · cases hm0'
    case goodbye =>
      refine h.shift_record hb (by rw [hs]; simp) hm0 (by omega) ?_ ?_
      · intro k; unfold makeData; rw [hn, hs]
      · intro k
        unfold makeData
        rw [hn', show (Resume.shift e add).state = .goodbye from hs]
        simp only
        have h1 : (Resume.shift e add).archiveOff = e.archiveOff + add := rfl
        have h2 : (Resume.shift e add).payloadOff = e.payloadOff + add := rfl
        rw [h1, h2, Nat.add_sub_add_right]
        by_cases hlt : e.archiveOff < e.payloadOff
        · rw [if_pos hlt] at hm0'; cases hm0'
        · rw [if_neg hlt] at hm0'
          rw [if_neg (by omega)]
          obtain ⟨rows, r1, r2⟩ := Res.bind_eq_ok.1 hm0'
          obtain ⟨u, r3, r4⟩ := Res.bind_eq_ok.1 r2
          injection r4 with r4
          refine Res.bind_eq_ok.2 ⟨rows, r1, Res.bind_eq_ok.2 ⟨u, r3, ?_⟩⟩
          rw [← r4, List.drop_drop]
    case inPayload =>
      cases ht : n.tree with
      | file e0 a0 api c =>
        rw [ht] at hm0'
        simp only at hm0'
        by_cases hc : e.payloadOff ≥ c.length
        · rw [if_pos hc] at hm0'; injection hm0' with hm0'; rw [← hm0'] at ha; simp at ha
        · rw [if_neg hc] at hm0'
          injection hm0' with hm0'
          obtain ⟨l1, l2⟩ := getPayloadData_len c e.payloadOff k0
          rw [hm0'] at l1 l2
          by_cases ha0 : add = 0
          · subst ha0; exact h
          · intro sz hp
            obtain ⟨e1, x, b, g, r, hA⟩ := h (scons (some add) sz) (Positive.scons (by intro n hn; injection hn; omega) hp)
            obtain ⟨g1, g2⟩ := getData_shape hb g
            have hx : x = (c.drop e.payloadOff).take add := by
              unfold makeData at g2
              rw [hn, hs] at g2
              simp only at g2
              rw [ht] at g2
              simp only at g2
              rw [if_neg hc] at g2
              injection g2 with g2
              rw [← g2]
              exact getPayloadData_exact (by omega) (by omega)
            have hxl : x.length = add := by rw [hx, List.length_take, List.length_drop]; omega
            have hstep : eStep e1 = (Resume.shift e add, .ok .payload) := by
              rw [g1]
              unfold eStep
              rw [if_neg (by show ¬ e.state = .eof; rw [hs]; simp)]
              have e1 : eAdvance (setBuf e x) = Resume.shift e add := by
                unfold eAdvance setBuf Resume.shift
                simp only [hxl, hb]
              rw [e1]
              unfold eStepNode
              rw [hn', show (Resume.shift e add).state = .inPayload from hs]
              simp only
              unfold stepEPayload
              rw [hn']
              simp only
              rw [ht]
              simp only
              rw [if_neg (by show ¬ e.payloadOff + add ≥ c.length; omega)]
            rcases ERun.after r hstep with a | a | ⟨_, e2, y, b', g', r', hb'⟩
            · cases a.1
            · cases a.1
            · refine ⟨e2, y, b', g', r', ?_⟩
              show y ++ b' = A.drop (e.archiveOff + add)
              rw [← List.drop_drop, ← hA, ← hb', ← hxl, List.drop_left' rfl]
      | dir _ _ _ _ => rw [ht] at hm0'; simp at hm0'
      | symlink _ _ _ => rw [ht] at hm0'; simp at hm0'
      | device _ _ _ _ => rw [ht] at hm0'; simp at hm0'
      | special _ _ => rw [ht] at hm0'; simp at hm0'
    all_goals cases hm0'

/-- The content of a file, `add` bytes further on. -/
theorem RestD.skip {A : Bytes} {n : ENode} {rest : List ENode} {e0 : Entry} {a0 : Attrs} {api : Bool} {c : Bytes} :
    ∀ {add : Nat} {e : Enc}, RestD q A e → e.buf = [] → e.nodes = n :: rest → n.tree = .file e0 a0 api c → e.state = .inPayload → e.payloadOff + add < c.length → RestD q A (Resume.shift e add)
  | 0, _, h, _, _, _, _, _ => h
  | add + 1, e, h, hb, hn, ht, hs, ho => by
    have hbs : 2 ≤ bufferSize := by decide
    have hm : makeData q e none = .ok (getPayloadData c e.payloadOff none) := by
      unfold makeData
      rw [hn, hs]
      simp only
      rw [ht]
      simp only
      rw [if_neg (by omega)]
    have hl : 1 < (getPayloadData c e.payloadOff none).length := by
      unfold getPayloadData
      simp only [List.length_take, List.length_drop]
      omega
    have h1 := h.shift hb hm hl
    have := RestD.skip (add := add) h1 hb hn ht hs (by show e.payloadOff + 1 + add < _; omega)
    unfold Resume.shift at this ⊢
    simp only at this ⊢
    rw [Nat.add_assoc, Nat.add_assoc, Nat.add_comm 1 add] at this
    exact this

/-- Data that was delivered or skipped. -/
def Fetched (q : List Goodbye.NameItem → List Goodbye.NameItem) (e : Enc) (x : Bytes) : Prop :=
  (∃ k, NotEmpty k ∧ makeData q e k = .ok x) ∨
  (∃ n rest e0 a0 api c d, e.nodes = n :: rest ∧ n.tree = .file e0 a0 api c ∧ e.state = .inPayload ∧ e.payloadOff < c.length ∧ x = (c.drop e.payloadOff).take d ∧ 0 < d)

theorem Fetched.shift {A : Bytes} {e : Enc} {x : Bytes} {add : Nat} (hx : Fetched q e x) (h : RestD q A e) (hb : e.buf = []) (ha : add < x.length) : RestD q A (Resume.shift e add) := by
  rcases hx with ⟨k, hk, hm⟩ | ⟨n, rest, e0, a0, api, c, d, f1, f2, f3, f4, f5, f6⟩
  · exact h.shift hb hm ha
  · refine h.skip hb f1 f2 f3 ?_
    rw [f5, List.length_take, List.length_drop] at ha
    omega

theorem payload_one {e : Enc} {n : ENode} {rest : List ENode} {e0 : Entry} {a0 : Attrs} {api : Bool} {c : Bytes} (f1 : e.nodes = n :: rest) (f2 : n.tree = .file e0 a0 api c)
    (f3 : e.state = .inPayload) (f4 : e.payloadOff < c.length) : makeData q e (some 1) = .ok ((c.drop e.payloadOff).take 1) := by
  have hbs : 2 ≤ bufferSize := by decide
  unfold makeData
  rw [f1, f3]
  simp only
  rw [f2]
  simp only
  rw [if_neg (by omega), getPayloadData_exact (by omega) (by omega)]

theorem notEmpty_one : NotEmpty (some 1) := by intro n hn; injection hn; omega

/-- What comes after the data. -/
theorem Fetched.rest {A : Bytes} {e : Enc} {x : Bytes} (hx : Fetched q e x) (h : RestD q A e) (hb : e.buf = []) : RestE q A (setBuf e x) := by
  rcases hx with ⟨k, hk, hm⟩ | ⟨n, rest, e0, a0, api, c, d, f1, f2, f3, f4, f5, f6⟩
  · exact (h.data hb hk (getData_make hb hm)).1
  · have hxl : 0 < x.length := by rw [f5, List.length_take, List.length_drop]; omega
    have hxl' : e.payloadOff + x.length ≤ c.length := by rw [f5, List.length_take, List.length_drop]; omega
    have hr := h.skip (add := x.length - 1) hb f1 f2 f3 (by omega)
    have hone := payload_one (q := q) (e := Resume.shift e (x.length - 1)) f1 f2 f3 (by show e.payloadOff + (x.length - 1) < _; omega)
    have hlast : (c.drop (e.payloadOff + (x.length - 1))).take 1 = x.drop (x.length - 1) := by
      rw [f5, List.drop_take, List.drop_drop]
      have hle : ((c.drop e.payloadOff).take d).length = x.length := by rw [f5]
      rw [hle, ← List.take_length (l := (c.drop (e.payloadOff + (x.length - 1)))), List.take_take, List.take_take, List.length_drop]
      rw [List.length_take, List.length_drop] at hle
      congr 1
      omega
    have hone' : makeData q (Resume.shift e (x.length - 1)) (some 1) = .ok (x.drop (x.length - 1)) := by rw [← hlast]; exact hone
    have hE := (hr.data (k := some 1) hb notEmpty_one (getData_make hb hone')).1
    intro sz hp
    have := hE sz hp
    have hoff : (setBuf (Resume.shift e (x.length - 1)) (x.drop (x.length - 1))).archiveOff + (setBuf (Resume.shift e (x.length - 1)) (x.drop (x.length - 1))).buf.length =
        (setBuf e x).archiveOff + (setBuf e x).buf.length := by
      unfold setBuf Resume.shift
      simp only [List.length_drop]
      omega
    rw [hoff] at this
    refine ERun.congr ?_ this
    unfold eStep
    rw [if_neg (show ¬ (setBuf e x).state = .eof by show ¬ e.state = .eof; rw [f3]; simp),
      if_neg (show ¬ (setBuf (Resume.shift e (x.length - 1)) (x.drop (x.length - 1))).state = .eof by show ¬ e.state = .eof; rw [f3]; simp)]
    congr 1
    unfold eAdvance setBuf Resume.shift
    simp only [List.length_drop]
    rw [show e.payloadOff + (x.length - 1) + (x.length - (x.length - 1)) = e.payloadOff + x.length by omega,
      show e.archiveOff + (x.length - 1) + (x.length - (x.length - 1)) = e.archiveOff + x.length by omega]

/-- The data is in the archive. -/
theorem Fetched.bytes {A : Bytes} {e : Enc} {x : Bytes} {add : Nat} (hx : Fetched q e x) (h : RestD q A e) (hb : e.buf = []) (ha : add < x.length) :
    A[e.archiveOff + add]? = x[add]? := by
  rcases hx with ⟨k, hk, hm⟩ | ⟨n, rest, e0, a0, api, c, d, f1, f2, f3, f4, f5, f6⟩
  · obtain ⟨e1, y, b, g, _, cc⟩ := h (scons k (fun _ => none)) (Positive.scons hk (by intro n m hm; cases hm))
    have hy := (getData_shape (e := e) hb g).2
    rw [show scons k (fun _ => none) 0 = k from rfl, hm] at hy
    injection hy with hy
    subst hy
    have := congrArg (fun l => l[add]?) cc
    simp only [List.getElem?_drop, List.getElem?_append_left ha] at this
    exact this.symm
  · have ha' := ha
    rw [f5, List.length_take, List.length_drop] at ha'
    have hr := h.skip (add := add) hb f1 f2 f3 (by omega)
    have hone := payload_one (q := q) (e := Resume.shift e add) f1 f2 f3 (by show e.payloadOff + add < _; omega)
    obtain ⟨e1, y, b, g, _, cc⟩ := hr (scons (some 1) (fun _ => none)) (Positive.scons notEmpty_one (by intro n m hm; cases hm))
    have hy := (getData_shape (e := Resume.shift e add) hb g).2
    rw [show scons (some 1) (fun _ => none) 0 = some 1 from rfl, hone] at hy
    injection hy with hy
    subst hy
    have := congrArg (fun l => l[0]?) cc
    simp only [List.getElem?_drop] at this
    rw [List.getElem?_append_left (by rw [List.length_take, List.length_drop]; show 0 < min 1 (c.length - (e.payloadOff + add)); omega), List.getElem?_take, if_pos (by omega), List.getElem?_drop] at this
    rw [show (Resume.shift e add).archiveOff = e.archiveOff + add from rfl, show (Resume.shift e add).payloadOff = e.payloadOff + add from rfl, Nat.add_zero, Nat.add_zero] at this
    rw [← this, f5, List.getElem?_take, if_pos (by omega), List.getElem?_drop]

theorem Fetched.le {A : Bytes} {e : Enc} {x : Bytes} (hx : Fetched q e x) (h : RestD q A e) (hb : e.buf = []) (hne : x ≠ []) : e.archiveOff + x.length ≤ A.length := by
  have hpos : 0 < x.length := List.length_pos_iff.2 hne
  have := hx.bytes h hb (add := x.length - 1) (by omega)
  have hlt : e.archiveOff + (x.length - 1) < A.length := by
    apply Classical.byContradiction
    intro hge
    rw [List.getElem?_eq_none (by omega), List.getElem?_eq_getElem (by omega)] at this
    cases this
  omega

/-- There is something to deliver. -/
def LeftE (q : List Goodbye.NameItem → List Goodbye.NameItem) (e : Enc) : Prop := ∀ k x, NotEmpty k → makeData q e k = .ok x → x ≠ []

/-- The states in which there is something to deliver. -/
def Busy (e : Enc) : Prop :=
  (e.payloadOff = 0 ∧ e.state ≠ .inPayload) ∨ ∃ n rest e0 a0 api c, e.state = .inPayload ∧ e.nodes = n :: rest ∧ n.tree = .file e0 a0 api c ∧ e.payloadOff < c.length

theorem stepDirents_busy {e e' : Enc} {n : ENode} {rest : List ENode} {ev : EEv} (h : Archive.stepDirents e n rest = (e', .ok ev)) : Busy e' := by
  unfold Archive.stepDirents at h
  split at h
  · injection h with h _; subst h; exact .inl ⟨rfl, by simp [eEnter]⟩
  · split at h
    · injection h with _ h; cases h
    · split at h
      · injection h with h _; subst h; exact .inl ⟨rfl, by simp [eEnter]⟩
      · injection h with h _; subst h; exact .inl ⟨rfl, by simp [eEnter]⟩

theorem stepEntered_busy {e e' : Enc} {ev : EEv} (h : Archive.stepEntered e = (e', .ok ev)) : Busy e' := by
  unfold Archive.stepEntered at h
  split at h
  · injection h with _ h; cases h
  · injection h with h _; subst h; exact .inl ⟨rfl, by simp [eEnter]⟩

theorem stepEPayload_busy {e e' : Enc} {ev : EEv} (hs : e.state = .inPayload) (h : stepEPayload e = (e', .ok ev)) (hd : hasData ev = true) : Busy e' := by
  unfold stepEPayload at h
  split at h
  · injection h with _ h; cases h
  · rename_i n rest hn
    split at h
    · rename_i e0 a0 api c ht
      split at h
      · split at h
        · injection h with _ h; injection h with h; subst h; cases hd
        · injection h with _ h; injection h with h; subst h; cases hd
      · rename_i hlt
        injection h with h _; subst h
        exact .inr ⟨n, rest, e0, a0, api, c, hs, hn, ht, by omega⟩
    · injection h with _ h; cases h

theorem eStep_busy {e e' : Enc} {ev : EEv} (h : eStep e = (e', .ok ev)) (hd : hasData ev = true) : Busy e' := by
  unfold eStep at h
  split at h
  · injection h with _ h; injection h with h; subst h; cases hd
  · generalize eAdvance e = e at h
    unfold eStepNode at h
    split at h
    · injection h with _ h; cases h
    · rename_i n rest hn
      cases hs : e.state <;> rw [hs] at h <;> simp only at h
      case init =>
        split at h
        · exact stepEPayload_busy (e := eEnter e .inPayload) rfl h hd
        · exact stepEntered_busy h
      case entered => exact stepEntered_busy h
      case entry =>
        split at h
        · exact stepEPayload_busy (e := eEnter e .inPayload) rfl h hd
        · exact stepDirents_busy h
        · injection h with h _; subst h; exact .inl ⟨rfl, by simp [eEnter]⟩
        · injection h with _ h; injection h with h; subst h; cases hd
      case inPayload => exact stepEPayload_busy hs h hd
      case nextDirent => exact stepDirents_busy h
      case firstDirent => exact stepDirents_busy h
      case filename =>
        split at h
        · exact stepEntered_busy h
        · injection h with _ h; cases h
      case goodbye => injection h with _ h; injection h with h; subst h; cases hd
      case finalize =>
        split at h
        · injection h with _ h; injection h with h; subst h; cases hd
        · exact stepDirents_busy h
      case eof => injection h with _ h; injection h with h; subst h; cases hd

theorem getPayloadData_left {c : Bytes} {off : Nat} {k : Option Nat} (hk : NotEmpty k) (h : off < c.length) : getPayloadData c off k ≠ [] := by
  intro hh
  have hbs : bufferSize = 65536 := rfl
  have hl := congrArg List.length hh
  unfold getPayloadData at hl
  simp only [List.length_take, List.length_drop, List.length_nil] at hl
  cases k with
  | none => simp only at hl; omega
  | some n => have := hk n rfl; simp only at hl; omega

theorem Busy.left {e : Enc} (h : Busy e) : LeftE q e := by
  intro k x hk hm hx
  subst hx
  unfold makeData at hm
  rcases h with ⟨h0, h1⟩ | ⟨n, rest, e0, a0, api, c, h1, h2, h3, h4⟩
  · split at hm
    · cases hm
    · rename_i n rest hn
      cases hs : e.state <;> rw [hs] at hm <;> simp only at hm
      case entry =>
        injection hm with hm
        have := headBytes_length n.tree
        rw [h0, List.drop_zero] at hm
        rw [hm] at this
        simp at this
      case inPayload => exact absurd hs h1
      case filename =>
        split at hm
        · rename_i nm _ _ _
          injection hm with hm
          have := strRecord_length .filename nm
          rw [h0, List.drop_zero] at hm
          rw [hm, List.length_nil] at this
          omega
        · cases hm
      case goodbye =>
        split at hm
        · cases hm
        · obtain ⟨rows, r1, r2⟩ := Res.bind_eq_ok.1 hm
          obtain ⟨u, r3, r4⟩ := Res.bind_eq_ok.1 r2
          injection r4 with r4
          have := goodbyeBytes_length rows (e.archiveOff - e.payloadOff - n.entryOff)
          rw [h0, List.drop_zero] at r4
          rw [h0] at this
          rw [r4, List.length_nil] at this
          omega
      all_goals cases hm
  · rw [h2, h1] at hm
    simp only at hm
    rw [h3] at hm
    simp only at hm
    rw [if_neg (by omega)] at hm
    injection hm with hm
    exact getPayloadData_left hk h4 hm

/-- Something is left before the end of the data. -/
theorem Fetched.left {e : Enc} {x : Bytes} {add : Nat} (hx : Fetched q e x) (ha : add < x.length) : LeftE q (Resume.shift e add) := by
  intro k y hk hm hy
  subst hy
  rcases hx with ⟨k0, hk0, hm0⟩ | ⟨n, rest, e0, a0, api, c, d, f1, f2, f3, f4, f5, f6⟩
  · unfold makeData at hm hm0
    have hdrop : ∀ w : Bytes, w.drop e.payloadOff = x → w.drop (Resume.shift e add).payloadOff ≠ [] := by
      intro w h1 h2
      have h2 : w.drop (e.payloadOff + add) = [] := h2
      rw [← List.drop_drop, h1] at h2
      have := congrArg List.length h2
      rw [List.length_drop, List.length_nil] at this
      omega
    have hn' : (Resume.shift e add).nodes = e.nodes := rfl
    have hs' : (Resume.shift e add).state = e.state := rfl
    rw [hn', hs'] at hm
    split at hm0
    · cases hm0
    · rename_i n rest hn
      rw [hn] at hm
      simp only at hm
      cases hs : e.state <;> rw [hs] at hm hm0 <;> simp only at hm hm0
      case entry =>
        injection hm with hm
        injection hm0 with hm0
        exact hdrop _ hm0 hm
      case inPayload =>
        cases ht : n.tree <;> rw [ht] at hm hm0 <;> simp only at hm hm0
        case file e0 a0 api c =>
          have hp : (Resume.shift e add).payloadOff = e.payloadOff + add := rfl
          rw [hp] at hm
          by_cases hc : e.payloadOff ≥ c.length
          · rw [if_pos hc] at hm0; injection hm0 with hm0; subst hm0; simp at ha
          · rw [if_neg hc] at hm0
            injection hm0 with hm0
            have := (getPayloadData_len c e.payloadOff k0).2
            rw [hm0] at this
            rw [if_neg (by omega)] at hm
            injection hm with hm
            exact getPayloadData_left hk (by omega) hm
        all_goals cases hm0
      case filename =>
        cases hk : n.kids with
        | nil => rw [hk] at hm0; cases hm0
        | cons b nm t r =>
          rw [hk] at hm hm0
          simp only at hm hm0
          injection hm with hm
          injection hm0 with hm0
          exact hdrop _ hm0 hm
      case goodbye =>
        have h1 : (Resume.shift e add).archiveOff = e.archiveOff + add := rfl
        have h2 : (Resume.shift e add).payloadOff = e.payloadOff + add := rfl
        by_cases hlt : e.archiveOff < e.payloadOff
        · rw [if_pos hlt] at hm0; cases hm0
        · rw [if_neg hlt] at hm0
          rw [if_neg (by rw [h1, h2]; omega)] at hm
          obtain ⟨rows, r1, r2⟩ := Res.bind_eq_ok.1 hm0
          obtain ⟨u, r3, r4⟩ := Res.bind_eq_ok.1 r2
          obtain ⟨rows', q1, q2⟩ := Res.bind_eq_ok.1 hm
          obtain ⟨u', q3, q4⟩ := Res.bind_eq_ok.1 q2
          injection r4 with r4
          injection q4 with q4
          have he : (Resume.shift e add).archiveOff - (Resume.shift e add).payloadOff = e.archiveOff - e.payloadOff := by rw [h1, h2]; omega
          rw [he] at q1 q4
          rw [r1] at q1
          injection q1 with q1
          subst q1
          exact hdrop _ r4 q4
      all_goals cases hm0
  · rw [f5, List.length_take, List.length_drop] at ha
    have hb : Busy (Resume.shift e add) := .inr ⟨n, rest, e0, a0, api, c, f3, f1, f2, by show e.payloadOff + add < _; omega⟩
    exact hb.left k [] hk hm rfl

/-- At the end of a directory its entries do not matter any more. -/
theorem ERun.forget {sz : Nat → Option Nat} {e : Enc} {n n' : ENode} {rest : List ENode} {b : Bytes} (hs : e.state = .goodbye) (hn : e.nodes = n :: rest)
    (h : ERun q sz e b .finished) : ERun q sz { e with nodes := n' :: rest } b .finished := by
  obtain ⟨st, nodes, buf, off, pay⟩ := e
  simp only at hs hn
  subst hs hn
  have k1 := eStep_advance (e := ⟨.goodbye, n :: rest, buf, off, pay⟩) (by simp) rfl
  rw [step_goodbye] at k1
  have k2 := eStep_advance (e := ⟨.goodbye, n' :: rest, buf, off, pay⟩) (by simp) rfl
  rw [step_goodbye] at k2
  rcases ERun.after h k1 with a | ⟨_, r⟩ | a
  · cases a.1
  · refine .done k2 ?_
    cases rest with
    | nil =>
      have f1 : ∀ m : ENode, eStep (eat .finalize [m] (off + buf.length)) = (eat .eof [m] (off + buf.length), .ok .finished) := fun m => rfl
      rcases ERun.after r (f1 n) with a | a | a
      · rw [a.2]; exact .finished (f1 n')
      · cases a.1
      · cases a.1
    | cons p us => exact ERun.congr (by rw [step_finalize, step_finalize]) r
  · cases a.1

theorem RestD.forget {A : Bytes} {e : Enc} {n : ENode} {kids : Kids} {rest : List ENode} (hs : e.state = .goodbye) (hn : e.nodes = n :: rest) (hb : e.buf = [])
    (h : RestD q A e) : RestD q A { e with nodes := { n with kids := kids } :: rest } := by
  intro sz hp
  obtain ⟨e1, x, b, g, r, c⟩ := h sz hp
  obtain ⟨g1, g2⟩ := getData_shape hb g
  subst g1
  refine ⟨_, x, b, getData_make (e := { e with nodes := { n with kids := kids } :: rest }) hb ?_, ERun.forget (e := setBuf e x) (n' := { n with kids := kids }) hs hn r, c⟩
  unfold makeData at g2 ⊢
  rw [hn] at g2
  simp only at g2 ⊢
  rw [hs] at g2 ⊢
  exact g2

/-! ### The data is the same -/

/-- A seek has not gone beyond the end of a record. -/
def PayOK (env : Env) (s : REnc) : Prop := ∀ x, wholeRecord env s = some (.ok x) → s.payloadOff ≤ x.length

theorem head_view (env : Env) (r : Match.Rules) (o : Obj) : headBytes (view env r o) = o.head := by
  cases o with
  | leaf l => cases l <;> rfl
  | dir e a api own k => rfl

theorem getData_sim {env : Env} {R : Obj} {st : Bool} {s : REnc} {a : Nat} {e' : Enc} {k : Option Nat} {x : Bytes} (hf : Fine env R) (hi : RInv env R st a s) (ha : a < u64max)
    (hb : s.buf = []) (hp : PayOK env s) (h : Archive.getData env.qsort (toEnc env s) k = (e', .ok x)) :
    getData env s k = ({ s with buf := x }, .ok x) ∧ toEnc env { s with buf := x } = e' ∧ RInv env R st a { s with buf := x } := by
  obtain ⟨h1, h2⟩ := getData_shape (by exact hb) h
  have hinv : RInv env R st a { s with buf := x } := by
    refine ⟨hi.spine, hi.off, hi.tabs, hi.suff, hi.leaf, hi.pay, ?_⟩
    have := hi.state
    unfold StateOK at this ⊢
    simp only
    cases hs : s.state <;> rw [hs] at this <;> simp only at this ⊢
    case init =>
      unfold makeData at h2
      have : (toEnc env s).state = .init := hs
      rw [this] at h2
      cases h2
    all_goals exact this
  refine ⟨?_, h1.symm, hinv⟩
  have hpa : ∀ w, wholeRecord env s = some (.ok w) → x = w.drop s.payloadOff → getData env s k = ({ s with buf := x }, .ok x) := by
    intro w hw hx
    unfold getData
    rw [if_neg (by rw [hb]; simp), hw]
    simp only
    rw [if_neg (by have := hp w hw; omega), hx]
  suffices hw : (∃ w, wholeRecord env s = some (.ok w) ∧ x = w.drop s.payloadOff) ∨ getData env s k = ({ s with buf := x }, .ok x) by
    rcases hw with ⟨w, a1, a2⟩ | hw
    · exact hpa w a1 a2
    · exact hw
  generalize hS : ({ s with buf := x } : REnc) = S
  unfold makeData at h2
  have hn : (toEnc env s).nodes = toENode env s.cur :: s.up.map (toENode env) := rfl
  have hso := hi.state
  unfold StateOK at hso
  rw [hn] at h2
  simp only at h2
  have hst : (toEnc env s).state = s.state := rfl
  have hpo : (toEnc env s).payloadOff = s.payloadOff := rfl
  rw [hst, hpo] at h2
  cases hs : s.state <;> rw [hs] at hso h2 <;> simp only at hso h2
  case entry =>
    injection h2 with h2
    refine .inl ⟨s.cur.obj.head, by unfold wholeRecord; rw [hs], ?_⟩
    rw [← h2]
    show (headBytes (view env s.cur.rules s.cur.obj)).drop s.payloadOff = _
    rw [head_view]
  case inPayload =>
    have htr : (toENode env s.cur).tree = view env s.cur.rules s.cur.obj := rfl
    right
    unfold getData wholeRecord
    rw [if_neg (by rw [hb]; simp), hs]
    simp only
    cases ho : s.cur.obj with
    | dir _ _ _ _ _ => rw [ho] at hso; cases hso.1
    | leaf l =>
      cases l with
      | symlink _ _ _ => rw [ho] at hso; cases hso.1
      | device _ _ _ _ => rw [ho] at hso; cases hso.1
      | special _ _ => rw [ho] at hso; cases hso.1
      | file e0 a0 api c =>
        rw [htr, ho, view] at h2
        simp only [Leaf.tree] at h2 ⊢
        by_cases hc : s.payloadOff ≥ c.length
        · rw [if_pos hc] at h2 ⊢; injection h2 with h2; subst h2; rw [← hS, hs]
        · rw [if_neg hc] at h2 ⊢; injection h2 with h2; subst h2; rw [← hS, hs]
  case filename =>
    obtain ⟨name, o, lv, b, s1, _⟩ := hso
    obtain ⟨kk, hk1, _⟩ := s1.kids hi.spine.rulesOK (hi.spine.subobj hf.names hf.rules).2
    have hkid : (toENode env s.cur).kids = .cons true name (view env [] o) kk := hk1
    rw [hkid] at h2
    simp only at h2
    injection h2 with h2
    obtain ⟨keep, r, sub, g1, _⟩ := s1
    exact .inl ⟨_, by unfold wholeRecord; rw [hs]; simp only; rw [g1], h2.symm⟩
  case goodbye =>
    obtain ⟨_, ⟨lv, t1⟩, _⟩ := hso
    have hoff : (toEnc env s).archiveOff = a := by unfold toEnc; simp only [hi.off, Option.getD_some]
    rw [hoff] at h2
    have hit : (toENode env s.cur).items = toItems lv.items := by unfold toENode; simp only [t1, itemsOf]
    have hen : (toENode env s.cur).entryOff = lv.entryOffset := by unfold toENode; simp only [t1, entryOf]
    rw [hit, hen] at h2
    by_cases hlt : a < s.payloadOff
    · rw [if_pos hlt] at h2; cases h2
    · rw [if_neg hlt] at h2
      obtain ⟨rows, r1, r2⟩ := Res.bind_eq_ok.1 h2
      obtain ⟨u, r3, r4⟩ := Res.bind_eq_ok.1 r2
      injection r4 with r4
      have hd : lv.entryOffset < a - s.payloadOff := by
        unfold Res.assert at r3
        split at r3
        · rename_i hh; exact of_decide_eq_true hh
        · cases r3
      refine .inl ⟨goodbyeBytes rows (a - s.payloadOff - lv.entryOffset), ?_, r4.symm⟩
      unfold wholeRecord goodbyeRecord
      rw [hs, t1, hi.off]
      simp only
      rw [if_neg hlt, r1]
      have : decide (lv.entryOffset ≠ u64max ∧ lv.entryOffset < a - s.payloadOff) = true := by
        rw [decide_eq_true_eq]; exact ⟨by omega, hd⟩
      rw [this]
      rfl
  all_goals cases h2

theorem payOK_zero {env : Env} {s : REnc} (h : s.payloadOff = 0 ∨ s.state = .inPayload) : PayOK env s := by
  intro x hx
  rcases h with h | h
  · omega
  · unfold wholeRecord at hx
    rw [h] at hx
    simp at hx

/-- A session of the encoder without seeks is a session of this one. -/
theorem run_sim {env : Env} {R : Obj} (hf : Fine env R) {sz : Nat → Option Nat} {e : Enc} {b : Bytes} {o : EOutcome} (h : ERun env.qsort sz e b o) :
    ∀ {s : REnc} {st : Bool} {a : Nat}, e = toEnc env s → o = .finished → RInv env R st a s → a + s.buf.length + b.length < u64max → RRun env sz false s b o := by
  induction h with
  | finished g =>
    intro s st a he ho hi hb
    subst he
    obtain ⟨s', h1, _, _⟩ := step_sim hf hi (by omega) g
    exact .finished h1
  | error g => intro s st a he ho; cases ho
  | crash g => intro s st a he ho; cases ho
  | done g _ ih =>
    intro s st a he ho hi hb
    subst he
    have hsh := eStep_shape g (by simp)
    have hbu := hsh.2.1
    obtain ⟨s', h1, h2, h3⟩ := step_sim hf hi (by omega) g
    rw [if_neg (show ¬ s.state = .eof from hsh.1)] at h3
    rw [← h2] at hbu
    refine .more h1 (by simp) (ih h2.symm ho h3 ?_)
    rw [show s'.buf = [] from hbu, List.length_nil]; omega
  | @data sz e e1 e2 ev x b o g m gd _ ih =>
    intro s st a he ho hi hb
    subst he
    have hne : ev ≠ .finished := by rintro rfl; simp at m
    have hsh := eStep_shape g hne
    obtain ⟨s', h1, h2, h3⟩ := step_sim hf hi (by omega) g
    rw [if_neg (show ¬ s.state = .eof from hsh.1)] at h3
    have hbu := hsh.2.1
    have hpa := hsh.2.2.2
    rw [← h2] at hbu hpa gd
    rw [List.length_append] at hb
    obtain ⟨d1, d2, d3⟩ := getData_sim hf h3 (by omega) hbu (payOK_zero hpa) gd
    refine .more h1 hne ?_
    rw [hasData_mem.2 m]
    exact .data d1 (ih d2.symm ho d3 (by simp only; omega))
  | dataError g m gd => intro s st a he ho; cases ho
  | dataCrash g m gd => intro s st a he ho; cases ho

end Casync.Resume
