import Verif.Lemmas.ResumeHist
import Verif.Lemmas.SeekLayout
import Verif.Props.Location
/-!
The numbers in the name tables have 64 bits.
-/
namespace Casync.Resume
open Casync Archive

def RangeOK (s : REnc) : Prop := NameTable.InRange s.cur.table ∧ (∀ n ∈ s.up, NameTable.InRange n.table) ∧ ∀ n ∈ s.below, NameTable.InRange n.table

theorem inRange_nil : NameTable.InRange [] := by intro l hl; cases hl

theorem inRange_cons {l : NameTable.Level} {t : NameTable.Chain} : NameTable.InRange (l :: t) ↔
    (l.entryOffset < 2 ^ 64 ∧ ∀ i ∈ l.items, i.hash < 2 ^ 64 ∧ i.start < 2 ^ 64 ∧ i.end < 2 ^ 64) ∧ NameTable.InRange t := by
  unfold NameTable.InRange
  simp

theorem initTable_range {s : REnc} {sub a : Nat} {t : NameTable.Chain} (h : RangeOK s) (ha : s.archiveOff = some a) (hlt : a < 2 ^ 64) (hi : initTable s sub = .ok t) : NameTable.InRange t := by
  unfold initTable at hi
  rw [ha] at hi
  simp only at hi
  split at hi; · cases hi
  split at hi; · injection hi with hi; rw [← hi]; exact inRange_nil
  split at hi; · cases hi
  split at hi
  · injection hi with hi; rw [← hi]; exact inRange_cons.2 ⟨⟨by simp only; omega, by simp⟩, inRange_nil⟩
  · rename_i p _ hu
    split at hi
    · injection hi with hi; rw [← hi]; exact inRange_nil
    · injection hi with hi
      rw [← hi]
      exact inRange_cons.2 ⟨⟨by simp only; omega, by simp⟩, h.2.1 p (by rw [hu]; simp)⟩

theorem guarded {α : Type} {c : Bool} {v t : α} (h : (if c = true then Res.ub else Res.ok v) = Res.ok t) : v = t := by
  cases c
  · rw [if_neg (by decide)] at h; injection h
  · rw [if_pos rfl] at h; cases h

theorem addTable_range {t t' : NameTable.Chain} {name : Bytes} {a : Nat} (h : NameTable.InRange t) (hlt : a < 2 ^ 64) (ha : addTable t name (some a) = .ok t') : NameTable.InRange t' := by
  unfold addTable at ha
  split at ha
  · injection ha with ha; rw [← ha]; exact inRange_nil
  · injection ha with ha; rw [← ha]; exact inRange_nil
  · rename_i l ts a' he
    injection he with he
    subst he
    have ha := guarded ha
    rw [← ha]
    obtain ⟨⟨h1, h2⟩, h3⟩ := inRange_cons.1 h
    refine inRange_cons.2 ⟨⟨h1, ?_⟩, h3⟩
    intro i hi
    simp only [List.mem_append, List.mem_singleton] at hi
    rcases hi with hi | hi
    · exact h2 i hi
    · subst hi
      exact ⟨nameHash_lt name, hlt, by show u64max < 2 ^ 64; decide⟩

theorem closeTable_range {t t' : NameTable.Chain} {a : Nat} (h : NameTable.InRange t) (hlt : a < 2 ^ 64) (ha : closeTable t (some a) = .ok t') : NameTable.InRange t' := by
  unfold closeTable at ha
  split at ha
  · injection ha with ha; rw [← ha]; exact inRange_nil
  · injection ha with ha; rw [← ha]; exact inRange_nil
  · rename_i l ts a' he
    injection he with he
    subst he
    split at ha
    · injection ha with ha; rw [← ha]; exact h
    · rename_i i hl
      split at ha
      · cases ha
      · injection ha with ha
        rw [← ha]
        obtain ⟨⟨h1, h2⟩, h3⟩ := inRange_cons.1 h
        have hmem := List.mem_of_getLast? hl
        refine inRange_cons.2 ⟨⟨h1, ?_⟩, h3⟩
        intro j hj
        simp only [List.mem_append, List.mem_singleton] at hj
        rcases hj with hj | hj
        · exact h2 j (List.dropLast_subset _ hj)
        · subst hj
          exact ⟨(h2 i hmem).1, (h2 i hmem).2.1, hlt⟩

theorem RangeOK.enter {s : REnc} (h : RangeOK s) (st : EState) : RangeOK (enter s st) := h

theorem stepEntered_range {s s' : REnc} {a : Nat} {ev : EEv} (h : RangeOK s) (ha : s.archiveOff = some a) (hlt : a < 2 ^ 64) (hs : Resume.stepEntered s = (s', .ok ev)) : RangeOK s' := by
  unfold Resume.stepEntered at hs
  split at hs
  · rename_i t ht
    injection hs with hs _
    subst hs
    exact ⟨initTable_range h ha hlt ht, h.2⟩
  · injection hs with _ hs; cases hs
  · injection hs with _ hs; cases hs

theorem stepPayload_range {s s' : REnc} {ev : EEv} (h : RangeOK s) (hs : stepPayload s = (s', .ok ev)) : RangeOK s' := by
  unfold stepPayload at hs
  split at hs
  · split at hs
    · split at hs
      · injection hs with hs _; subst hs; exact h
      · injection hs with hs _; subst hs; exact h
    · injection hs with hs _; subst hs; exact h
  · injection hs with _ hs; cases hs

theorem opened_range (o : Obj) (r : Match.Rules) : NameTable.InRange (opened o r).table := inRange_nil

theorem stepDirents_range {env : Env} {s s' : REnc} {a : Nat} {ev : EEv} (h : RangeOK s) (ha : s.archiveOff = some a) (hlt : a < 2 ^ 64)
    (hs : Resume.stepDirents env s = (s', .ok ev)) : RangeOK s' := by
  unfold Resume.stepDirents at hs
  split at hs
  · injection hs with hs _; subst hs; exact h
  · split at hs
    · injection hs with _ hs; cases hs
    · split at hs
      · injection hs with hs _; subst hs
        exact ⟨h.1, h.2.1, by intro n hn; simp only [enter, List.mem_singleton] at hn; subst hn; exact opened_range _ _⟩
      · split at hs
        · rename_i t ht
          injection hs with hs _; subst hs
          rw [ha] at ht
          exact ⟨addTable_range h.1 hlt ht, h.2.1, by intro n hn; simp only [enter, List.mem_singleton] at hn; subst hn; exact opened_range _ _⟩
        · injection hs with _ hs; cases hs
        · injection hs with _ hs; cases hs
      · injection hs with _ hs; cases hs
      · injection hs with _ hs; cases hs

theorem stepNext_range {env : Env} {s s' : REnc} {a : Nat} {ev : EEv} (h : RangeOK s) (ha : s.archiveOff = some a) (hlt : a < 2 ^ 64)
    (hs : stepNextDirent env s = (s', .ok ev)) : RangeOK s' := by
  unfold stepNextDirent at hs
  split at hs
  · rename_i t ht
    rw [ha] at ht
    exact stepDirents_range (s := { s with cur := { s.cur with table := t, rest := s.cur.rest.tail } }) ⟨closeTable_range h.1 hlt ht, h.2⟩ ha hlt hs
  · injection hs with _ hs; cases hs
  · injection hs with _ hs; cases hs

theorem enterChild_range {s s' : REnc} (h : RangeOK s) (hs : enterChild s = some s') : RangeOK s' ∧ s'.archiveOff = s.archiveOff := by
  unfold enterChild at hs
  split at hs
  · cases hs
  · rename_i b bs hb
    injection hs with hs
    subst hs
    refine ⟨⟨h.2.2 b (by rw [hb]; simp), ?_, fun n hn => h.2.2 n (by rw [hb]; simp [hn])⟩, rfl⟩
    intro n hn
    simp only [List.mem_cons] at hn
    rcases hn with hn | hn
    · subst hn; exact h.1
    · exact h.2.1 n hn

theorem step_range {env : Env} {s s' : REnc} {a : Nat} {ev : EEv} (h : RangeOK s) (ha : s.archiveOff = some a) (hlt : a + s.buf.length < 2 ^ 64)
    (hs : step env s = (s', .ok ev)) : RangeOK s' := by
  unfold step at hs
  split at hs
  · injection hs with hs _; subst hs; exact h
  · have h' : RangeOK (advance s) := h
    have ha' : (advance s).archiveOff = some (a + s.buf.length) := by unfold advance; simp only [ha, Option.map_some]
    generalize advance s = s at hs h' ha'
    generalize a + s.buf.length = a at hlt ha'
    clear ha h
    rename_i a0 _
    unfold stepNode at hs
    cases hst : s.state <;> rw [hst] at hs <;> simp only at hs
    case init =>
      split at hs
      · exact stepPayload_range (h'.enter _) hs
      · exact stepEntered_range (h'.enter _) ha' hlt hs
    case entered => exact stepEntered_range h' ha' hlt hs
    case entry =>
      split at hs
      · exact stepPayload_range (h'.enter _) hs
      · injection hs with hs _; subst hs; exact h'
      · exact stepDirents_range (h'.enter _) ha' hlt hs
      · injection hs with hs _; subst hs; exact h'
    case inPayload => exact stepPayload_range h' hs
    case nextDirent => exact stepNext_range h' ha' hlt hs
    case firstDirent => exact stepDirents_range h' ha' hlt hs
    case filename =>
      split at hs
      · rename_i s1 he
        obtain ⟨e1, e2⟩ := enterChild_range h' he
        exact stepEntered_range (e1.enter _) (e2.trans ha') hlt hs
      · injection hs with _ hs; cases hs
    case goodbye => injection hs with hs _; subst hs; exact h'
    case finalize =>
      split at hs
      · injection hs with hs _; subst hs; exact h'
      · rename_i p us hu
        refine stepNext_range (s := enter { s with up := us, cur := p, below := s.cur :: s.below } .nextDirent) (RangeOK.enter ⟨?_, ?_, ?_⟩ _) ha' hlt hs
        · exact h'.2.1 p (by rw [hu]; simp)
        · intro n hn; exact h'.2.1 n (by rw [hu]; simp [show n ∈ us from hn])
        · intro n hn
          simp only [List.mem_cons] at hn
          rcases hn with hn | hn
          · subst hn; exact h'.1
          · exact h'.2.2 n hn
    case eof => injection hs with hs _; subst hs; exact h'

theorem getData_range {env : Env} {s s' : REnc} {k : Option Nat} {x : Bytes} (h : RangeOK s) (hs : getData env s k = (s', .ok x)) : RangeOK s' := by
  unfold getData at hs
  split at hs
  · injection hs with hs _; subst hs; exact h
  · split at hs
    · split at hs
      · injection hs with _ hs; cases hs
      · injection hs with hs _; subst hs; exact h
    · injection hs with _ hs; cases hs
    · injection hs with _ hs; cases hs
    · split at hs
      · injection hs with hs _; subst hs; exact h
      · injection hs with _ hs; cases hs

theorem skipData_range {env : Env} {s s' : REnc} {k : Option Nat} {x : Bytes} (h : RangeOK s) (hs : skipData env s k = (s', .ok x)) : RangeOK s' := by
  unfold skipData at hs
  split at hs
  · injection hs with hs _; subst hs; exact h
  · split at hs
    · exact getData_range h hs
    · split at hs
      · injection hs with hs _; subst hs; exact h
      · injection hs with _ hs; cases hs

/-! ### Seeks -/

theorem openCurrent_range {s s' : REnc} (h : RangeOK s) (hs : openCurrent s = .ok s') : RangeOK s' := by
  unfold openCurrent at hs
  split at hs
  · cases hs
  · split at hs
    · injection hs with hs; subst hs
      exact ⟨h.1, h.2.1, by intro n hn; simp only [List.mem_singleton] at hn; subst hn; exact opened_range _ _⟩
    · cases hs

theorem seekChild_range {s s' : REnc} {name : Bytes} (h : RangeOK s) (hs : seekChild s name = .ok s') : RangeOK s' := by
  cases hd : s.cur.obj.isDir with
  | false =>
    unfold seekChild at hs
    split at hs
    · cases hs
    · rename_i ho; rw [ho] at hd; cases hd
  | true =>
    rw [seekChild_in hd] at hs
    unfold seekIn at hs
    simp only at hs
    have hb : ∀ r, RangeOK { s with cur := { s.cur with rest := r, table := [] } } := fun r => ⟨inRange_nil, h.2⟩
    split at hs
    · split at hs
      · split at hs
        · injection hs with hs; subst hs; exact hb _
        · exact openCurrent_range (hb _) hs
      · split at hs
        · cases hs
        · exact openCurrent_range (hb _) hs
    · split at hs
      · cases hs
      · exact openCurrent_range (hb _) hs

theorem seekNames_range : ∀ (ns : List Bytes) {s s' : REnc}, RangeOK s → seekNames s ns = .ok s' → RangeOK s'
  | [], s, s', h, hs => by unfold seekNames at hs; injection hs with hs; subst hs; exact h
  | n :: ns, s, s', h, hs => by
    unfold seekNames at hs
    split at hs
    · cases hs
    · split at hs
      · cases hs
      · cases hs
      · rename_i s1 h1
        have h2 := seekChild_range h h1
        split at hs
        · injection hs with hs; subst hs; exact h2
        · split at hs
          · cases hs
          · rename_i s2 h3
            exact seekNames_range _ (enterChild_range h2 h3).1 hs

theorem seekPathAndEnter_range {s s' : REnc} {p : Bytes} (h : RangeOK s) (hs : seekPathAndEnter s p = .ok s') : RangeOK s' := by
  unfold seekPathAndEnter at hs
  split at hs
  · injection hs with hs; subst hs; exact ⟨inRange_nil, h.2⟩
  · split at hs
    · rename_i s1 h1
      split at hs
      · rename_i s2 h2
        injection hs with hs
        subst hs
        exact (enterChild_range (seekNames_range _ h h1) h2).1
      · cases hs
    · cases hs
    · cases hs

theorem inRange_tail {t : NameTable.Chain} (h : NameTable.InRange t) : NameTable.InRange t.tail := fun l hl => h l (List.mem_of_mem_tail hl)

theorem install_range : ∀ (l : List RNode) {t : NameTable.Chain} {l' : List RNode}, NameTable.InRange t → install t l = .ok l' → ∀ n ∈ l', NameTable.InRange n.table
  | [], t, l', _, hs => by unfold install at hs; injection hs with hs; subst hs; simp
  | [n], t, l', ht, hs => by
    unfold install at hs
    split at hs
    · cases hs
    · injection hs with hs; subst hs
      intro m hm
      simp only [List.mem_singleton] at hm
      subst hm
      exact ht
  | n :: m :: r, t, l', ht, hs => by
    unfold install at hs
    split at hs
    · cases hs
    · split at hs
      · rename_i l1 h1
        injection hs with hs; subst hs
        intro x hx
        simp only [List.mem_cons] at hx
        rcases hx with hx | hx
        · subst hx; exact ht
        · exact install_range (m :: r) (inRange_tail ht) h1 x hx
      · cases hs
      · cases hs

theorem installUp_range {s s' : REnc} {t : NameTable.Chain} (h : RangeOK s) (ht : NameTable.InRange t) (hs : installUp s t = .ok s') : RangeOK s' ∧ s'.archiveOff = s.archiveOff := by
  unfold installUp at hs
  split at hs
  · injection hs with hs; subst hs; exact ⟨h, rfl⟩
  · split at hs
    · cases hs
    · split at hs
      · rename_i up hu
        injection hs with hs; subst hs
        exact ⟨⟨h.1, install_range _ ht hu, h.2.2⟩, rfl⟩
      · cases hs
      · cases hs

theorem installCur_range {s s' : REnc} {t : NameTable.Chain} (h : RangeOK s) (ht : NameTable.InRange t) (hs : installCur s t = .ok s') : RangeOK s' := by
  unfold installCur at hs
  split at hs
  · injection hs with hs; subst hs; exact h
  · split at hs
    · rename_i c up hu
      injection hs with hs; subst hs
      have := install_range _ ht hu
      exact ⟨this c (by simp), fun n hn => this n (by simp [show n ∈ up from hn]), h.2.2⟩
    · cases hs
    · cases hs
    · cases hs

theorem rewind_range {s : REnc} (h : RangeOK s) : RangeOK (rewind s) := by
  have hall : ∀ n ∈ s.up.reverse ++ s.cur :: s.below, NameTable.InRange n.table := by
    intro n hn
    simp only [List.mem_append, List.mem_reverse, List.mem_cons] at hn
    rcases hn with hn | hn | hn
    · exact h.2.1 n hn
    · subst hn; exact h.1
    · exact h.2.2 n hn
  unfold rewind
  split
  · rename_i r rest hr
    rw [hr] at hall
    exact ⟨hall r (by simp), by simp, fun n hn => hall n (by simp [show n ∈ rest from hn])⟩
  · exact h

theorem seekLocation_range {s t : REnc} {l : Location.Location} {ev : EEv} (h : RangeOK s) (hl : NameTable.InRange l.nameTable) (ha : l.archiveOffset < 2 ^ 64)
    (hs : seekLocation s l = .ok (t, ev)) : RangeOK t := by
  have hr := rewind_range h
  unfold seekLocation at hs
  split at hs; · cases hs
  split at hs; · cases hs
  split at hs
  · unfold seekEntry at hs
    obtain ⟨s1, h1, hs⟩ := Res.bind_eq_ok.1 hs
    obtain ⟨s2, h2, hs⟩ := Res.bind_eq_ok.1 hs
    obtain ⟨t', h3, hs⟩ := Res.bind_eq_ok.1 hs
    injection hs with hs
    injection hs with hs _
    subst hs
    have r1 := seekPathAndEnter_range hr h1
    have r2 := installUp_range (s := arrive { s1 with cur := { s1.cur with rest := s1.cur.obj.kids } } .entry l) ⟨r1.1, r1.2⟩ hl h2
    refine ⟨?_, r2.1.2⟩
    have hoff : s2.archiveOff = knownOff l.archiveOffset := r2.2
    cases hk : knownOff l.archiveOffset with
    | none =>
      rw [hk] at hoff
      unfold initTable at h3
      rw [show ({ s2 with cur := { s2.cur with table := [] } } : REnc).archiveOff = none from hoff] at h3
      simp only at h3
      split at h3; · cases h3
      split at h3
      · injection h3 with h3; subst h3; exact inRange_nil
      · injection h3 with h3; subst h3; exact inRange_nil
    | some a =>
      rw [hk] at hoff
      have : a < 2 ^ 64 := by
        unfold knownOff at hk
        split at hk
        · cases hk
        · injection hk with hk; omega
      exact initTable_range (s := { s2 with cur := { s2.cur with table := [] } }) ⟨inRange_nil, r2.1.2⟩ hoff this h3
  · split at hs
    · unfold seekPayload at hs
      obtain ⟨s1, h1, hs⟩ := Res.bind_eq_ok.1 hs
      have r1 := seekPathAndEnter_range hr h1
      split at hs
      · split at hs
        · cases hs
        · obtain ⟨s2, h2, hs⟩ := Res.bind_eq_ok.1 hs
          injection hs with hs
          injection hs with hs _
          subst hs
          refine (installUp_range ?_ hl h2).1
          split
          · exact ⟨r1.1, r1.2⟩
          · exact ⟨r1.1, r1.2⟩
      · cases hs
    · split at hs
      · unfold seekFilename at hs
        split at hs
        · cases hs
        · obtain ⟨s1, h1, hs⟩ := Res.bind_eq_ok.1 hs
          have r1 := seekNames_range _ hr h1
          split at hs
          · cases hs
          · obtain ⟨s2, h2, hs⟩ := Res.bind_eq_ok.1 hs
            injection hs with hs
            injection hs with hs _
            subst hs
            exact installCur_range (s := arrive s1 .filename l) ⟨r1.1, r1.2⟩ hl h2
      · split at hs
        · unfold seekGoodbye at hs
          obtain ⟨s1, h1, hs⟩ := Res.bind_eq_ok.1 hs
          have r1 := seekPathAndEnter_range hr h1
          split at hs
          · cases hs
          · obtain ⟨s2, h2, hs⟩ := Res.bind_eq_ok.1 hs
            injection hs with hs
            injection hs with hs _
            subst hs
            exact installCur_range (s := arrive { s1 with cur := { s1.cur with rest := .nil } } .goodbye l) ⟨r1.1, r1.2⟩ hl h2
        · cases hs

theorem reported_range {s : REnc} {up : List RNode} {d : UInt8} {tab : NameTable.Chain} (h : RangeOK s) (hr : reported s = .ok (up, d, tab)) :
    NameTable.InRange tab ∧ Location.designatorValid d = true ∧ d ≠ Location.void := by
  have hp : NameTable.InRange (match s.up with | [] => [] | p :: _ => p.table) := by
    cases hu : s.up with
    | nil => exact inRange_nil
    | cons p us => exact h.2.1 p (by rw [hu]; simp)
  unfold reported at hr
  simp only at hr
  split at hr
  · injection hr with hr; injection hr with _ hr; injection hr with hd hr; subst hr hd; exact ⟨hp, by decide, by decide⟩
  · injection hr with hr; injection hr with _ hr; injection hr with hd hr; subst hr hd; exact ⟨hp, by decide, by decide⟩
  · split at hr
    · cases hr
    · injection hr with hr; injection hr with _ hr; injection hr with hd hr; subst hr hd; exact ⟨h.1, by decide, by decide⟩
  · injection hr with hr; injection hr with _ hr; injection hr with hd hr; subst hr hd; exact ⟨h.1, by decide, by decide⟩
  · cases hr

theorem Hist.range {env : Env} {R : Obj} {pos : Nat} {m due : Bool} {s : REnc} (hf : Fine env R) (hq : Goodbye.Sorts env.qsort) (h : Hist env R pos m due s) : RangeOK s := by
  have hu : u64max = 2 ^ 64 - 1 := by decide
  have hA := hf.size
  induction h with
  | start => exact ⟨inRange_nil, by simp [rStart], by simp [rStart]⟩
  | more h hs _ ih =>
    obtain ⟨a, st, _, hi⟩ := h.inv hf hq
    have hb := hi.bound
    have := (hi.done rfl).1
    exact step_range ih hi.inv.off (by omega) hs
  | finish h hs ih =>
    obtain ⟨a, st, _, hi⟩ := h.inv hf hq
    have hb := hi.bound
    have := (hi.done rfl).1
    exact step_range ih hi.inv.off (by omega) hs
  | data _ _ hg ih => exact getData_range ih hg
  | skip _ _ hg ih => exact skipData_range ih hg
  | seek h0 _ _ hl hsame _ _ hseek _ ih0 ih =>
    obtain ⟨up, d, tab, ns, r1, _, _, _, _, r6, r7, _⟩ := currentLocation_ok hl
    obtain ⟨a, st, _, hi⟩ := h0.inv hf hq
    refine seekLocation_range ih ?_ ?_ hseek
    · rw [hsame.nameTable, r6]; exact (reported_range ih0 r1).1
    · rw [hsame.archiveOffset, r7 _ hi.inv.off]; exact Nat.mod_lt _ (by decide)

end Casync.Resume
