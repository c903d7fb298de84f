import Verif.Lemmas.FuseTurn
/-!
What is shown of an object that has just been reported.
-/
namespace Casync.Fuse
open Casync Flags Archive

variable {q : List Goodbye.NameItem → List Goodbye.NameItem} {A : Bytes} {t : Tree} {ff : Word} {f' : FF}

/-! ### Flags -/

theorem replay_uid {ff r : Word} (hn : ff ≠ none64) (h : normalize (normalizeMask ff) = .ok r) (hh : has ff (with16BitUids ||| with32BitUids) = true) :
    has r (with16BitUids ||| with32BitUids) = true := by
  have hb : r = normalizeBody (normalizeMask ff) := by
    unfold normalize at h
    split at h
    · cases h
    split at h
    · cases h
    · injection h with h; exact h.symm
  rw [has_or, has_with16BitUids, has_with32BitUids] at hh ⊢
  have hm := normalizeMask_bits ff hn
  have h0 : (normalizeMask ff).getLsbD 1 = true := by
    rw [hm]
    have : (ff.getLsbD 0 || ff.getLsbD 1) = true := hh
    rw [this]
    simp
  rw [hb, normalizeBody_bits, normalizeBody_bits]
  simp only [h0, Nat.reduceBEq, Bool.and_true, Bool.and_false, Bool.or_false, Bool.or_true, Bool.not_false, Bool.true_or, Bool.or_self]

theorem replay_time {ff r : Word} (hn : ff ≠ none64) (h : normalize (normalizeMask ff) = .ok r)
    (hh : has ff (withNsecTime ||| withUsecTime ||| withSecTime ||| with2SecTime) = true) :
    has r (withNsecTime ||| withUsecTime ||| withSecTime ||| with2SecTime) = true := by
  have hb : r = normalizeBody (normalizeMask ff) := by
    unfold normalize at h
    split at h
    · cases h
    split at h
    · cases h
    · injection h with h; exact h.symm
  rw [has_or, has_or, has_or, has_withNsecTime, has_withUsecTime, has_withSecTime, has_with2SecTime] at hh ⊢
  have hm := normalizeMask_bits ff hn
  have h0 : (normalizeMask ff).getLsbD 5 = true := by
    rw [hm]
    have : (ff.getLsbD 3 || ff.getLsbD 4 || ff.getLsbD 5 || ff.getLsbD 6) = true := by
      revert hh
      cases ff.getLsbD 3 <;> cases ff.getLsbD 4 <;> cases ff.getLsbD 5 <;> cases ff.getLsbD 6 <;> simp
    rw [this]
    simp
  have h5 : r.getLsbD 5 = true := by
    rw [hb, normalizeBody_bits]
    simp only [h0, Nat.reduceBEq, Bool.and_true, Bool.and_false, Bool.or_false, Bool.or_true, Bool.not_false, Bool.true_or, Bool.or_self]
  rw [h5]
  simp

theorem uid_zero {ff : Word} {u : Nat} (h : IdOK ff u) (hh : has ff (with16BitUids ||| with32BitUids) = false) : u = 0 := by
  rw [has_or, Bool.or_eq_false_iff] at hh
  unfold IdOK at h
  rw [hh.1, hh.2] at h
  simpa using h

theorem time_zero {ff : Word} {u : Nat} (h : TimeOK ff u) (hh : has ff (withNsecTime ||| withUsecTime ||| withSecTime ||| with2SecTime) = false) : u = 0 := by
  rw [has_or, has_or, has_or] at hh
  simp only [Bool.or_eq_false_iff] at hh
  unfold TimeOK at h
  rw [hh.1.1.1, hh.1.1.2, hh.1.2, hh.2] at h
  simpa using h.2

/-! ### Types -/

theorem Storable.types {s : Tree} (h : Storable ff s) : ObjOK ff s.entry s.attrs ∧ isType s.entry.mode ifReg = (match s with | .file .. => true | _ => false) ∧
    isType s.entry.mode ifDir = (match s with | .dir .. => true | _ => false) ∧ isType s.entry.mode ifLnk = (match s with | .symlink .. => true | _ => false) ∧
    (isType s.entry.mode ifBlk || isType s.entry.mode ifChr) = (match s with | .device .. => true | _ => false) := by
  have x : ∀ {m a : Word}, isType m a = true → a ≠ ifReg → isType m ifReg = false := fun h1 h2 => isType_excl h1 h2
  cases s with
  | file e a api c =>
    rw [Storable] at h
    refine ⟨h.1, h.2, isType_excl h.2 (by decide), isType_excl h.2 (by decide), ?_⟩
    show (isType e.mode ifBlk || isType e.mode ifChr) = false
    rw [isType_excl h.2 (by decide), isType_excl h.2 (by decide)]
    rfl
  | symlink e a b =>
    rw [Storable] at h
    have h1 := h.2.1
    refine ⟨h.1, isType_excl h1 (by decide), isType_excl h1 (by decide), h1, ?_⟩
    show (isType e.mode ifBlk || isType e.mode ifChr) = false
    rw [isType_excl h1 (by decide), isType_excl h1 (by decide)]
    rfl
  | device e a u v =>
    rw [Storable] at h
    rcases h.2.1 with h1 | h1
    · refine ⟨h.1, isType_excl h1 (by decide), isType_excl h1 (by decide), isType_excl h1 (by decide), ?_⟩
      show (isType e.mode ifBlk || isType e.mode ifChr) = true
      rw [h1, Bool.or_true]
    · refine ⟨h.1, isType_excl h1 (by decide), isType_excl h1 (by decide), isType_excl h1 (by decide), ?_⟩
      show (isType e.mode ifBlk || isType e.mode ifChr) = true
      rw [h1, Bool.true_or]
  | special e a =>
    rw [Storable] at h
    rcases h.2 with h1 | h1
    · have h1 := h1.1
      refine ⟨h.1, isType_excl h1 (by decide), isType_excl h1 (by decide), isType_excl h1 (by decide), ?_⟩
      show (isType e.mode ifBlk || isType e.mode ifChr) = false
      rw [isType_excl h1 (by decide), isType_excl h1 (by decide)]
      rfl
    · have h1 := h1.1
      refine ⟨h.1, isType_excl h1 (by decide), isType_excl h1 (by decide), isType_excl h1 (by decide), ?_⟩
      show (isType e.mode ifBlk || isType e.mode ifChr) = false
      rw [isType_excl h1 (by decide), isType_excl h1 (by decide)]
      rfl
  | dir e a api k =>
    rw [Storable] at h
    have h1 := h.2.1
    refine ⟨h.1, isType_excl h1 (by decide), h1, isType_excl h1 (by decide), ?_⟩
    show (isType e.mode ifBlk || isType e.mode ifChr) = false
    rw [isType_excl h1 (by decide), isType_excl h1 (by decide)]
    rfl

/-- The target of a symlink. -/
def linkOf : Tree → Res Bytes
  | .symlink _ _ b => .ok b
  | _ => .err .ENODATA

/-- What can be asked of the current object. -/
structure Sees (d : SDec) (P : List Bytes) (s : Tree) : Prop where
  path : currentPath d.core = P
  stat : fillStat d = .ok (statOf s)
  target : curTarget d = linkOf s
  xattrs : curXattrs d = s.attrs.xattrs

theorem flags_now {d : SDec} (hb : Base q A t ff f' (on d)) (hk : d.core.ff.ff ≠ none64) : d.core.ff = f' := by
  have h := hb.flags
  rw [show (on d).core.ff = d.core.ff from rfl] at h
  unfold validateFeatureFlags at h
  rw [show (d.core.ff.ff == none64) = false by simpa using hk] at h
  simp only [Bool.false_eq_true, if_false] at h
  repeat' split at h
  all_goals first
    | (cases h; done)
    | (injection h with h)

theorem at_sees (hc : Ctx q A t ff f') (hrep : normalize (normalizeMask ff) = .ok f'.replay) {d : SDec} (hat : At d) {l' r : List SAtom} (hok : OK q A t ff f' (on d) (.see l'))
    {P : List Bytes} {s : Tree} (hf : t.find P = some s)
    (hl : (atoms (observe d.core .nextFile)).map SAtom.seen ++ l' = .seen (.nextFile P s.entry s.attrs s.shown) :: r) : Sees d P s ∧ l' = r := by
  obtain ⟨n, ns, p, hn, hp⟩ := hat.reads.parsed
  have hob : observe d.core .nextFile = [.nextFile (currentPath d.core) p.entry p.attrs p.term.shown] := by
    unfold observe
    rw [hn]
    obtain ⟨n1, n2, n3, n4⟩ := n
    simp only at hp
    subst hp
    rfl
  rw [hob, atoms_one] at hl
  have hl : SAtom.seen (.nextFile (currentPath d.core) p.entry p.attrs p.term.shown) :: l' = .seen (.nextFile P s.entry s.attrs s.shown) :: r := hl
  injection hl with h1 h2
  injection h1 with h1
  injection h1 with hpath hent hatt hshown
  have hb := hok.base
  obtain ⟨s', path, y, hst⟩ := hb.cur
  have hfacts := hst.facts hc
  have hS : Storable ff s := by
    have : path = P := by rw [← hpath]; exact hfacts.names.symm
    have hf' := hfacts.find
    rw [this, hf] at hf'
    injection hf' with hf'
    rw [hf']
    exact hfacts.storable
  have hx : ∃ x xs, d.exts = x :: xs := by
    have := hb.len
    rw [show (on d).exts = d.exts from rfl, show (on d).core.nodes = d.core.nodes from rfl, hn] at this
    cases hd : d.exts with
    | nil => rw [hd] at this; cases this
    | cons x xs => exact ⟨x, xs, rfl⟩
  obtain ⟨x, xs, hx⟩ := hx
  have hmode : curMode d = some s.entry.mode := by
    unfold curMode sMode
    rw [hn, hx]
    simp only [hp, hent]
  have hcp : curParsed d.core = some p := by unfold curParsed; rw [hn]; exact hp
  have hfl : d.core.ff = f' := flags_now hb hat.reads.flags
  have hne : ff ≠ none64 := by
    intro e
    have h := hb.flags
    unfold validateFeatureFlags at h
    rw [if_pos (by rw [e]; decide)] at h
    cases h
  obtain ⟨hobj, hreg, hdir, hlnk, hdev⟩ := Storable.types hS
  have hfield : ∀ (need : Word) (g : Entry → Nat), (has ff need = true → has f'.replay need = true) → (has ff need = false → g s.entry = 0) → field d need g = g s.entry := by
    intro need g k1 k2
    unfold field
    rw [hfl, hcp]
    simp only [hent]
    by_cases hh : has f'.replay need = true
    · rw [if_pos hh]
    · rw [if_neg hh]
      cases hq : has ff need with
      | true => exact absurd (k1 hq) hh
      | false => exact (k2 hq).symm
  have hsize : (if isType s.entry.mode ifReg then curSize d else 0) = sizeOf s := by
    rw [hreg]
    cases s with
    | file e a api c =>
      simp only [if_true]
      unfold curSize
      rw [hn]
      simp only
      rw [nodeSize_file hp ⟨hent, hatt, hshown⟩]
      rfl
    | symlink e a b => rfl
    | device e a u v => rfl
    | special e a => rfl
    | dir e a api k => rfl
  have hrdev : (if isType s.entry.mode ifBlk || isType s.entry.mode ifChr then curRdev d else (0, 0)) = deviceOf s := by
    rw [hdev]
    cases s with
    | device e a u v =>
      simp only [if_true]
      unfold curRdev
      rw [hcp]
      simp only
      have hshown : p.term.shown = .device u v := hshown
      cases ht : p.term with
      | device x y => rw [ht] at hshown; injection hshown with k1 k2; rw [k1, k2]; rfl
      | symlink b => rw [ht] at hshown; cases hshown
      | payload b => rw [ht] at hshown; cases hshown
      | filename => rw [ht] at hshown; cases hshown
      | goodbye => rw [ht] at hshown; cases hshown
    | symlink e a b => rfl
    | file e a api c => rfl
    | special e a => rfl
    | dir e a api k => rfl
  have hlinks : (if isType s.entry.mode ifDir then 2 else 1) = linksOf s := by
    rw [hdir]
    cases s <;> rfl
  refine ⟨⟨hpath, ?_, ?_, ?_⟩, h2⟩
  · unfold fillStat
    rw [hmode]
    simp only
    rw [hsize, hrdev, hlinks, hfield _ Entry.uid (replay_uid hne hrep) (uid_zero hobj.entry.uid), hfield _ Entry.gid (replay_uid hne hrep) (uid_zero hobj.entry.gid),
      hfield _ Entry.mtime (replay_time hne hrep) (time_zero hobj.entry.time)]
    rfl
  · unfold curTarget
    rw [hmode, hcp]
    simp only
    rw [hlnk]
    cases s with
    | symlink e a b =>
      simp only [Bool.not_true, Bool.false_eq_true, if_false]
      have hshown : p.term.shown = .symlink b := hshown
      cases ht : p.term with
      | symlink b => rw [ht] at hshown; injection hshown with k1; rw [k1]; rfl
      | device x y => rw [ht] at hshown; cases hshown
      | payload b => rw [ht] at hshown; cases hshown
      | filename => rw [ht] at hshown; cases hshown
      | goodbye => rw [ht] at hshown; cases hshown
    | device e a u v => rfl
    | file e a api c => rfl
    | special e a => rfl
    | dir e a api k => rfl
  · unfold curXattrs
    rw [hcp]
    simp only [hatt]

end Casync.Fuse
