import Verif.Lemmas.MetaGather
import Verif.Props.Archive
/-!
C30: what the encoder stores about an object, the decoder accepts — and where this is not so.
-/
namespace Casync.Meta
open Casync Flags Archive

/-- One of the seven kinds of objects Linux has. -/
def KnownType (m : Word) : Prop :=
  isType m ifReg = true ∨ isType m ifDir = true ∨ isType m ifLnk = true ∨ isType m ifBlk = true ∨ isType m ifChr = true ∨ isType m ifFifo = true ∨
  isType m ifSock = true

theorem isType_of_eq {a b t : Word} (h : a &&& ifmt = b &&& ifmt) : isType a t = isType b t := by unfold isType; rw [h]

theorem typeOK_of {c : Cfg} {m : Meta} (hk : KnownType m.mode) (hr : typeRefused c m = false) {w : Word} (hw : w &&& ifmt = m.mode &&& ifmt) : TypeOK c.ff w := by
  have hi := fun t => isType_of_eq (t := t) hw
  unfold typeRefused at hr
  simp only [Bool.or_eq_false_iff, Bool.and_eq_false_iff, Bool.not_eq_false'] at hr
  obtain ⟨⟨⟨h1, h2⟩, h3⟩, h4⟩ := hr
  unfold TypeOK
  rw [hi, hi, hi, hi, hi, hi, hi]
  rcases hk with h | h | h | h | h | h | h
  · exact .inl h
  · exact .inr (.inl h)
  · rcases h1 with h1 | h1
    · exact .inr (.inr (.inr (.inr (.inr ⟨h, h1⟩))))
    · rw [h] at h1; cases h1
  · rcases h2 with h2 | h2
    · exact .inr (.inr (.inr (.inr (.inl ⟨.inl h, h2⟩))))
    · rw [h] at h2; exact absurd h2.1 (by simp)
  · rcases h2 with h2 | h2
    · exact .inr (.inr (.inr (.inr (.inl ⟨.inr h, h2⟩))))
    · rw [h] at h2; exact absurd h2.2 (by simp)
  · rcases h3 with h3 | h3
    · exact .inr (.inr (.inr (.inl ⟨h, h3⟩)))
    · rw [h] at h3; cases h3
  · rcases h4 with h4 | h4
    · exact .inr (.inr (.inl ⟨h, h4⟩))
    · rw [h] at h4; cases h4

/-- **C30, partial.** Let the encoder be set up with any feature flags, shift and range, and let it look at an object whose metadata Linux may have
(`FsOK`) and that is in none of the cases listed in `Fits`.  Whatever it has seen before (`k`): if it comes to store the object, then mode, ids,
entry flags, time and names pass the decoder's checks under the same flags, and the decoder accepts the ENTRY record as a whole.
What is missing: the cases excluded by `Fits` and `NamesOK`, in which this is false, see the theorems named `_violated` below. -/
theorem C30_fields_partial (flags : Word) (s r : Nat) (c : Cfg) (hc : setFeatureFlags flags s r = .ok c) (db : Names) (hdb : NamesOK db) (k : Cache)
    (hk : CacheOK c db k) (m : Meta) (hm : FsOK m) (ht : KnownType m.mode) (hf : Fits c db m) (e : Entry) (a : Attrs) (k' : Cache)
    (h : gather c db k m = .ok (e, a, k')) :
    validateMode c.ff e.mode e.flags = true ∧ validateEntryFlags c.ff e.flags = true ∧ validateUidGid c.ff e.uid = true ∧
    validateUidGid c.ff e.gid = true ∧ validateNsec c.ff e.mtime = true ∧ (∀ n, a.user = some n → validateUserName (n ++ [0]) = true) ∧
    (∀ n, a.group = some n → validateUserName (n ++ [0]) = true) ∧
    ∀ expected mask, expected = none64 ∨ expected = c.ff → ∃ d, acceptEntry { expected := expected, mask := mask } e = .ok d := by
  obtain ⟨hC, _, _⟩ := setFeatureFlags_ok hc
  obtain ⟨ho, _, hty, hr⟩ := gather_ok hC hdb hk hm hf h
  have htok := typeOK_of ht hr hty
  refine ⟨ho.entry.validMode htok, ?_, ho.entry.uid.valid, ho.entry.gid.valid, ho.entry.time.valid, fun n hn => (ho.attrs.user n hn).2.valid,
    fun n hn => (ho.attrs.group n hn).2.valid, fun x y hx => ?_⟩
  · unfold validateEntryFlags; rw [ho.entry.flags]; rfl
  · obtain ⟨d, hd⟩ := validate_first (m := y) hC.norm hx
    exact ⟨d, ho.entry.accepted htok hd ((known_iff' _).2 ((C17_areNormalized_iff _).1 hC.norm).1)⟩

/-- **C30.** The time that is stored is a multiple of the granularity and is less than one granularity before the real time; if the flags say that no
times are stored, it is 0. -/
theorem C30_time (flags : Word) (s r : Nat) (c : Cfg) (hc : setFeatureFlags flags s r = .ok c) (db : Names) (k k' : Cache)
    (m : Meta) (e : Entry) (a : Attrs) (h : gather c db k m = .ok (e, a, k')) :
    (∀ g, granularity flags = .ok g → 0 ≤ mtimeNs m → mtimeNs m < 18446744073709551615 →
      g ∣ e.mtime ∧ (e.mtime : Int) ≤ mtimeNs m ∧ mtimeNs m < e.mtime + g) ∧
    (granularity flags = .err .ENODATA → e.mtime = 0) := by
  have hmax : u64max = 18446744073709551615 := by decide
  obtain ⟨hC, _, _⟩ := setFeatureFlags_ok hc
  have hg : granularity c.ff = granularity flags := by
    unfold setFeatureFlags at hc
    cases hn : normalize flags with
    | err e => rw [hn] at hc; cases hc
    | ub => rw [hn] at hc; cases hc
    | ok ff =>
      have h17 := C17_keeps_granularity _ _ hn
      rw [hn] at hc
      simp only at hc
      split at hc
      · injection hc with hc; subst hc; exact h17
      · injection hc with hc; subst hc; exact h17
      · cases hc
      · cases hc
  have he : e.mtime = fixupMtime c m := by
    unfold gather at h
    split at h
    · cases h
    · cases h
    split at h
    · cases h
    · cases h
    split at h
    · cases h
    · cases h
    split at h
    · cases h
    injection h with h
    injection h with h _
    rw [← h]
  rw [he, ← hg]
  constructor
  · intro g hgr h0 h1
    have hgc : c.gran = g := by
      rcases hC.gran with q | ⟨q, _⟩
      · rw [hgr] at q; injection q with q; exact q.symm
      · rw [hgr] at q; cases q
    have hgs : g = 1 ∨ g = 1000 ∨ g = 1000000000 ∨ g = 2000000000 := by
      rcases ((C17_granularity_iff _ _).1 hgr).2 with q | q | q | q <;> omega
    unfold fixupMtime
    rw [hgc, if_neg (by rw [hmax]; omega)]
    have ht := timespec_nonneg h0 h1
    refine ⟨Nat.dvd_mul_left _ _, ?_⟩
    generalize timespecToNsec m.sec m.nsec = t at ht
    rcases hgs with rfl | rfl | rfl | rfl <;> omega
  · intro hnd
    have hgc : c.gran = u64max := by
      rcases hC.gran with q | ⟨_, q⟩
      · rw [hnd] at q; cases q
      · exact q
    unfold fixupMtime; rw [if_pos hgc]

/-- **C30.** The names that are stored are the ones the user database has for the owner and the group of this very object, whatever was cached from
the objects before; without the flag none are stored. -/
theorem C30_names (c : Cfg) (db : Names) (k k' : Cache) (hk : CacheOK c db k) (m : Meta) (e : Entry) (a : Attrs)
    (h : gather c db k m = .ok (e, a, k')) :
    (has c.ff withUserNames = true → uidToName c db m.uid = .ok a.user ∧ gidToName c db m.gid = .ok a.group) ∧
    (has c.ff withUserNames = false → a.user = none ∧ a.group = none) ∧ CacheOK c db k' := by
  unfold gather at h
  split at h
  · cases h
  · cases h
  split at h
  · cases h
  · cases h
  rename_i k1 hk1
  split at h
  · cases h
  · cases h
  split at h
  · cases h
  injection h with h
  injection h with _ h
  injection h with ha hkk
  subst ha hkk
  obtain ⟨h1, h2, h3⟩ := readNames_ok hk hk1
  exact ⟨h2, h3, h1⟩

/-- What is stored, without the cache for the next object. -/
def record? : Res (Entry × Attrs × Cache) → Res (Entry × Attrs)
  | .ok (e, a, _) => .ok (e, a)
  | .err e => .err e
  | .ub => .ub

theorem readUser_same {c : Cfg} {db : Names} {k1 k2 : Cache} (h1 : CacheOK c db k1) (h2 : CacheOK c db k2) (u : Nat) :
    (∃ x y, readUser c db k1 u = .ok x ∧ readUser c db k2 u = .ok y) ∨ (∃ e, readUser c db k1 u = .err e ∧ readUser c db k2 u = .err e) := by
  have key : ∀ k, CacheOK c db k → (∃ n x, uidToName c db u = .ok n ∧ readUser c db k u = .ok x) ∨ (∃ e, uidToName c db u = .err e ∧ readUser c db k u = .err e) := by
    intro k hk
    unfold readUser
    split
    · cases hq : uidToName c db u with
      | ok n => exact .inl ⟨_, _, rfl, rfl⟩
      | err e => exact .inr ⟨_, rfl, rfl⟩
      | ub =>
        exfalso
        unfold uidToName nameOf at hq
        repeat' split at hq
        all_goals cases hq
    · rename_i hc
      have hc' : k.userName ≠ none ∧ k.uid = u := ⟨fun h => hc (.inl h), Decidable.not_not.1 (fun h => hc (.inr h))⟩
      cases hn : k.userName with
      | none => exact absurd hn hc'.1
      | some n => exact .inl ⟨_, _, by rw [← hc'.2]; exact (hk.user n hn).2, rfl⟩
  rcases key k1 h1 with ⟨n, x, a, b⟩ | ⟨e, a, b⟩ <;> rcases key k2 h2 with ⟨n', x', a', b'⟩ | ⟨e', a', b'⟩
  · exact .inl ⟨_, _, b, b'⟩
  · rw [a] at a'; cases a'
  · rw [a] at a'; cases a'
  · rw [a] at a'; injection a' with a'; subst a'; exact .inr ⟨_, b, b'⟩

theorem readGroup_same {c : Cfg} {db : Names} {k1 k2 : Cache} (h1 : CacheOK c db k1) (h2 : CacheOK c db k2) (u : Nat) :
    (∃ x y, readGroup c db k1 u = .ok x ∧ readGroup c db k2 u = .ok y) ∨ (∃ e, readGroup c db k1 u = .err e ∧ readGroup c db k2 u = .err e) := by
  have key : ∀ k, CacheOK c db k → (∃ n x, gidToName c db u = .ok n ∧ readGroup c db k u = .ok x) ∨ (∃ e, gidToName c db u = .err e ∧ readGroup c db k u = .err e) := by
    intro k hk
    unfold readGroup
    split
    · cases hq : gidToName c db u with
      | ok n => exact .inl ⟨_, _, rfl, rfl⟩
      | err e => exact .inr ⟨_, rfl, rfl⟩
      | ub =>
        exfalso
        unfold gidToName nameOf at hq
        repeat' split at hq
        all_goals cases hq
    · rename_i hc
      have hc' : k.groupName ≠ none ∧ k.gid = u := ⟨fun h => hc (.inl h), Decidable.not_not.1 (fun h => hc (.inr h))⟩
      cases hn : k.groupName with
      | none => exact absurd hn hc'.1
      | some n => exact .inl ⟨_, _, by rw [← hc'.2]; exact (hk.group n hn).2, rfl⟩
  rcases key k1 h1 with ⟨n, x, a, b⟩ | ⟨e, a, b⟩ <;> rcases key k2 h2 with ⟨n', x', a', b'⟩ | ⟨e', a', b'⟩
  · exact .inl ⟨_, _, b, b'⟩
  · rw [a] at a'; cases a'
  · rw [a] at a'; cases a'
  · rw [a] at a'; injection a' with a'; subst a'; exact .inr ⟨_, b, b'⟩

theorem readNames_same {c : Cfg} {db : Names} {k1 k2 : Cache} (h1 : CacheOK c db k1) (h2 : CacheOK c db k2) (m : Meta) :
    (∃ x y, readNames c db k1 m = .ok x ∧ readNames c db k2 m = .ok y) ∨ (∃ e, readNames c db k1 m = .err e ∧ readNames c db k2 m = .err e) := by
  unfold readNames
  split
  · exact .inl ⟨_, _, rfl, rfl⟩
  rename_i hu
  have hu : has c.ff withUserNames = true := by simpa using hu
  split
  · exact .inr ⟨_, rfl, rfl⟩
  rcases readUser_same h1 h2 m.uid with ⟨x, y, a, b⟩ | ⟨e, a, b⟩
  · rw [a, b]
    exact readGroup_same (readUser_ok h1 hu a).1 (readUser_ok h2 hu b).1 m.gid
  · rw [a, b]; exact .inr ⟨_, rfl, rfl⟩

/-- **C30.** What is stored for an object, and whether it can be stored, does not depend on the objects that came before it. -/
theorem C30_cache_transparent (c : Cfg) (db : Names) (k1 k2 : Cache) (h1 : CacheOK c db k1) (h2 : CacheOK c db k2) (m : Meta) :
    record? (gather c db k1 m) = record? (gather c db k2 m) := by
  unfold gather
  split
  · rfl
  · rfl
  rcases readNames_same h1 h2 m with ⟨x, y, a, b⟩ | ⟨e, a, b⟩
  · have q1 := readNames_ok h1 a
    have q2 := readNames_ok h2 b
    rw [a, b]
    simp only
    split
    · rfl
    · rfl
    split
    · rfl
    simp only [record?]
    have hn : cachedUser x m = cachedUser y m ∧ cachedGroup x m = cachedGroup y m := by
      cases hu : has c.ff withUserNames with
      | true =>
        obtain ⟨e1, e2⟩ := q1.2.1 hu
        obtain ⟨e3, e4⟩ := q2.2.1 hu
        rw [e1] at e3; rw [e2] at e4
        injection e3 with e3; injection e4 with e4
        exact ⟨e3, e4⟩
      | false =>
        obtain ⟨e1, e2⟩ := q1.2.2 hu
        obtain ⟨e3, e4⟩ := q2.2.2 hu
        rw [e1, e2, e3, e4]
        exact ⟨rfl, rfl⟩
    rw [hn.1, hn.2]
  · rw [a, b]

/-! ### Whole trees -/

mutual
def FsTree.height : FsTree → Nat
  | .dir _ false kids => 1 + kids.height
  | _ => 1
def FsKids.height : FsKids → Nat
  | .nil => 0
  | .cons true _ t r => max t.height r.height
  | .cons false _ _ r => r.height
end

/-- Is it a directory? -/
def FsTree.isDir : FsTree → Bool
  | .dir _ _ _ => true
  | _ => false

section
variable {c : Cfg} {db : Names} (hC : CfgOK c) (hdb : NamesOK db)
include hC hdb

theorem gathered {k : Cache} (hk : CacheOK c db k) {m : Meta} (hm : FsOK m) (hf : Fits c db m) {e : Entry} {a : Attrs} {k' : Cache}
    (h : gather c db k m = .ok (e, a, k')) :
    ObjOK c.ff e a ∧ CacheOK c db k' ∧ (∀ t, isType e.mode t = isType m.mode t) ∧ typeRefused c m = false := by
  obtain ⟨h1, h2, h3, h4⟩ := gather_ok hC hdb hk hm hf h
  exact ⟨h1, h2, fun t => isType_of_eq h3, h4⟩

mutual
theorem survey_storable : ∀ (t : FsTree) (k : Cache) (t' : Tree) (k' : Cache), CacheOK c db k → TreeFits c db t → survey c db k t = .ok (t', k') →
    Storable c.ff t' ∧ CacheOK c db k' ∧ t'.height ≤ t.height ∧ t'.isDir = t.isDir
  | .file m api content, k, t', k', hk, hf, h => by
    unfold survey at h
    split at h
    · rename_i e a k1 hg
      injection h with h; injection h with h1 h2; subst h1 h2
      obtain ⟨a1, a2, a3, a4⟩ := gathered hC hdb hk hf.1 hf.2.1 hg
      exact ⟨⟨a1, by rw [a3]; exact hf.2.2⟩, a2, Nat.le_refl _, rfl⟩
    · cases h
    · cases h
  | .symlink m t, k, t', k', hk, hf, h => by
    unfold survey at h
    split at h
    · rename_i e a k1 hg
      injection h with h; injection h with h1 h2; subst h1 h2
      obtain ⟨a1, a2, a3, a4⟩ := gathered hC hdb hk hf.1 hf.2.1 hg
      obtain ⟨_, _, b1, b2, b3, b4⟩ := hf
      refine ⟨⟨a1, by rw [a3]; exact b1, ?_, b2, b3, b4⟩, a2, Nat.le_refl _, rfl⟩
      unfold typeRefused at a4
      simp [b1] at a4
      exact a4.1.1.1
    · cases h
    · cases h
  | .device m x y, k, t', k', hk, hf, h => by
    unfold survey at h
    split at h
    · rename_i e a k1 hg
      injection h with h; injection h with h1 h2; subst h1 h2
      obtain ⟨a1, a2, a3, a4⟩ := gathered hC hdb hk hf.1 hf.2.1 hg
      obtain ⟨_, _, b1, b2, b3⟩ := hf
      refine ⟨⟨a1, by rw [a3, a3]; exact b1, ?_, b2, b3⟩, a2, Nat.le_refl _, rfl⟩
      unfold typeRefused at a4
      rcases b1 with b1 | b1 <;> simp [b1] at a4 <;> exact a4.1.1.2
    · cases h
    · cases h
  | .special m, k, t', k', hk, hf, h => by
    unfold survey at h
    split at h
    · rename_i e a k1 hg
      injection h with h; injection h with h1 h2; subst h1 h2
      obtain ⟨a1, a2, a3, a4⟩ := gathered hC hdb hk hf.1 hf.2.1 hg
      obtain ⟨_, _, b1⟩ := hf
      refine ⟨⟨a1, ?_⟩, a2, Nat.le_refl _, rfl⟩
      rw [a3, a3]
      unfold typeRefused at a4
      rcases b1 with b1 | b1 <;> simp [b1] at a4
      · exact .inl ⟨b1, a4.1.2⟩
      · exact .inr ⟨b1, a4.2⟩
    · cases h
    · cases h
  | .dir m true kids, k, t', k', hk, hf, h => by
    unfold survey at h
    split at h
    · rename_i e a k1 hg
      injection h with h; injection h with h1 h2; subst h1 h2
      obtain ⟨a1, a2, a3, a4⟩ := gathered hC hdb hk hf.1 hf.2.1 hg
      exact ⟨⟨a1, by rw [a3]; exact hf.2.2, trivial⟩, a2, Nat.le_refl _, rfl⟩
    · cases h
    · cases h
  | .dir m false kids, k, t', k', hk, hf, h => by
    unfold survey at h
    split at h
    · rename_i e a k1 hg
      obtain ⟨a1, a2, a3, a4⟩ := gathered hC hdb hk hf.1 hf.2.1 hg
      obtain ⟨_, _, b1, b2⟩ := hf
      split at h
      · rename_i ks k2 hs
        injection h with h; injection h with h1 h2; subst h1 h2
        obtain ⟨d1, d2, d3⟩ := surveyKids_storable kids k1 ks k2 a2 b2 hs
        exact ⟨⟨a1, by rw [a3]; exact b1, d1⟩, d2, by unfold Tree.height FsTree.height; omega, rfl⟩
      · cases h
      · cases h
    · cases h
    · cases h
theorem surveyKids_storable : ∀ (t : FsKids) (k : Cache) (t' : Kids) (k' : Cache), CacheOK c db k → KidsFit c db t → surveyKids c db k t = .ok (t', k') →
    StorableKids c.ff t' ∧ CacheOK c db k' ∧ t'.height ≤ t.height
  | .nil, k, t', k', hk, hf, h => by
    unfold surveyKids at h
    injection h with h; injection h with h1 h2; subst h1 h2
    exact ⟨trivial, hk, Nat.le_refl _⟩
  | .cons false n t r, k, t', k', hk, hf, h => by
    unfold surveyKids at h
    obtain ⟨d1, d2, d3⟩ := surveyKids_storable r k t' k' hk hf h
    exact ⟨d1, d2, by unfold FsKids.height; exact d3⟩
  | .cons true n t r, k, t', k', hk, hf, h => by
    unfold surveyKids at h
    obtain ⟨b0, b1, b2⟩ := hf
    split at h
    · rename_i t1 k1 hg
      obtain ⟨a1, a2, a3, a4⟩ := survey_storable t k t1 k1 hk b1 hg
      split at h
      · rename_i ks k2 hs
        injection h with h; injection h with h1 h2; subst h1 h2
        obtain ⟨d1, d2, d3⟩ := surveyKids_storable r k1 ks k2 a2 b2 hs
        exact ⟨⟨b0, a1, d1⟩, d2, by unfold Kids.height FsKids.height; omega⟩
      · cases h
      · cases h
    · cases h
    · cases h
end
end

/-- A fresh cache. -/
theorem cacheOK_empty (c : Cfg) (db : Names) : CacheOK c db {} := ⟨(by intro n h; cases h), (by intro n h; cases h)⟩

/-- **C30, partial.** A whole directory tree of the file system: the encoder's flags, shift and range are any that it takes; the objects are such as
Linux may have, none of them in one of the cases listed in `Fits`.  If the metadata can be stored at all (`survey` succeeds), the archive that the
encoder makes is read by the decoder to its end, however both are driven, and the decoder reports this metadata.
What is missing: the cases excluded by `Fits` and `NamesOK`. -/
theorem C30_archive_partial {q : List Goodbye.NameItem → List Goodbye.NameItem} (hq : Goodbye.Sorts q) (flags : Word) (s r : Nat) (c : Cfg)
    (hc : setFeatureFlags flags s r = .ok c) (db : Names) (hdb : NamesOK db) (t : FsTree) (hf : TreeFits c db t) (hd : t.isDir = true) (hh : t.height ≤ 64)
    (t' : Tree) (k' : Cache) (ht : survey c db {} t = .ok (t', k'))
    (sizes : Nat → Option Nat) (hs : Positive sizes) (bytes : Bytes) (eo : EOutcome) (hen : ERun q sizes (eStart t') bytes eo)
    (hl : bytes.length < 2 ^ 62) (cfg : DCfg) (hn : cfg.naked = false) (hw : cfg.wantPayload = true) (e m : Word) (he : e = none64 ∨ e = c.ff)
    (ps : List Bytes) (hps : ps.flatten = bytes) (obs : List Obs) (o : Outcome) (hr : Run (start cfg e m) ps obs o) :
    eo = .finished ∧ atoms obs = events [] t' ∧ o = .finished := by
  obtain ⟨hC, _, _⟩ := setFeatureFlags_ok hc
  obtain ⟨a1, _, a3, a4⟩ := survey_storable hC hdb t {} t' k' (cacheOK_empty c db) hf ht
  exact C25_round_trip hq c.ff hC.norm t' a1 (by rw [a4]; exact hd) (by omega) sizes hs bytes eo hen hl cfg hn hw e m he ps hps obs o hr

/-! ### Where the decoder refuses what the encoder writes

Each of the following is about the code as it is: the encoder stores the object without complaint, the decoder refuses the archive. -/

/-- A regular file of user and group 1000. -/
def plain (sec nsec : Int) (uid gid : Nat) : Meta := { mode := 0x81a4#64, uid := uid, gid := gid, sec := sec, nsec := nsec }

theorem plain_fsOK (sec nsec : Int) (uid gid : Nat) (h : 0 ≤ nsec ∧ nsec < 1000000000) (hu : uid < 2 ^ 32 ∧ gid < 2 ^ 32) : FsOK (plain sec nsec uid gid) where
  mode := by show (0x81a4#64 : Word) &&& ~~~(0xffff#64) = 0#64; decide
  ids := hu
  nsec := h
  ext := by intro a h; cases h
  dfl := by intro a h; cases h
  xattrOnce := by simp [plain]
  xattrs := by intro x h; cases h
  selinux := by intro s h; cases h
  projid := by simp [plain]

/-- A user database with one user and one group, both number 1000, both with this name. -/
def oneName (n : Bytes) : Names :=
  { user := fun u => if u = 1000 then some n else none, group := fun u => if u = 1000 then some n else none,
    uid := fun b => if b = n then some 1000 else none, gid := fun b => if b = n then some 1000 else none }

/-- **C30 is false** for `--with=usec-time`: the encoder stores times in µs, the decoder wants them in ms (src/caformat-util.c:299 has 1000,
src/cadecoder.c:833 has 1000000).  The file has the time 1700000000.123456. -/
theorem C30_usec_violated : ∃ c e a k', setFeatureFlags (with32BitUids ||| withUsecTime ||| withPermissions) 0 0 = .ok c ∧
    FsOK (plain 1700000000 123456000 1000 1000) ∧ gather c (oneName []) {} (plain 1700000000 123456000 1000 1000) = .ok (e, a, k') ∧
    (e.mtime : Int) = mtimeNs (plain 1700000000 123456000 1000 1000) ∧ ∀ d, ∃ x, acceptEntry d e = .err x := by
  refine ⟨{ ff := 0x112#64, gran := 1000 }, _, _, _, by decide, plain_fsOK _ _ _ _ (by decide) (by decide), rfl, by decide, ?_⟩
  intro d
  unfold acceptEntry
  cases hv : validateFeatureFlags d _ with
  | none => exact ⟨_, rfl⟩
  | some d' =>
    have hff := (validateFeatureFlags_again hv).2.1
    have hn : validateNsec d'.ff (fixupMtime { ff := 0x112#64, gran := 1000 } (plain 1700000000 123456000 1000 1000)) = false := by rw [hff]; decide
    simp only
    repeat' split
    all_goals first
      | exact ⟨_, rfl⟩
      | (rename_i h _; exact absurd hn (by simpa using h))

theorem bad_user_refused {b : Bytes} (h : validateUserName b = false) (d : FF) (st : PSt) : accept .user d st b = .err .EBADMSG := by
  simp [accept, h]

theorem dec_1001 : Number.dec 1001 = [49, 48, 48, 49] := by
  unfold Number.dec
  rw [Number.fmt, dif_neg (by omega), Number.fmt, dif_neg (by omega), Number.fmt, dif_neg (by omega), Number.fmt, dif_pos (by omega)]
  decide

theorem unnamed_refused {ff : Word} {p : Parsed} (h1 : has ff withUserNames = true) (h2 : has ff (with16BitUids ||| with32BitUids) = false)
    (h3 : p.attrs.user = none) (root : Bool) : finalChecks ff root p = false := by
  unfold finalChecks
  simp [h1, h2, h3]

/-- **C30 is false** for user names with a "." or a "$" in them, or with a digit in front: they are stored, and no USER record with them is accepted.
(The name here is "a.b".) -/
theorem C30_dotted_name_violated : ∃ c e a k', setFeatureFlags (with32BitUids ||| withUserNames ||| withNsecTime ||| withPermissions) 0 0 = .ok c ∧
    gather c (oneName [97, 46, 98]) {} (plain 1700000000 0 1000 1000) = .ok (e, a, k') ∧ a.user = some [97, 46, 98] ∧
    ∀ d st, accept .user d st ([97, 46, 98] ++ [0]) = .err .EBADMSG := by
  refine ⟨{ ff := 0x126#64, gran := 1 }, _, _, _, by decide, rfl, by decide, ?_⟩
  exact bad_user_refused (by decide)

/-- **C30 is false** if names are stored and no ids: no name is stored for user 0, and the decoder refuses an object without one. -/
theorem C30_root_name_violated : ∃ c e a k', setFeatureFlags (withUserNames ||| withNsecTime ||| withPermissions) 0 0 = .ok c ∧
    gather c (oneName [97]) {} (plain 1700000000 0 0 1000) = .ok (e, a, k') ∧ ∀ root t, finalChecks c.ff root ⟨e, a, t⟩ = false := by
  refine ⟨{ ff := 0x124#64, gran := 1 }, _, _, _, by decide, rfl, ?_⟩
  intro root t
  exact unnamed_refused (by decide) (by decide) rfl root

/-- **C30 is false** if names are stored and no ids, and a user has no name: the number is stored in its place, and the decoder does not take it. -/
theorem C30_number_as_name_violated : ∃ c e a k', setFeatureFlags (withUserNames ||| withNsecTime ||| withPermissions) 0 0 = .ok c ∧
    gather c (oneName [97]) {} (plain 1700000000 0 1001 1000) = .ok (e, a, k') ∧ a.user = some [49, 48, 48, 49] ∧
    ∀ d st, accept .user d st ([49, 48, 48, 49] ++ [0]) = .err .EBADMSG := by
  refine ⟨{ ff := 0x124#64, gran := 1 }, _, _, _, by decide, rfl, ?_, ?_⟩
  · show some (Number.dec 1001) = _
    rw [dec_1001]
  exact bad_user_refused (by decide)

/-- **C30 is false** for a file of the last ns of 1969: its time is stored as `UINT64_MAX`, which is refused. -/
theorem C30_last_ns_of_1969_violated : ∃ c e a k', setFeatureFlags (with32BitUids ||| withNsecTime ||| withPermissions) 0 0 = .ok c ∧
    FsOK (plain (-1) 999999999 1000 1000) ∧ gather c (oneName []) {} (plain (-1) 999999999 1000 1000) = .ok (e, a, k') ∧ e.mtime = u64max ∧
    ∀ ff, validateNsec ff e.mtime = false := by
  refine ⟨{ ff := 0x122#64, gran := 1 }, _, _, _, by decide, plain_fsOK _ _ _ _ (by decide) (by decide), rfl, by decide, ?_⟩
  intro ff
  have : fixupMtime { ff := 0x122#64, gran := 1 } (plain (-1) 999999999 1000 1000) = u64max := by decide
  show validateNsec ff (fixupMtime { ff := 0x122#64, gran := 1 } (plain (-1) 999999999 1000 1000)) = false
  rw [this]
  rfl

/-- **C30 is false** for times before 1970: the file is of the first second of 1969's last minute, and the time in the archive is in the year 2554. -/
theorem C30_before_1970_violated : ∃ c e a k', setFeatureFlags (with32BitUids ||| withNsecTime ||| withPermissions) 0 0 = .ok c ∧
    gather c (oneName []) {} (plain (-60) 0 1000 1000) = .ok (e, a, k') ∧ e.mtime = 18446744013709551616 ∧ validateNsec c.ff e.mtime = true := by
  exact ⟨{ ff := 0x122#64, gran := 1 }, _, _, _, by decide, rfl, by decide, by decide⟩

/-- A file whose ACL names the users 1005 and 2005. -/
def twoUsers : Meta := { plain 1700000000 0 1000 1000 with ext := some { users := [(1005, 4), (2005, 4)], groups := [], groupObj := 4 } }

/-- **C30 is false** with a uid range: users that differ by a multiple of the range become the same, and if an ACL names both with the same
permissions, the decoder refuses the second entry. -/
theorem C30_range_violated : ∃ c e a k' x, setFeatureFlags (with32BitUids ||| withNsecTime ||| withAcl) 1000 1000 = .ok c ∧
    gather c (oneName []) {} twoUsers = .ok (e, a, k') ∧ a.aclUser = [x, x] ∧ aclOrder [x] x = false := by
  refine ⟨{ ff := 0x20000022#64, gran := 1, shift := 1000, range := 1000 }, _, _, _, ⟨5, 4, none⟩, by decide, rfl, ?_, by decide⟩
  show sortAcl [⟨5, 4, none⟩, ⟨5, 4, none⟩] = _
  unfold sortAcl
  rw [List.mergeSort_of_pairwise]
  exact .cons (by simp; decide) (.cons (by simp) .nil)

/-! ### An example -/

/-- ACLs, extended attributes and names are stored. -/
def exCfg : Cfg := { ff := 0x30000626#64, gran := 1, shift := 0, range := 0 }

example : setFeatureFlags (with32BitUids ||| withUserNames ||| withNsecTime ||| withSymlinks ||| withDeviceNodes ||| withXattrs ||| withAcl) 0 0 = .ok exCfg := by decide

/-- A file with an ACL and an attribute "user.a". -/
def exMeta : Meta :=
  { plain 1700000000 123456789 1000 1000 with
    ext := some { users := [(1000, 6), (1001, 4)], groups := [(100, 5)], groupObj := 4 }, xattrs := [([117, 115, 101, 114, 46, 97], [1, 2, 3])] }
/-- A directory with a default ACL. -/
def exDirMeta : Meta :=
  { plain 1700000000 5 0 0 with mode := 0x41ed#64, dfl := some { user := 7, group := 5, other := 0, mask := some 7, users := [(1000, 7)], groups := [] } }

/-- A directory with this file and a symbolic link. -/
def exFs : FsTree :=
  .dir exDirMeta false (.cons true [97] (.file exMeta false [1, 2, 3]) (.cons true [98] (.symlink { plain 0 0 1000 1000 with mode := 0xa1ff#64 } [97]) .nil))

theorem exFs_namesOK : NamesOK (oneName [97]) := by
  have h : NameOK [97] := ⟨⟨97, [], rfl, .inl (by decide), by simp⟩, by simp, by simp⟩
  constructor <;> intro u n _ hn <;> simp only [oneName] at hn <;> split at hn <;> first | (injection hn with hn; subst hn; exact h) | cases hn

theorem exFits {m : Meta} (h0 : 0 ≤ mtimeNs m ∧ mtimeNs m < 18446744073709551615) (hu : ∀ u ∈ namedUsers m ++ namedGroups m, u < 60000) :
    Fits exCfg (oneName [97]) m where
  time := fun _ => h0
  usec := fun h => absurd h (by decide)
  notRoot := fun _ h => absurd h (by decide)
  known := fun _ h => absurd h (by decide)
  apartUsers := by
    intro _ u v h1 h2 hne
    have a1 := hu u (List.mem_append_left _ h1)
    have a2 := hu v (List.mem_append_left _ h2)
    have key : ∀ w, w < 60000 → shiftUid exCfg w = w := by
      intro w hw
      unfold shiftUid
      rw [if_neg (by simp [uidValid]; omega), if_neg (by simp [exCfg]), if_neg (by simp [exCfg])]; simp [exCfg]
    exact ⟨fun _ => by rw [key u a1, key v a2]; exact hne, fun h => absurd h (by decide)⟩
  apartGroups := by
    intro _ u v h1 h2 hne
    have a1 := hu u (List.mem_append_right _ h1)
    have a2 := hu v (List.mem_append_right _ h2)
    have key : ∀ w, w < 60000 → shiftUid exCfg w = w := by
      intro w hw
      unfold shiftUid
      rw [if_neg (by simp [uidValid]; omega), if_neg (by simp [exCfg]), if_neg (by simp [exCfg])]; simp [exCfg]
    exact ⟨fun _ => by rw [key u a1, key v a2]; exact hne, fun h => absurd h (by decide)⟩

theorem exMeta_fsOK : FsOK exMeta :=
  { plain_fsOK 1700000000 123456789 1000 1000 (by decide) (by decide) with
    ext := by intro a h; injection h with h; subst h; exact ⟨by simp, by simp, by simp, by simp, by simp⟩
    xattrOnce := by simp [exMeta]
    xattrs := by simp [exMeta] }

theorem exDirMeta_fsOK : FsOK exDirMeta :=
  { plain_fsOK 1700000000 5 0 0 (by decide) (by decide) with
    mode := by show (0x41ed#64 : Word) &&& ~~~(0xffff#64) = 0#64; decide
    dfl := by intro a h; injection h with h; subst h; exact ⟨by simp, by simp, by simp, by simp, by simp, by simp, by simp⟩ }

/-- The hypotheses of the theorems are met by this tree. -/
example : TreeFits exCfg (oneName [97]) exFs := by
  have hn : ∀ c : UInt8, c ≠ 46 → c ≠ 0 → c ≠ 47 → SafeName [c] := fun c h1 h2 h3 =>
    ⟨by simp, by simpa using h1, by simp, by simpa using fun h => h2 h.symm, by simpa using fun h => h3 h.symm⟩
  refine ⟨exDirMeta_fsOK, exFits (by decide) (by decide), by decide, hn _ (by decide) (by decide) (by decide),
    ⟨exMeta_fsOK, exFits (by decide) (by decide), by decide⟩, hn _ (by decide) (by decide) (by decide), ⟨?_, exFits (by decide) (by decide), by decide, by decide, by decide, by decide⟩, trivial⟩
  exact { plain_fsOK 0 0 1000 1000 (by decide) (by decide) with mode := by show (0xa1ff#64 : Word) &&& ~~~(0xffff#64) = 0#64; decide }

example : ∃ t' k', survey exCfg (oneName [97]) {} exFs = .ok (t', k') := ⟨_, _, rfl⟩

end Casync.Meta
