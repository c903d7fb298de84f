import Verif.Lemmas.RestoreStored
import Verif.Props.Meta
/-!
C29: ids are shifted back.  C47: the metadata that was stored is what the extracted object has — and where this is not so.
-/
namespace Casync.Meta
open Casync Flags Archive

/-! ### C29 -/

/-- **C29.** An id of the range [shift, shift + range) (no upper end if the range is 0), stored with shift and range and extracted with the same ones,
is the same again, unless it would have to be stored as one of the two reserved numbers, which is refused (`C29_reserved`). -/
theorem C29_round_trip (c : Cfg) (rp : Word) (u : Nat) (hu : u < 2 ^ 32) (hr : InRange c.shift c.range u) (hv : uidValid (shiftUid c u) = true) :
    unshiftUid { replay := rp, shift := c.shift, range := c.range } (shiftUid c u) = u := by
  have := unshift_shift (rp := rp) hu hv hr
  rwa [Nat.mod_eq_of_lt (shiftUid_lt hu)] at this

theorem gather_ids {c : Cfg} {db : Names} {k k' : Cache} {m : Meta} {e : Entry} {a : Attrs} (h : gather c db k m = .ok (e, a, k')) :
    entryIds c m = .ok (e.uid, e.gid) := by
  unfold gather at h
  split at h
  · cases h
  · cases h
  split at h
  · cases h
  · cases h
  split at h
  · cases h
  · cases h
  rename_i uid gid hI
  split at h
  · cases h
  injection h with h
  injection h with h _
  subst h
  exact hI

theorem entryIds_shifted {c : Cfg} {m : Meta} {u g : Nat} (hi : has c.ff withIds = true) (h : entryIds c m = .ok (u, g)) :
    u = shiftUid c m.uid ∧ g = shiftUid c m.gid ∧ uidValid u = true ∧ uidValid g = true := by
  unfold entryIds at h
  rw [if_pos hi] at h
  by_cases v1 : uidValid (shiftUid c m.uid) = true
  · rw [if_neg (by simpa using v1)] at h
    by_cases v2 : uidValid (shiftUid c m.gid) = true
    · rw [if_neg (by simpa using v2)] at h
      split at h
      · cases h
      · injection h with h; injection h with e1 e2; subst e1; subst e2; exact ⟨rfl, rfl, v1, v2⟩
    · rw [if_pos (by simpa using v2)] at h; cases h
  · rw [if_pos (by simpa using v1)] at h; cases h

theorem shiftUid_valid {c : Cfg} {u : Nat} (h : uidValid (shiftUid c u) = true) :
    uidValid u = true ∧ c.shift ≤ u ∧ shiftUid c u = (if c.range ≠ 0 then (u - c.shift) % c.range else u - c.shift) := by
  unfold shiftUid at h ⊢
  by_cases h1 : uidValid u = true
  · rw [if_neg (by simpa using h1)] at h ⊢
    by_cases h2 : u < c.shift
    · rw [if_pos h2] at h; cases h
    · rw [if_neg h2]
      exact ⟨h1, by omega, rfl⟩
  · rw [if_pos (by simpa using h1)] at h; cases h

/-- **C29.** If ids are stored and an object is stored, then its ids are not reserved ones and not below the shift, and neither are the numbers in the
archive reserved ones; those are the differences to the shift, wrapped into the range if there is one.  (So objects with other ids are refused.) -/
theorem C29_stored (c : Cfg) (db : Names) (k k' : Cache) (m : Meta) (e : Entry) (a : Attrs) (hi : has c.ff withIds = true)
    (h : gather c db k m = .ok (e, a, k')) :
    (m.uid ≠ 0xFFFFFFFF ∧ m.uid ≠ 0xFFFF ∧ c.shift ≤ m.uid ∧ e.uid ≠ 0xFFFFFFFF ∧ e.uid ≠ 0xFFFF ∧
      e.uid = (if c.range = 0 then m.uid - c.shift else (m.uid - c.shift) % c.range)) ∧
    (m.gid ≠ 0xFFFFFFFF ∧ m.gid ≠ 0xFFFF ∧ c.shift ≤ m.gid ∧ e.gid ≠ 0xFFFFFFFF ∧ e.gid ≠ 0xFFFF ∧
      e.gid = (if c.range = 0 then m.gid - c.shift else (m.gid - c.shift) % c.range)) := by
  obtain ⟨e1, e2, v1, v2⟩ := entryIds_shifted hi (gather_ids h)
  obtain ⟨a1, a2, a3⟩ := shiftUid_valid (e1 ▸ v1)
  obtain ⟨b1, b2, b3⟩ := shiftUid_valid (e2 ▸ v2)
  rw [uidValid_iff] at v1 v2 a1 b1
  refine ⟨⟨a1.1, a1.2, a2, v1.1, v1.2, ?_⟩, ⟨b1.1, b1.2, b2, v2.1, v2.2, ?_⟩⟩
  · rw [e1, a3]; by_cases q : c.range = 0 <;> simp [q]
  · rw [e2, b3]; by_cases q : c.range = 0 <;> simp [q]

/-- **C29.** Whatever numbers an archive has: if an object gets its owner from a number and not from a name, then its new owner is in
[shift, shift + range), is no reserved number and has 32 bit; and the reserved numbers of an archive are refused.  The same for the group. -/
theorem C29_extracted (c : RCfg) (db : Names) (fs : Fs) (k k' : RCache) (e : Entry) (a : Attrs) (m m' : Meta)
    (hi : has c.replay (withIds ||| withUserNames) = true) (hu : e.uid < 2 ^ 32) (hg : e.gid < 2 ^ 32) (h : restoreOwner c db fs k e a m = .ok (m', k')) :
    ((has c.replay withUserNames = false ∨ a.user = none) → InRange c.shift c.range m'.uid ∧ m'.uid < 2 ^ 32 ∧ m'.uid ≠ 0xFFFFFFFF ∧ m'.uid ≠ 0xFFFF ∧
      e.uid ≠ 0xFFFFFFFF ∧ e.uid ≠ 0xFFFF) ∧
    ((has c.replay withUserNames = false ∨ a.group = none) → InRange c.shift c.range m'.gid ∧ m'.gid < 2 ^ 32 ∧ m'.gid ≠ 0xFFFFFFFF ∧ m'.gid ≠ 0xFFFF ∧
      e.gid ≠ 0xFFFFFFFF ∧ e.gid ≠ 0xFFFF) := by
  have used : ∀ o, (has c.replay withUserNames = false ∨ o = none) → usedName c o = none := by
    intro o ho
    unfold usedName
    rcases ho with q | q
    · rw [q]; rfl
    · rw [q]; split <;> rfl
  have key : ∀ (v : Nat) (toId : RCache → Bytes → Res (Nat × RCache)) (k k' : RCache) (u : Nat), v < 2 ^ 32 → wantedId c toId k none v = .ok (u, k') →
      InRange c.shift c.range u ∧ u < 2 ^ 32 ∧ u ≠ 0xFFFFFFFF ∧ u ≠ 0xFFFF ∧ v ≠ 0xFFFFFFFF ∧ v ≠ 0xFFFF := by
    intro v toId k k' u hv hw
    unfold wantedId at hw
    simp only at hw
    rw [Nat.mod_eq_of_lt hv] at hw
    split at hw
    · rename_i q
      injection hw with hw; injection hw with hw _; subst hw
      obtain ⟨r1, r2⟩ := unshift_range q
      obtain ⟨w1, w2⟩ := uidValid_iff.1 q
      have hvv : uidValid v = true := by
        by_cases z : uidValid v = true
        · exact z
        · unfold unshiftUid at q; rw [if_pos (by simpa using z)] at q; cases q
      obtain ⟨z1, z2⟩ := uidValid_iff.1 hvv
      exact ⟨r1, r2, w1, w2, z1, z2⟩
    · cases hw
  unfold restoreOwner at h
  rw [if_pos hi] at h
  cases h1 : wantedId c (nameToUid c db) k (usedName c a.user) e.uid with
  | err e => rw [h1] at h; cases h
  | ub => rw [h1] at h; cases h
  | ok p =>
  obtain ⟨u, k1⟩ := p
  rw [h1] at h
  simp only at h
  cases h2 : wantedId c (nameToGid c db) k1 (usedName c a.group) e.gid with
  | err e => rw [h2] at h; cases h
  | ub => rw [h2] at h; cases h
  | ok p =>
  obtain ⟨g, k2⟩ := p
  rw [h2] at h
  simp only at h
  have he : m'.uid = u ∧ m'.gid = g := by
    split at h
    · injection h with h; injection h with h _; subst h; exact ⟨rfl, rfl⟩
    · rename_i hc
      injection h with h; injection h with h _; subst h
      exact ⟨Decidable.not_not.1 (fun q => hc (.inl q)), Decidable.not_not.1 (fun q => hc (.inr q))⟩
  rw [he.1, he.2]
  refine ⟨fun q => ?_, fun q => ?_⟩
  · rw [used _ q] at h1; exact key _ _ _ _ _ hu h1
  · rw [used _ q] at h2; exact key _ _ _ _ _ hg h2

/-- The hypotheses of these theorems can be met: shift 100000, range 65536, id 101000. -/
example : InRange 100000 65536 101000 ∧ uidValid (shiftUid { ff := with32BitUids, gran := 1, shift := 100000, range := 65536 } 101000) = true ∧
    unshiftUid { replay := with32BitUids, shift := 100000, range := 65536 } 1000 = 101000 := by
  refine ⟨⟨by decide, fun _ => by decide⟩, by decide, by decide⟩

/-! ### C47 -/

theorem setFeatureFlags_shift {flags : Word} {s r : Nat} {c : Cfg} (h : setFeatureFlags flags s r = .ok c) : rcfg c = { replay := c.ff, shift := s, range := r } := by
  obtain ⟨_, h1, h2⟩ := setFeatureFlags_ok h
  unfold rcfg; rw [h1, h2]

/-- **C47.** The encoder stores an object `m`, with any feature flags, shift and range; the decoder, set to the same flags, shift and range, puts what was
stored on an object `m2` that may have any metadata before, on any file system.  If this succeeds, the result has the type, owner, permissions, ACLs,
attributes, capabilities, label, time, flags … of `m`, as far as the feature flags name them (`Same`).
What is assumed: `m` is as Linux allows it and in none of the cases in which the archive is refused (`FsOK`, `Fits`, `NamesOK`, see C30), its ids are in the
range, users have one name each and names one user each (`Inverse`). -/
theorem C47_restored (flags : Word) (s r : Nat) (c : Cfg) (hc : setFeatureFlags flags s r = .ok c) (db : Names) (hdb : NamesOK db) (hinv : Inverse db)
    (k k' : Cache) (hk : CacheOK c db k) (m : Meta) (hm : FsOK m) (hf : Fits c db m) (hr : IdsInRange c m)
    (e : Entry) (a : Attrs) (h : gather c db k m = .ok (e, a, k'))
    (fs : Fs) (rk rk' : RCache) (hrk : RCacheOK db rk) (m2 m3 : Meta) (hfs : FsHas fs m2)
    (h2 : finalize { replay := c.ff, shift := s, range := r } db fs rk e a m2 = .ok (m3, rk')) :
    Same c.ff m m3 := by
  obtain ⟨hC, _, _⟩ := setFeatureFlags_ok hc
  obtain ⟨hs, hn⟩ := gather_stores hC hdb hinv hk hm hf hr h
  rw [← setFeatureFlags_shift hc] at h2
  exact (finalize_same hrk hs hfs hn h2).1

theorem hasFd_of {m : Meta} (h : isType m.mode ifDir = true ∨ isType m.mode ifReg = true) : hasFd m = true := by
  unfold hasFd; rw [Bool.or_eq_true]; exact h

theorem gather_quota {c : Cfg} {db : Names} {k k' : Cache} {m : Meta} {e : Entry} {a : Attrs} (h : gather c db k m = .ok (e, a, k')) :
    a.quota = readQuota c m := by
  unfold gather at h
  split at h
  · cases h
  · cases h
  split at h
  · cases h
  · cases h
  split at h
  · cases h
  · cases h
  split at h
  · cases h
  injection h with h
  injection h with _ h
  injection h with h _
  subst h
  rfl

/-- **C47, project ids; partial.** A project id other than 0 of a file or directory is set when the object is made (`early`), and is still there at the end.
What is missing: project id 0, and the root directory, see the next two theorems. -/
theorem C47_projid_partial (c : Cfg) (hC : CfgOK c) (db : Names) (hdb : NamesOK db) (hinv : Inverse db)
    (k k' : Cache) (hk : CacheOK c db k) (m : Meta) (hm : FsOK m) (hf : Fits c db m) (hr : IdsInRange c m)
    (ho : isType m.mode ifDir = true ∨ isType m.mode ifReg = true) (hq : has c.ff withQuotaProjid = true) (h0 : m.projid ≠ 0)
    (e : Entry) (a : Attrs) (h : gather c db k m = .ok (e, a, k'))
    (fs : Fs) (rk rk' : RCache) (hrk : RCacheOK db rk) (m1 m2 m2' m3 : Meta) (ht : isType m1.mode ifDir = true ∨ isType m1.mode ifReg = true)
    (h1 : early (rcfg c) fs e a m1 = .ok m2) (hkeep : m2'.projid = m2.projid) (hfs : FsHas fs m2')
    (h2 : finalize (rcfg c) db fs rk e a m2' = .ok (m3, rk')) : m3.projid = m.projid := by
  obtain ⟨hs, hn⟩ := gather_stores hC hdb hinv hk hm hf hr h
  rw [(finalize_same hrk hs hfs hn h2).2, hkeep]
  have hqq : a.quota = some m.projid := by
    rw [gather_quota h]
    unfold readQuota
    rw [if_pos]
    rw [hq]
    rcases ho with q | q <;> simp [q, h0]
  unfold early at h1
  rw [if_neg (by rw [hasFd_of ht]; simp)] at h1
  split at h1
  · cases h1
  · cases h1
  · simp only [hqq] at h1
    rw [if_pos (show has (rcfg c).replay withQuotaProjid = true from hq)] at h1
    injection h1 with h1
    subst h1
    show m.projid % 2 ^ 32 = _
    have := hm.projid
    exact Nat.mod_eq_of_lt (by omega)

/-- **C47 is false for project id 0**: the directory is stored with project id 0, and restored on a directory that has another one, which it keeps. -/
theorem C47_projid_zero_violated : ∃ c e a k' m2 m3 rk, setFeatureFlags (with32BitUids ||| withNsecTime ||| withPermissions ||| withQuotaProjid) 0 0 = .ok c ∧
    gather c (oneName []) {} { plain 1 0 5 5 with mode := 0x41ed#64 } = .ok (e, a, k') ∧
    early (rcfg c) {} e a { plain 1 0 5 5 with mode := 0x41ed#64, projid := 7 } = .ok m2 ∧
    finalize (rcfg c) (oneName []) {} {} e a m2 = .ok (m3, rk) ∧ m3.projid = 7 := by
  refine ⟨{ ff := 0x100000122#64, gran := 1 }, _, _, _, _, _, _, by decide, rfl, rfl, rfl, rfl⟩

/-- **C47 is false for the permissions under `--with=read-only`**: a file that all may read (0444) is stored, and no one may read what is extracted (0000):
src/cadecoder.c:3693 removes the read bits in place of the write bits. -/
theorem C47_read_only_violated : ∃ c e a k' m3 rk, setFeatureFlags (with32BitUids ||| withNsecTime ||| withReadOnly) 0 0 = .ok c ∧
    gather c (oneName []) {} { plain 1 0 5 5 with mode := 0x8124#64 } = .ok (e, a, k') ∧
    finalize (rcfg c) (oneName []) {} {} e a { plain 1 0 5 5 with mode := 0x8180#64 } = .ok (m3, rk) ∧ m3.mode = 0x8000#64 := by
  refine ⟨{ ff := 0xa2#64, gran := 1 }, _, _, _, _, _, by decide, rfl, rfl, by decide⟩

/-! ### Modes are not set through symbolic links -/

theorem lookUp_ne_ub {c : RCfg} {look : Bytes → Option Nat} {n : Bytes} : lookUp c look n ≠ .ub := by
  unfold lookUp
  split
  · split <;> simp
  · split <;> simp

theorem nameToUid_ne_ub {c : RCfg} {db : Names} {k : RCache} {n : Bytes} : nameToUid c db k n ≠ .ub := by
  have := @lookUp_ne_ub c db.uid n
  unfold nameToUid
  cases k.user with
  | none => simp only; cases h : lookUp c db.uid n <;> simp_all
  | some p =>
    obtain ⟨x, y⟩ := p
    simp only
    split
    · simp
    · cases h : lookUp c db.uid n <;> simp_all

theorem nameToGid_ne_ub {c : RCfg} {db : Names} {k : RCache} {n : Bytes} : nameToGid c db k n ≠ .ub := by
  have := @lookUp_ne_ub c db.gid n
  unfold nameToGid
  cases k.group with
  | none => simp only; cases h : lookUp c db.gid n <;> simp_all
  | some p =>
    obtain ⟨x, y⟩ := p
    simp only
    split
    · simp
    · cases h : lookUp c db.gid n <;> simp_all

theorem wantedId_ne_ub {c : RCfg} {toId : RCache → Bytes → Res (Nat × RCache)} (h : ∀ k n, toId k n ≠ .ub) (k : RCache) (o : Option Bytes) (v : Nat) :
    wantedId c toId k o v ≠ .ub := by
  unfold wantedId
  split
  · exact h _ _
  · split <;> simp

theorem aclIds_ne_ub {c : RCfg} {toId : RCache → Bytes → Res (Nat × RCache)} (h : ∀ k n, toId k n ≠ .ub) (l : List AclEnt) (k : RCache) :
    aclIds c toId k l ≠ .ub := by
  induction l generalizing k with
  | nil => unfold aclIds; simp
  | cons x l ih =>
    unfold aclIds
    have := wantedId_ne_ub (c := c) h k x.name x.id
    cases hw : wantedId c toId k x.name x.id with
    | ub => exact absurd hw this
    | err e => simp
    | ok p =>
      simp only
      have := ih p.2
      cases hq : aclIds c toId p.2 l <;> simp_all

theorem restoreAcl_ne_ub {c : RCfg} {db : Names} {fs : Fs} {k : RCache} {e : Entry} {a : Attrs} {m : Meta} : restoreAcl c db fs k e a m ≠ .ub := by
  have u := fun l k => aclIds_ne_ub (c := c) (toId := nameToUid c db) (fun _ _ => nameToUid_ne_ub) l k
  have g := fun l k => aclIds_ne_ub (c := c) (toId := nameToGid c db) (fun _ _ => nameToGid_ne_ub) l k
  have d : ∀ k m, restoreDefault c db fs k a m ≠ .ub := by
    intro k m
    unfold restoreDefault
    split
    · split
      · split <;> simp
      · simp
    · split
      · simp
      · rename_i hq; exact absurd hq (u _ _)
      · split
        · simp
        · rename_i hq; exact absurd hq (g _ _)
        · split
          · simp
          · split <;> simp
  have x : restoreAccess c db fs k e a m ≠ .ub := by
    unfold restoreAccess
    split
    · simp
    · rename_i hq; exact absurd hq (u _ _)
    · split
      · simp
      · rename_i hq; exact absurd hq (g _ _)
      · split
        · split <;> simp
        · split
          · simp
          · split <;> simp
  unfold restoreAcl
  split
  · simp
  · split
    · simp
    · rename_i hq; exact absurd hq x
    · split
      · exact d _ _
      · simp

theorem maskAttr_ne_ub {s : Bool} {o v w : Word} : maskAttr s o v w ≠ .ub := by
  unfold maskAttr
  simp only
  repeat' split
  all_goals simp

theorem granularity_ne_ub {f : Word} : granularity f ≠ .ub := by
  unfold granularity
  repeat' split
  all_goals simp

theorem bind_ne_ub {α β : Type} {x : Res α} {f : α → Res β} (hx : x ≠ .ub) (hf : ∀ y, x = .ok y → f y ≠ .ub) : (x >>= f) ≠ .ub := by
  cases x with
  | ok y => exact hf y rfl
  | err e => simp
  | ub => exact absurd rfl hx

/-- **C47.** Whatever an archive says and whatever the decoder's settings: no mode is set through a symbolic link, on an object that is not part of what is
extracted.  (`fchmodat()` would follow the link; the outcome `ub` of the model stands for this.)  The ENTRY record has passed the decoder's check of the
mode; the links of the file system are rwxrwxrwx, as on Linux. -/
theorem C47_links_not_followed (c : RCfg) (db : Names) (fs : Fs) (k : RCache) (ff : Word) (e : Entry) (a : Attrs) (m : Meta)
    (he : validateMode ff e.mode e.flags = true) (hm : isType m.mode ifLnk = true → m.mode &&& 0xfff#64 = 0x1ff#64) :
    finalize c db fs k e a m ≠ .ub := by
  have mode_ok : ∀ m1 : Meta, m1.mode &&& ifmt = e.mode &&& ifmt → (isType m1.mode ifLnk = true → m1.mode &&& 0xfff#64 = 0x1ff#64) → restoreMode c e m1 ≠ .ub := by
    intro m1 ht hl
    by_cases hk : isType m1.mode ifLnk = true
    · have hel : isType e.mode ifLnk = true := by unfold isType at hk ⊢; rw [← ht]; exact hk
      have hd : isType m1.mode ifDir = false := isType_excl hk (by decide)
      have hee : e.mode &&& 0xfff#64 = 0x1ff#64 := by
        unfold validateMode at he
        repeat' split at he
        all_goals first
          | cases he
          | exact beq_iff_eq.1 he
          | (rename_i q _; exact absurd hel q)
          | (rename_i q; exact absurd hel q)
          | (rename_i q _ _; exact absurd hel q)
      rw [restoreMode_link (hl hk) hd hee]
      simp
    · have hc : ∀ b, chmod m1 b ≠ .ub := by intro b; unfold chmod; rw [if_neg hk]; simp
      unfold restoreMode
      repeat' split
      all_goals first
        | exact hc _
        | simp
  unfold finalize
  split
  · simp
  split
  · simp
  rename_i ht
  rw [Decidable.not_not] at ht
  have hown : restoreOwner c db fs k e a m ≠ .ub := by
    unfold restoreOwner
    split
    · split
      · simp
      · rename_i hq; exact absurd hq (wantedId_ne_ub (fun _ _ => nameToUid_ne_ub) _ _ _)
      · split
        · simp
        · rename_i hq; exact absurd hq (wantedId_ne_ub (fun _ _ => nameToGid_ne_ub) _ _ _)
        · split <;> simp
    · simp
  refine bind_ne_ub hown (fun y hy => ?_)
  obtain ⟨m1, k1⟩ := y
  have hm1 : ∃ w, m1.mode = m.mode &&& ~~~(w &&& 0xc00#64) := by
    have z : m.mode = m.mode &&& ~~~(0#64 &&& 0xc00#64) := by rw [show ~~~(0#64 &&& 0xc00#64) = BitVec.allOnes 64 by decide, BitVec.and_allOnes]
    unfold restoreOwner at hy
    split at hy
    · split at hy
      · cases hy
      · cases hy
      · split at hy
        · cases hy
        · cases hy
        · split at hy
          · injection hy with hy; injection hy with hy _; subst hy; exact ⟨fs.chownClear m.mode, rfl⟩
          · injection hy with hy; injection hy with hy _; subst hy; exact ⟨0#64, z⟩
    · injection hy with hy; injection hy with hy _; subst hy; exact ⟨0#64, z⟩
  obtain ⟨w, hw⟩ := hm1
  have ht1 : m1.mode &&& ifmt = e.mode &&& ifmt := by rw [hw, keep_bits _ (by decide), ht]
  have hl1 : isType m1.mode ifLnk = true → m1.mode &&& 0xfff#64 = 0x1ff#64 := by
    intro hl
    have : isType m.mode ifLnk = true := by unfold isType at hl ⊢; rw [ht, ← ht1]; exact hl
    have h1 := hm this
    rw [hw]
    apply bv_ext
    intro i hi
    have hb := congrArg (fun v => v.getLsbD i) h1
    simp only [BitVec.getLsbD_and] at hb
    simp only [BitVec.getLsbD_and, BitVec.getLsbD_not, hi, decide_true, Bool.true_and]
    have hx : (0x1ff#64 : Word).getLsbD i = true → (0xc00#64 : Word).getLsbD i = false := by
      intro q
      have := congrArg (fun v => v.getLsbD i) (show (0x1ff#64 : Word) &&& 0xc00#64 = 0#64 by decide)
      simp only [BitVec.getLsbD_and, q, Bool.true_and, BitVec.getLsbD_zero] at this
      exact this
    cases h5 : (0x1ff#64 : Word).getLsbD i with
    | true =>
      rw [h5] at hb
      rw [hx h5, Bool.and_false, Bool.not_false, Bool.and_true]
      exact hb
    | false =>
      rw [h5] at hb
      cases h6 : m.mode.getLsbD i <;> cases h7 : (0xfff#64 : Word).getLsbD i <;> simp_all
  refine bind_ne_ub (mode_ok m1 ht1 hl1) (fun m2 _ => bind_ne_ub restoreAcl_ne_ub (fun y _ => ?_))
  refine bind_ne_ub ?_ (fun _ _ => bind_ne_ub ?_ (fun _ _ => bind_ne_ub ?_ (fun _ _ => bind_ne_ub ?_ (fun _ _ => bind_ne_ub ?_ (fun _ _ => bind_ne_ub ?_
    (fun _ _ => bind_ne_ub ?_ (fun _ _ => by simp)))))))
  · unfold restoreXattrs; repeat' split
    all_goals simp
  · unfold restoreFcaps; repeat' split
    all_goals simp
  · unfold restoreSelinux; repeat' split
    all_goals simp
  · unfold restoreChattr
    split
    · split
      · simp
      · simp
      · rename_i q; exact absurd q maskAttr_ne_ub
    · simp
  · unfold restoreFat
    split
    · split
      · split
        · simp
        · simp
        · rename_i q; exact absurd q maskAttr_ne_ub
      · split <;> simp
    · simp
  · unfold restoreSubvol; repeat' split
    all_goals simp
  · unfold checkTime
    split
    · split
      · split <;> simp
      · simp
      · rename_i q; exact absurd q granularity_ne_ub
    · simp

/-! ### Examples -/

theorem oneName_inverse (n : Bytes) : Inverse (oneName n) := by
  constructor <;> intro u x hx <;> simp only [oneName] at hx ⊢ <;> split at hx <;> first | (rename_i q; injection hx with hx; subst hx; rw [if_pos rfl, q]) | cases hx

/-- Permissions, names, times in ns, some chattr(1) flags, subvolumes, SELinux labels. -/
def exCfg2 : Cfg := { ff := 0x4de30b26#64, gran := 1 }

example : setFeatureFlags (with32BitUids ||| withUserNames ||| withNsecTime ||| withPermissions ||| withSymlinks ||| withFifos |||
    withFlagAppend ||| withFlagNoatime ||| withFlagDirsync ||| withFlagImmutable ||| withFlagSync ||| withFlagNocomp ||| withSubvolume ||| withSubvolumeRo |||
    withSelinux) 0 0 = .ok exCfg2 := by decide

/-- An append-only set-user-id directory, with a label. -/
def exMeta2 : Meta := { plain 1700000000 123456789 1000 1000 with mode := 0x49ed#64, chattr := 0x20#64, selinux := some [1, 2, 3] }

/-- The hypotheses of `C47_restored` are met: a directory of user 1000, restored over one of root with other flags. -/
example : ∃ e a k' m3 rk, gather exCfg2 (oneName [97]) {} exMeta2 = .ok (e, a, k') ∧
    finalize { replay := exCfg2.ff, shift := 0, range := 0 } (oneName [97]) {} {} e a { plain 0 0 0 0 with mode := 0x41c0#64, chattr := 0x10#64 } = .ok (m3, rk) ∧
    m3 = { exMeta2 with chattr := 0x20#64 } := ⟨_, _, _, _, _, rfl, rfl, by decide⟩

example : NamesOK (oneName [97]) ∧ Inverse (oneName [97]) ∧ FsOK exMeta2 ∧ Fits exCfg2 (oneName [97]) exMeta2 ∧ IdsInRange exCfg2 exMeta2 ∧
    FsHas {} { plain 0 0 0 0 with mode := 0x41c0#64, chattr := 0x10#64 } ∧ CacheOK exCfg2 (oneName [97]) {} ∧ RCacheOK (oneName [97]) {} := by
  refine ⟨exFs_namesOK, oneName_inverse _, ?_, ?_, ⟨fun _ => ⟨⟨Nat.zero_le _, fun h => absurd rfl h⟩, ⟨Nat.zero_le _, fun h => absurd rfl h⟩⟩, fun h => absurd h (by decide), fun h => absurd h (by decide)⟩, ?_, cacheOK_empty _ _, ?_⟩
  · exact { plain_fsOK 1700000000 123456789 1000 1000 (by decide) (by decide) with
      mode := by show (0x49ed#64 : Word) &&& ~~~(0xffff#64) = 0#64; decide
      selinux := by intro s h; injection h with h; subst h; decide }
  · exact ⟨fun _ => by decide, fun h => absurd h (by decide), fun _ h => absurd h (by decide), fun _ h => absurd h (by decide),
      fun h => absurd h (by decide), fun h => absurd h (by decide)⟩
  · exact ⟨fun h => (by cases h), fun h => (by cases h), fun h => (by cases h), fun h => (by cases h), fun _ => rfl, fun h => (by cases h), fun h => (by revert h; decide)⟩
  · exact ⟨fun _ _ h => (by cases h), fun _ _ h => (by cases h)⟩

end Casync.Meta
