import Verif.Lemmas.RestoreIds
/-!
What each step of putting metadata on an object does.
-/
namespace Casync.Meta
open Casync Flags Archive

/-! ### Modes -/

theorem keep_bits {a x y : Word} (w : Word) (h : x &&& y = 0#64) : (a &&& ~~~(w &&& x)) &&& y = a &&& y := by
  apply bv_ext
  intro i hi
  have := congrArg (fun v => v.getLsbD i) h
  simp only [BitVec.getLsbD_and, BitVec.getLsbD_zero] at this
  simp only [BitVec.getLsbD_and, BitVec.getLsbD_not, hi, decide_true, Bool.true_and]
  cases a.getLsbD i <;> cases w.getLsbD i <;> cases hx : x.getLsbD i <;> cases hy : y.getLsbD i <;> simp_all

theorem set_bits_other {a b x y : Word} (h : x &&& y = 0#64) : ((a &&& ~~~x) ||| (b &&& x)) &&& y = a &&& y := by
  apply bv_ext
  intro i hi
  have := congrArg (fun v => v.getLsbD i) h
  simp only [BitVec.getLsbD_and, BitVec.getLsbD_zero] at this
  simp only [BitVec.getLsbD_and, BitVec.getLsbD_or, BitVec.getLsbD_not, hi, decide_true, Bool.true_and]
  cases a.getLsbD i <;> cases b.getLsbD i <;> cases hx : x.getLsbD i <;> cases hy : y.getLsbD i <;> simp_all

theorem set_bits_same {a b x : Word} : ((a &&& ~~~x) ||| (b &&& x)) &&& x = b &&& x := by
  apply bv_ext
  intro i hi
  simp only [BitVec.getLsbD_and, BitVec.getLsbD_or, BitVec.getLsbD_not, hi, decide_true, Bool.true_and]
  cases a.getLsbD i <;> cases b.getLsbD i <;> cases hx : x.getLsbD i <;> simp_all

/-- Setting some bits that are among those that are already right. -/
theorem set_bits_sub {a b x y : Word} (h : a &&& y = b &&& y) : ((a &&& ~~~x) ||| (b &&& x)) &&& y = b &&& y := by
  apply bv_ext
  intro i hi
  have := congrArg (fun v => v.getLsbD i) h
  simp only [BitVec.getLsbD_and] at this
  simp only [BitVec.getLsbD_and, BitVec.getLsbD_or, BitVec.getLsbD_not, hi, decide_true, Bool.true_and]
  cases ha : a.getLsbD i <;> cases hb : b.getLsbD i <;> cases hx : x.getLsbD i <;> cases hy : y.getLsbD i <;> simp_all

theorem modePerm_nat (w : Word) (s : Nat) : modePerm w s = w.toNat / 2 ^ s % 8 := by
  unfold modePerm
  rw [BitVec.toNat_and, BitVec.toNat_ushiftRight, Nat.shiftRight_eq_div_pow]
  exact Nat.and_two_pow_sub_one_eq_mod _ 3

theorem permBits_mode (w : Word) : permBits (modePerm w 6) (modePerm w 3) (modePerm w 0) = w &&& 0x1ff#64 := by
  apply BitVec.eq_of_toNat_eq
  unfold permBits
  rw [BitVec.toNat_ofNat, BitVec.toNat_and, modePerm_nat, modePerm_nat, modePerm_nat]
  have : w.toNat &&& (0x1ff#64).toNat = w.toNat % 512 := Nat.and_two_pow_sub_one_eq_mod _ 9
  rw [this]
  generalize w.toNat = n
  have h6 : n / 2 ^ 6 = n / 64 := rfl
  have h3 : n / 2 ^ 3 = n / 8 := rfl
  have h0 : n / 2 ^ 0 = n := by simp
  rw [h6, h3, h0]
  omega

/-! ### The steps -/

theorem restoreOwner_ok {c : RCfg} {db : Names} {fs : Fs} {k k' : RCache} {e : Entry} {a : Attrs} {m m' : Meta} (hk : RCacheOK db k)
    (hu : ∀ n, a.user = some n → NameOK n) (hg : ∀ n, a.group = some n → NameOK n) (h : restoreOwner c db fs k e a m = .ok (m', k')) :
    RCacheOK db k' ∧ ∃ u g w xs, m' = { m with uid := u, gid := g, mode := m.mode &&& ~~~(w &&& 0xc00#64), xattrs := xs } ∧
      (has c.replay (withIds ||| withUserNames) = true →
        u = idVal c db.uid (usedName c a.user) e.uid ∧ g = idVal c db.gid (usedName c a.group) e.gid) := by
  have un : ∀ (o : Option Bytes), (∀ n, o = some n → NameOK n) → ∀ n, usedName c o = some n → NameOK n := by
    intro o ho n hn
    unfold usedName at hn
    split at hn
    · exact ho n hn
    · cases hn
  have z : m.mode &&& ~~~(0#64 &&& 0xc00#64) = m.mode := by rw [show ~~~(0#64 &&& 0xc00#64) = BitVec.allOnes 64 by decide, BitVec.and_allOnes]
  unfold restoreOwner at h
  by_cases hi : has c.replay (withIds ||| withUserNames) = true
  · rw [if_pos hi] at h
    cases h1 : wantedId c (nameToUid c db) k (usedName c a.user) e.uid with
    | err e => rw [h1] at h; cases h
    | ub => rw [h1] at h; cases h
    | ok p =>
      obtain ⟨u, k1⟩ := p
      rw [h1] at h
      simp only at h
      obtain ⟨hu1, hk1⟩ := wantedId_ok (uidLooks c db) hk (un _ hu) h1
      cases h2 : wantedId c (nameToGid c db) k1 (usedName c a.group) e.gid with
      | err e => rw [h2] at h; cases h
      | ub => rw [h2] at h; cases h
      | ok p =>
        obtain ⟨g, k2⟩ := p
        rw [h2] at h
        simp only at h
        obtain ⟨hg1, hk2⟩ := wantedId_ok (gidLooks c db) hk1 (un _ hg) h2
        split at h
        · injection h with h; injection h with e1 e2; subst e1; subst e2
          exact ⟨hk2, u, g, fs.chownClear m.mode, _, rfl, fun _ => ⟨hu1, hg1⟩⟩
        · rename_i hc
          injection h with h; injection h with e1 e2; subst e1; subst e2
          refine ⟨hk2, m.uid, m.gid, 0#64, m.xattrs, by rw [z], fun _ => ⟨?_, ?_⟩⟩
          · by_cases q : m.uid = u
            · rw [q]; exact hu1
            · exact absurd (.inl q) hc
          · by_cases q : m.gid = g
            · rw [q]; exact hg1
            · exact absurd (.inr q) hc
  · rw [if_neg hi] at h
    injection h with h; injection h with e1 e2; subst e1; subst e2
    exact ⟨hk, m.uid, m.gid, 0#64, m.xattrs, by rw [z], fun q => absurd q hi⟩

theorem chmod_ok {m m' : Meta} {b : Word} (h : chmod m b = .ok m') : m' = { m with mode := (m.mode &&& ~~~(0xfff#64)) ||| (b &&& 0xfff#64) } := by
  unfold chmod at h
  split at h
  · cases h
  · injection h with h; exact h.symm

theorem restoreMode_ok {c : RCfg} {e : Entry} {m m' : Meta} (h : restoreMode c e m = .ok m') :
    ∃ w, m' = { m with mode := w } ∧ w &&& ifmt = m.mode &&& ifmt ∧
      (has c.replay withReadOnly = false → has c.replay (withPermissions ||| withAcl) = true → w &&& 0xfff#64 = e.mode &&& 0xfff#64) := by
  unfold restoreMode at h
  by_cases h1 : has c.replay withReadOnly = true
  · rw [if_pos h1] at h
    split at h
    · exact ⟨_, chmod_ok h, set_bits_other (by decide), fun q => by rw [h1] at q; cases q⟩
    · injection h with h; subst h; exact ⟨m.mode, rfl, rfl, fun q => by rw [h1] at q; cases q⟩
  · rw [if_neg h1] at h
    by_cases h2 : has c.replay (withPermissions ||| withAcl) = true
    · rw [if_pos h2] at h
      split at h
      · refine ⟨_, chmod_ok h, set_bits_other (by decide), fun _ _ => ?_⟩
        rw [set_bits_same, BitVec.and_assoc, BitVec.and_self]
      · rename_i hc
        rw [Decidable.not_not] at hc
        injection h with h; subst h; exact ⟨m.mode, rfl, rfl, fun _ _ => hc⟩
    · rw [if_neg h2] at h
      injection h with h; subst h; exact ⟨m.mode, rfl, rfl, fun _ q => absurd q h2⟩

/-- No mode is set through a symbolic link: links are rwxrwxrwx in archives and in file systems. -/
theorem restoreMode_link {c : RCfg} {e : Entry} {m : Meta} (hx : m.mode &&& 0xfff#64 = 0x1ff#64)
    (hd : isType m.mode ifDir = false) (he : e.mode &&& 0xfff#64 = 0x1ff#64) :
    restoreMode c e m = .ok m := by
  have bits : ∀ (w b : Word), w &&& 0xfff#64 = 0x1ff#64 → b &&& 0x1ff#64 = b → has w b = has b b := by
    intro w b h1 h2
    unfold has
    have : w &&& b = b := by
      calc w &&& b = w &&& (b &&& 0x1ff#64) := by rw [h2]
        _ = w &&& (0xfff#64 &&& 0x1ff#64 &&& b) := by rw [BitVec.and_comm b]; rfl
        _ = (w &&& 0xfff#64) &&& (0x1ff#64 &&& b) := by rw [BitVec.and_assoc, BitVec.and_assoc]
        _ = 0x1ff#64 &&& (0x1ff#64 &&& b) := by rw [h1]
        _ = b := by rw [← BitVec.and_assoc, BitVec.and_self, BitVec.and_comm, h2]
    rw [this, BitVec.and_self]
  have b1 : has m.mode 0x100#64 = true := (bits _ _ hx (by decide)).trans (by decide)
  have b2 : has m.mode 0x80#64 = true := (bits _ _ hx (by decide)).trans (by decide)
  have b3 : has e.mode 0x92#64 = true := (bits _ _ he (by decide)).trans (by decide)
  unfold restoreMode
  rw [b1, b2, b3, hd, hx, he]
  simp


/-- What setting the ACLs does, if the archive has the ACLs of `m0`. -/
theorem setAcl_mode {m : Meta} {e : Entry} {mask : Option Nat} {g : Nat} {us gs : List (Nat × Nat)} (hg : mask.getD g = modePerm e.mode 3) :
    (setAcl m (modePerm e.mode 6) g (modePerm e.mode 0) mask us gs).mode = (m.mode &&& ~~~(0x1ff#64)) ||| (e.mode &&& 0x1ff#64) := by
  unfold setAcl
  simp only
  rw [hg, permBits_mode]

/-- The records hold the metadata of `m0`: everything that is used of what the encoder has stored. -/
structure Stores (rc : RCfg) (db : Names) (e : Entry) (a : Attrs) (m0 : Meta) : Prop where
  type : e.mode &&& ifmt = m0.mode &&& ifmt
  perm : has rc.replay (withPermissions ||| withAcl) = true → isType m0.mode ifLnk = false → e.mode &&& 0xfff#64 = m0.mode &&& 0xfff#64
  link : isType m0.mode ifLnk = true → e.mode &&& 0xfff#64 = 0x1ff#64
  userName : ∀ n, a.user = some n → NameOK n
  groupName : ∀ n, a.group = some n → NameOK n
  uid : has rc.replay (withIds ||| withUserNames) = true → idVal rc db.uid (usedName rc a.user) e.uid = m0.uid
  gid : has rc.replay (withIds ||| withUserNames) = true → idVal rc db.gid (usedName rc a.group) e.gid = m0.gid
  aclNames : (∀ x ∈ a.aclUser, ∀ n, x.name = some n → NameOK n) ∧ (∀ x ∈ a.aclGroup, ∀ n, x.name = some n → NameOK n)
  defNames : (∀ x ∈ a.defUser, ∀ n, x.name = some n → NameOK n) ∧ (∀ x ∈ a.defGroup, ∀ n, x.name = some n → NameOK n)
  noAcl : isType m0.mode ifLnk = true → haveAcl a = false
  acl : has rc.replay withAcl = true → isType m0.mode ifLnk = false →
    (m0.ext = none ∧ a.aclUser = [] ∧ a.aclGroup = [] ∧ a.groupObj = none) ∨
    ∃ x, m0.ext = some x ∧ x.users.Perm (a.aclUser.map (fun y => (idVal rc db.uid y.name y.id, y.perm))) ∧
      x.groups.Perm (a.aclGroup.map (fun y => (idVal rc db.gid y.name y.id, y.perm))) ∧ a.groupObj = some x.groupObj
  dfl : has rc.replay withAcl = true → isType m0.mode ifDir = true →
    (m0.dfl = none ∧ a.aclDefault = none) ∨
    ∃ x, m0.dfl = some x ∧ x.users.Perm (a.defUser.map (fun y => (idVal rc db.uid y.name y.id, y.perm))) ∧
      x.groups.Perm (a.defGroup.map (fun y => (idVal rc db.gid y.name y.id, y.perm))) ∧
      a.aclDefault = some { user := x.user, group := x.group, other := x.other, mask := x.mask.getD u64max } ∧
      x.user < 8 ∧ x.group < 8 ∧ x.other < 8 ∧ (∀ p, x.mask = some p → p < 8)
  xattrs : has rc.replay withXattrs = true → isType m0.mode ifDir = true ∨ isType m0.mode ifReg = true →
    (∀ x ∈ a.xattrs, xattrStore x.1 = true) ∧ (a.xattrs.map (·.1)).Nodup ∧
    ∀ n, xattrStore n = true → (a.xattrs.find? (fun x => x.1 == n)).map (·.2) = xattrValue m0 n
  fcaps : has rc.replay withFcaps = true → isType m0.mode ifReg = true → a.fcaps = xattrValue m0 capName
  selinux : has rc.replay withSelinux = true → a.selinux = m0.selinux
  time : ∀ g, granularity rc.replay = .ok g → e.mtime / g = timespecToNsec m0.sec m0.nsec / g
  chattr : isType m0.mode ifDir = true ∨ isType m0.mode ifReg = true →
    toMap chattrMap e.flags &&& toMap chattrMap rc.replay = m0.chattr &&& toMap chattrMap rc.replay
  fat : isType m0.mode ifDir = true ∨ isType m0.mode ifReg = true →
    toMap fatMap e.flags &&& toMap fatMap rc.replay = m0.fat &&& toMap fatMap rc.replay
  subvol : has rc.replay withSubvolume = true → isType m0.mode ifDir = true → has e.flags withSubvolume = m0.subvol
  subvolRo : has rc.replay withSubvolume = true → has rc.replay withSubvolumeRo = true → isType m0.mode ifDir = true → has e.flags withSubvolumeRo = m0.subvolRo
  /-- flags that exclude each other -/
  aclExcl : has rc.replay (withPermissions ||| withAcl) = true → has rc.replay withReadOnly = false

theorem sameExt_nil {c : RCfg} {look : Bytes → Option Nat} {l : List AclEnt} (h : l = []) : l.map (fun y => (idVal c look y.name y.id, y.perm)) = [] := by rw [h]; rfl

theorem haveAcl_obj {a : Attrs} {g : Nat} (h : a.groupObj = some g) : haveAcl a = true := by unfold haveAcl; rw [h]; simp
theorem haveAcl_dfl {a : Attrs} {g : AclDef} (h : a.aclDefault = some g) : haveAcl a = true := by unfold haveAcl; rw [h]; simp

theorem restoreAccess_ok {c : RCfg} {db : Names} {fs : Fs} {k k' : RCache} {e : Entry} {a : Attrs} {m m' m0 : Meta} (hk : RCacheOK db k)
    (hs : Stores c db e a m0) (ht : m.mode &&& ifmt = m0.mode &&& ifmt) (hacl : has c.replay withAcl = true) (hf : fs.acl = false → m.ext = none)
    (h : restoreAccess c db fs k e a m = .ok (m', k')) :
    RCacheOK db k' ∧ ∃ w x, m' = { m with mode := w, ext := x } ∧ w &&& ifmt = m.mode &&& ifmt ∧
      (m.mode &&& 0xfff#64 = e.mode &&& 0xfff#64 → w &&& 0xfff#64 = e.mode &&& 0xfff#64) ∧
      (isType m0.mode ifLnk = false → SameExt m0.ext x) := by
  unfold restoreAccess at h
  cases h1 : aclIds c (nameToUid c db) k a.aclUser with
  | err e => rw [h1] at h; cases h
  | ub => rw [h1] at h; cases h
  | ok p =>
  obtain ⟨us, k1⟩ := p
  rw [h1] at h
  simp only at h
  obtain ⟨eu, hk1⟩ := aclIds_ok (uidLooks c db) hs.aclNames.1 hk h1
  cases h2 : aclIds c (nameToGid c db) k1 a.aclGroup with
  | err e => rw [h2] at h; cases h
  | ub => rw [h2] at h; cases h
  | ok p =>
  obtain ⟨gs, k2⟩ := p
  rw [h2] at h
  simp only at h
  obtain ⟨eg, hk2⟩ := aclIds_ok (gidLooks c db) hs.aclNames.2 hk1 h2
  have hl : isType m.mode ifLnk = isType m0.mode ifLnk := by unfold isType; rw [ht]
  by_cases h3 : (!fs.acl || isType m.mode ifLnk) = true
  · rw [if_pos h3] at h
    by_cases h4 : haveAcl a = true
    · rw [if_pos h4] at h; cases h
    rw [if_neg h4] at h
    injection h with h; injection h with e1 e2; subst e1; subst e2
    refine ⟨hk2, m.mode, m.ext, rfl, rfl, fun q => q, fun hlnk => ?_⟩
    rw [hl, hlnk] at h3
    rw [hf (by simpa using h3)]
    rcases hs.acl hacl hlnk with ⟨q, _⟩ | ⟨x, _, _, _, q⟩
    · rw [q]; exact .none
    · exact absurd (haveAcl_obj q) h4
  · rw [if_neg h3] at h
    by_cases h4 : (!aclValid a.groupObj.isSome us gs) = true
    · rw [if_pos h4] at h; cases h
    rw [if_neg h4] at h
    have mk : ∀ g mask, mask.getD g = modePerm e.mode 3 → ∃ w, setAcl m (modePerm e.mode 6) g (modePerm e.mode 0) mask us gs =
        { m with mode := w, ext := (match mask with | none => none | some _ => some { users := us, groups := gs, groupObj := g }) } ∧
        w &&& ifmt = m.mode &&& ifmt ∧ (m.mode &&& 0xfff#64 = e.mode &&& 0xfff#64 → w &&& 0xfff#64 = e.mode &&& 0xfff#64) := by
      intro g mask hg
      refine ⟨(m.mode &&& ~~~(0x1ff#64)) ||| (e.mode &&& 0x1ff#64), ?_, set_bits_other (by decide), set_bits_sub⟩
      have := setAcl_mode (m := m) (e := e) (us := us) (gs := gs) hg
      unfold setAcl at this ⊢
      simp only at this
      rw [this]
      cases mask <;> rfl
    cases hg : a.groupObj with
    | some g =>
      rw [hg] at h
      simp only at h
      injection h with h; injection h with e1 e2; subst e2
      obtain ⟨w, q1, q2, q3⟩ := mk g (some (modePerm e.mode 3)) rfl
      refine ⟨hk2, w, _, e1.symm.trans q1, q2, q3, fun hlnk => ?_⟩
      rcases hs.acl hacl hlnk with ⟨_, _, _, q⟩ | ⟨x, p1, p2, p3, p4⟩
      · rw [hg] at q; cases q
      · rw [p1]
        rw [hg] at p4; injection p4 with p4
        exact .some (by rw [eu]; exact p2) (by rw [eg]; exact p3) p4.symm
    | none =>
      rw [hg] at h
      simp only at h
      injection h with h; injection h with e1 e2; subst e2
      obtain ⟨w, q1, q2, q3⟩ := mk (modePerm e.mode 3) none rfl
      refine ⟨hk2, w, _, e1.symm.trans q1, q2, q3, fun hlnk => ?_⟩
      rcases hs.acl hacl hlnk with ⟨q, _, _, _⟩ | ⟨x, p1, p2, p3, p4⟩
      · rw [q]; exact .none
      · rw [hg] at p4; cases p4

theorem restoreDefault_ok {c : RCfg} {db : Names} {fs : Fs} {k k' : RCache} {e : Entry} {a : Attrs} {m m' m0 : Meta} (hk : RCacheOK db k)
    (hs : Stores c db e a m0) (hd : isType m0.mode ifDir = true) (hacl : has c.replay withAcl = true) (hf : fs.acl = false → m.dfl = none)
    (h : restoreDefault c db fs k a m = .ok (m', k')) : RCacheOK db k' ∧ ∃ x, m' = { m with dfl := x } ∧ SameDfl m0.dfl x := by
  unfold restoreDefault at h
  rcases hs.dfl hacl hd with ⟨q1, q2⟩ | ⟨x, p1, p2, p3, p4, b1, b2, b3, b4⟩
  · rw [q2] at h
    simp only at h
    rw [q1]
    cases ha : fs.acl with
    | false =>
      rw [ha] at h
      simp only [Bool.not_false, if_true] at h
      split at h
      · cases h
      · injection h with h; injection h with e1 e2; subst e1; subst e2
        exact ⟨hk, m.dfl, rfl, by rw [hf ha]; exact .none⟩
    | true =>
      rw [ha] at h
      simp only [Bool.not_true, Bool.false_eq_true, if_false] at h
      injection h with h; injection h with e1 e2; subst e1; subst e2
      exact ⟨hk, none, rfl, .none⟩
  · rw [p4] at h
    simp only at h
    cases h1 : aclIds c (nameToUid c db) k a.defUser with
    | err e => rw [h1] at h; cases h
    | ub => rw [h1] at h; cases h
    | ok p =>
    obtain ⟨us, k1⟩ := p
    rw [h1] at h
    simp only at h
    obtain ⟨eu, hk1⟩ := aclIds_ok (uidLooks c db) hs.defNames.1 hk h1
    cases h2 : aclIds c (nameToGid c db) k1 a.defGroup with
    | err e => rw [h2] at h; cases h
    | ub => rw [h2] at h; cases h
    | ok p =>
    obtain ⟨gs, k2⟩ := p
    rw [h2] at h
    simp only at h
    obtain ⟨eg, hk2⟩ := aclIds_ok (gidLooks c db) hs.defNames.2 hk1 h2
    split at h
    · cases h
    split at h
    · cases h
    injection h with h; injection h with e1 e2; subst e1; subst e2
    refine ⟨hk2, _, rfl, ?_⟩
    rw [p1]
    refine .some (by rw [eu]; exact p2) (by rw [eg]; exact p3) (Nat.mod_eq_of_lt b1).symm (Nat.mod_eq_of_lt b2).symm (Nat.mod_eq_of_lt b3).symm ?_
    cases hm : x.mask with
    | none => simp
    | some p =>
      have hp := b4 p hm
      have hmax : u64max = 18446744073709551615 := by decide
      simp only [Option.getD_some]
      rw [if_neg (by omega), Nat.mod_eq_of_lt hp]

theorem restoreAcl_ok {c : RCfg} {db : Names} {fs : Fs} {k k' : RCache} {e : Entry} {a : Attrs} {m m' m0 : Meta} (hk : RCacheOK db k)
    (hs : Stores c db e a m0) (ht : m.mode &&& ifmt = m0.mode &&& ifmt) (hf : fs.acl = false → m.ext = none ∧ m.dfl = none)
    (h : restoreAcl c db fs k e a m = .ok (m', k')) :
    ∃ w x d, m' = { m with mode := w, ext := x, dfl := d } ∧ w &&& ifmt = m.mode &&& ifmt ∧
      (m.mode &&& 0xfff#64 = e.mode &&& 0xfff#64 → w &&& 0xfff#64 = e.mode &&& 0xfff#64) ∧
      (has c.replay withAcl = true → isType m0.mode ifLnk = false → SameExt m0.ext x) ∧
      (has c.replay withAcl = true → isType m0.mode ifDir = true → SameDfl m0.dfl d) := by
  unfold restoreAcl at h
  by_cases hacl : has c.replay withAcl = true
  · rw [if_neg (by simpa using hacl)] at h
    cases h1 : restoreAccess c db fs k e a m with
    | err e => rw [h1] at h; cases h
    | ub => rw [h1] at h; cases h
    | ok p =>
    obtain ⟨m1, k1⟩ := p
    rw [h1] at h
    simp only at h
    obtain ⟨hk1, w, x, e1, t1, q1, q2⟩ := restoreAccess_ok hk hs ht hacl (fun q => (hf q).1) h1
    have hd : isType m1.mode ifDir = isType m0.mode ifDir := by rw [e1]; unfold isType; simp only; rw [t1, ht]
    by_cases h2 : isType m1.mode ifDir = true
    · rw [if_pos h2] at h
      obtain ⟨_, d, e2, s2⟩ := restoreDefault_ok hk1 hs (hd ▸ h2) hacl (fun q => by rw [e1]; exact (hf q).2) h
      exact ⟨w, x, d, by rw [e2, e1], t1, q1, fun _ => q2, fun _ _ => s2⟩
    · rw [if_neg h2] at h
      injection h with h; injection h with g1 g2; subst g1
      exact ⟨w, x, m.dfl, e1, t1, q1, fun _ => q2, fun _ q => absurd (hd ▸ q) h2⟩
  · rw [if_pos (by simpa using hacl)] at h
    injection h with h; injection h with g1 g2; subst g1
    exact ⟨m.mode, m.ext, m.dfl, rfl, rfl, fun q => q, fun q => absurd q hacl, fun q => absurd q hacl⟩

/-! ### Attributes -/

/-- The value of an attribute in a list. -/
def xval (l : List (Bytes × Bytes)) (n : Bytes) : Option Bytes := (l.find? (fun x => x.1 == n)).map (·.2)

theorem xval_filter {l : List (Bytes × Bytes)} {p : Bytes × Bytes → Bool} {n : Bytes} (h : ∀ x, x.1 = n → p x = true) :
    xval (l.filter p) n = xval l n := by
  induction l with
  | nil => rfl
  | cons x l ih =>
    unfold xval at ih ⊢
    by_cases e : x.1 = n
    · rw [List.filter_cons, if_pos (h x e), List.find?_cons, List.find?_cons]
      simp [e]
    · rw [List.filter_cons]
      split
      · rw [List.find?_cons, List.find?_cons]
        simp only [beq_eq_false_iff_ne.2 e]
        exact ih
      · rw [List.find?_cons (a := x)]
        simp only [beq_eq_false_iff_ne.2 e]
        exact ih

theorem xval_removed {l : List (Bytes × Bytes)} {p : Bytes × Bytes → Bool} {n : Bytes} (h : ∀ x, x.1 = n → p x = false) :
    xval (l.filter p) n = none := by
  unfold xval
  rw [Option.map_eq_none_iff, List.find?_eq_none]
  intro x hx hq
  rw [List.mem_filter] at hx
  have := h x (by simpa using hq)
  rw [this] at hx
  exact absurd hx.2 (by simp)

theorem xval_append {l r : List (Bytes × Bytes)} {n : Bytes} : xval (l ++ r) n = (xval l n).or (xval r n) := by
  unfold xval
  rw [List.find?_append]
  cases l.find? (fun x => x.1 == n) <;> simp

theorem xval_set {l : List (Bytes × Bytes)} {x : Bytes × Bytes} {n : Bytes} : xval (setXattr l x) n = if x.1 = n then some x.2 else xval l n := by
  unfold setXattr
  rw [xval_append]
  by_cases e : x.1 = n
  · rw [if_pos e, xval_removed (by intro y hy; simp [hy, e])]
    unfold xval
    simp [e]
  · rw [if_neg e, xval_filter (by intro y hy; rw [hy]; simpa using fun q => e q.symm)]
    have : xval [x] n = none := by unfold xval; simp [e]
    rw [this]
    cases xval l n <;> rfl

theorem xval_foldl {new : List (Bytes × Bytes)} (hn : (new.map (·.1)).Nodup) (l : List (Bytes × Bytes)) (n : Bytes) :
    xval (new.foldl setXattr l) n = (xval new n).or (xval l n) := by
  induction new generalizing l with
  | nil => unfold xval; simp
  | cons x r ih =>
    rw [List.map_cons, List.nodup_cons] at hn
    rw [List.foldl_cons, ih hn.2, xval_set]
    have hx : xval (x :: r) n = if x.1 = n then some x.2 else xval r n := by
      unfold xval
      rw [List.find?_cons]
      by_cases e : x.1 = n
      · simp [e]
      · rw [if_neg e, beq_eq_false_iff_ne.2 e]
    rw [hx]
    by_cases e : x.1 = n
    · rw [if_pos e, if_pos e]
      have : xval r n = none := by
        unfold xval
        rw [Option.map_eq_none_iff, List.find?_eq_none]
        intro y hy hq
        exact hn.1 (e ▸ (by simpa using hq : y.1 = n) ▸ List.mem_map_of_mem hy)
      rw [this]; rfl
    · rw [if_neg e, if_neg e]

theorem capName_notStored : xattrStore capName = false := by decide

theorem restoreXattrs_ok {c : RCfg} {db : Names} {fs : Fs} {e : Entry} {a : Attrs} {m m' m0 : Meta} (hs : Stores c db e a m0)
    (ht : m.mode &&& ifmt = m0.mode &&& ifmt) (h : restoreXattrs c fs a m = .ok m') :
    ∃ l, m' = { m with xattrs := l } ∧ (has c.replay withXattrs = true → isType m0.mode ifDir = true ∨ isType m0.mode ifReg = true →
      ∀ n, xattrStore n = true → xval l n = xattrValue m0 n) := by
  unfold restoreXattrs at h
  have hd : ∀ t, isType m.mode t = isType m0.mode t := by intro t; unfold isType; rw [ht]
  by_cases h1 : (has c.replay withXattrs && !isType m.mode ifLnk && hasFd m) = true
  · rw [if_neg (by rw [h1]; simp)] at h
    split at h
    · cases h
    injection h with h
    refine ⟨_, h.symm, fun hx ho n hn => ?_⟩
    obtain ⟨s1, s2, s3⟩ := hs.xattrs hx ho
    rw [xval_foldl s2]
    have := s3 n hn
    unfold xval at *
    cases hv : a.xattrs.find? (fun x => x.1 == n) with
    | some y => rw [hv] at this; rw [← this]; rfl
    | none =>
      rw [hv] at this
      rw [← this]
      refine (xval_removed (l := m.xattrs) ?_ : _)
      intro x hx
      rw [hx, hn]
      simp only [Bool.not_true, Bool.false_or, List.any_eq_false]
      intro y hy q
      have := List.find?_eq_none.1 hv y hy
      exact this q
  · rw [if_pos (by rw [Bool.not_eq_true] at h1; rw [h1]; rfl)] at h
    injection h with h; subst h
    refine ⟨m.xattrs, rfl, fun hx ho => absurd ?_ h1⟩
    unfold hasFd
    rw [hd, hd, hd, hx]
    have hl : isType m0.mode ifLnk = false := by
      rcases ho with q | q
      · exact isType_excl q (by decide)
      · exact isType_excl q (by decide)
    rw [hl]
    rcases ho with q | q <;> simp [q]

theorem restoreFcaps_ok {c : RCfg} {db : Names} {fs : Fs} {e : Entry} {a : Attrs} {m m' m0 : Meta} (hs : Stores c db e a m0)
    (ht : m.mode &&& ifmt = m0.mode &&& ifmt) (h : restoreFcaps c fs a m = .ok m') :
    ∃ l, m' = { m with xattrs := l } ∧ (∀ n, xattrStore n = true → xval l n = xval m.xattrs n) ∧
      (has c.replay withFcaps = true → isType m0.mode ifReg = true → xval l capName = xattrValue m0 capName) := by
  unfold restoreFcaps at h
  have hd : ∀ t, isType m.mode t = isType m0.mode t := by intro t; unfold isType; rw [ht]
  have ne : ∀ n, xattrStore n = true → n ≠ capName := by intro n hn e; subst e; rw [capName_notStored] at hn; cases hn
  by_cases h1 : (has c.replay withFcaps && isType m.mode ifReg && hasFd m) = true
  · rw [if_neg (by rw [h1]; simp)] at h
    cases hf : a.fcaps with
    | some v =>
      rw [hf] at h
      simp only at h
      split at h
      · cases h
      injection h with h
      refine ⟨_, h.symm, fun n hn => ?_, fun q1 q2 => ?_⟩
      · rw [xval_set, if_neg (fun q => ne n hn q.symm)]
      · rw [xval_set, if_pos rfl, ← hs.fcaps q1 q2, hf]
    | none =>
      rw [hf] at h
      simp only at h
      injection h with h
      refine ⟨_, h.symm, fun n hn => xval_filter ?_, fun q1 q2 => ?_⟩
      · intro x hx; rw [hx]; simpa using ne n hn
      · rw [xval_removed (by intro x hx; rw [hx]; simp), ← hs.fcaps q1 q2, hf]
  · rw [if_pos (by rw [Bool.not_eq_true] at h1; rw [h1]; rfl)] at h
    injection h with h; subst h
    refine ⟨m.xattrs, rfl, fun _ _ => rfl, fun q1 q2 => absurd ?_ h1⟩
    unfold hasFd
    rw [hd, hd, q1, q2]
    simp

theorem restoreSelinux_ok {c : RCfg} {db : Names} {fs : Fs} {e : Entry} {a : Attrs} {m m' m0 : Meta} (hs : Stores c db e a m0)
    (hf : fs.selinux = false → m.selinux = none) (h : restoreSelinux c fs a m = .ok m') :
    ∃ l, m' = { m with selinux := l } ∧ (has c.replay withSelinux = true → l = m0.selinux) := by
  unfold restoreSelinux at h
  by_cases h1 : has c.replay withSelinux = true
  · rw [if_neg (by simpa using h1)] at h
    cases h2 : fs.selinux with
    | false =>
      rw [h2] at h
      simp only [Bool.not_false, if_true] at h
      split at h
      · cases h
      · rename_i hn
        injection h with h; subst h
        refine ⟨m.selinux, rfl, fun q => ?_⟩
        rw [hf h2, ← hs.selinux q]
        cases ha : a.selinux with
        | none => rfl
        | some v => rw [ha] at hn; exact absurd rfl hn
    | true =>
      rw [h2] at h
      simp only [Bool.not_true, Bool.false_eq_true, if_false] at h
      injection h with h; subst h
      exact ⟨a.selinux, rfl, hs.selinux⟩
  · rw [if_pos (by simpa using h1)] at h
    injection h with h; subst h
    exact ⟨m.selinux, rfl, fun q => absurd q h1⟩

theorem restoreTime_ok (c : RCfg) (fs : Fs) (e : Entry) (m : Meta) : ∃ s n, restoreTime c fs e m = { m with sec := s, nsec := n } := by
  unfold restoreTime
  split
  · exact ⟨_, _, rfl⟩
  · exact ⟨m.sec, m.nsec, rfl⟩

theorem maskAttr_ok {s : Bool} {old v mask w : Word} (hf : s = false → old = 0#64) (h : maskAttr s old v mask = .ok w) : w &&& mask = v &&& mask := by
  unfold maskAttr at h
  by_cases h1 : mask = 0#64
  · subst h1; simp
  rw [if_neg h1] at h
  simp only at h
  have hb : ((old &&& ~~~mask) ||| (v &&& mask)) &&& mask = v &&& mask := set_bits_same
  by_cases h2 : (old &&& ~~~mask) ||| (v &&& mask) = old
  · rw [if_pos h2] at h
    injection h with h; subst h
    rw [← hb, h2]
  rw [if_neg h2] at h
  cases s with
  | true => simp only [if_true] at h; injection h with h; subst h; exact hb
  | false =>
    simp only [Bool.false_eq_true, if_false] at h
    split at h
    · rename_i h3
      injection h with h; subst h
      rw [← hb, h3, hf rfl]
    · cases h

theorem restoreChattr_ok {c : RCfg} {db : Names} {fs : Fs} {e : Entry} {a : Attrs} {m m' m0 : Meta} (hs : Stores c db e a m0)
    (ht : m.mode &&& ifmt = m0.mode &&& ifmt) (hf : fs.chattr = false → m.chattr = 0#64) (h : restoreChattr c fs e m = .ok m') :
    ∃ w, m' = { m with chattr := w } ∧ (has c.replay withChattr = true → isType m0.mode ifDir = true ∨ isType m0.mode ifReg = true →
      w &&& toMap chattrMap c.replay = m0.chattr &&& toMap chattrMap c.replay) := by
  unfold restoreChattr at h
  have hd : ∀ t, isType m.mode t = isType m0.mode t := by intro t; unfold isType; rw [ht]
  by_cases h1 : (has c.replay withChattr && hasFd m) = true
  · rw [if_pos h1] at h
    cases h2 : maskAttr fs.chattr m.chattr (toMap chattrMap e.flags) (toMap chattrMap c.replay) with
    | err e => rw [h2] at h; cases h
    | ub => rw [h2] at h; cases h
    | ok w =>
      rw [h2] at h
      simp only at h
      injection h with h; subst h
      exact ⟨w, rfl, fun _ ho => (maskAttr_ok hf h2).trans (hs.chattr ho)⟩
  · rw [if_neg h1] at h
    injection h with h; subst h
    refine ⟨m.chattr, rfl, fun q ho => absurd ?_ h1⟩
    unfold hasFd
    rw [hd, hd, q]
    rcases ho with q | q <;> simp [q]

theorem restoreFat_ok {c : RCfg} {db : Names} {fs : Fs} {e : Entry} {a : Attrs} {m m' m0 : Meta} (hs : Stores c db e a m0)
    (ht : m.mode &&& ifmt = m0.mode &&& ifmt) (hf : fs.fat = false → m.fat = 0#64) (h : restoreFat c fs e m = .ok m') :
    ∃ w, m' = { m with fat := w } ∧ (has c.replay withFatAttrs = true → isType m0.mode ifDir = true ∨ isType m0.mode ifReg = true →
      w &&& toMap fatMap c.replay = m0.fat &&& toMap fatMap c.replay) := by
  unfold restoreFat at h
  have hd : ∀ t, isType m.mode t = isType m0.mode t := by intro t; unfold isType; rw [ht]
  by_cases h1 : (has c.replay withFatAttrs && hasFd m) = true
  · rw [if_pos h1] at h
    by_cases h3 : fs.fat = true
    · rw [if_pos h3] at h
      cases h2 : maskAttr true m.fat (toMap fatMap e.flags) (toMap fatMap c.replay) with
      | err e => rw [h2] at h; cases h
      | ub => rw [h2] at h; cases h
      | ok w =>
        rw [h2] at h
        simp only at h
        injection h with h; subst h
        exact ⟨w, rfl, fun _ ho => (maskAttr_ok (fun q => by cases q) h2).trans (hs.fat ho)⟩
    · rw [if_neg h3] at h
      by_cases h4 : toMap fatMap e.flags &&& toMap fatMap c.replay ≠ 0#64
      · rw [if_pos h4] at h; cases h
      rw [if_neg h4] at h
      rw [Decidable.not_not] at h4
      injection h with h; subst h
      refine ⟨m.fat, rfl, fun _ ho => ?_⟩
      rw [hf (by simpa using h3), ← hs.fat ho, h4]
      simp
  · rw [if_neg h1] at h
    injection h with h; subst h
    refine ⟨m.fat, rfl, fun q ho => absurd ?_ h1⟩
    unfold hasFd
    rw [hd, hd, q]
    rcases ho with q | q <;> simp [q]

theorem restoreSubvol_ok {c : RCfg} {db : Names} {e : Entry} {a : Attrs} {m m' m0 : Meta} (hs : Stores c db e a m0)
    (ht : m.mode &&& ifmt = m0.mode &&& ifmt) (h : restoreSubvol c e m = .ok m') :
    ∃ r, m' = { m with subvolRo := r } ∧ (has c.replay withSubvolume = true → isType m0.mode ifDir = true → m.subvol = m0.subvol) ∧
      (has c.replay withSubvolume = true → has c.replay withSubvolumeRo = true → isType m0.mode ifDir = true → m0.subvol = true → r = m0.subvolRo) := by
  unfold restoreSubvol at h
  have hd : ∀ t, isType m.mode t = isType m0.mode t := by intro t; unfold isType; rw [ht]
  by_cases h1 : has c.replay withSubvolume = true
  · rw [if_pos h1] at h
    by_cases h2 : (has e.flags withSubvolume != m.subvol) = true
    · rw [if_pos h2] at h; cases h
    rw [if_neg h2] at h
    have hq : has e.flags withSubvolume = m.subvol := by simpa using h2
    by_cases h3 : (has c.replay withSubvolumeRo && m.subvol && hasFd m) = true
    · rw [if_pos h3] at h
      injection h with h; subst h
      exact ⟨_, rfl, fun _ q => by rw [← hq]; exact hs.subvol h1 q, fun _ q1 q2 _ => hs.subvolRo h1 q1 q2⟩
    · rw [if_neg h3] at h
      injection h with h; subst h
      refine ⟨m.subvolRo, rfl, fun _ q => by rw [← hq]; exact hs.subvol h1 q, fun _ q1 q2 q3 => absurd ?_ h3⟩
      unfold hasFd
      rw [hd, q1, q2, ← hq, hs.subvol h1 q2, q3]
      rfl
  · rw [if_neg h1] at h
    injection h with h; subst h
    exact ⟨m.subvolRo, rfl, fun q => absurd q h1, fun q => absurd q h1⟩

theorem granularity_times {f : Word} {g : Nat} (h : granularity f = .ok g) : has f withTimes = true := by
  unfold granularity at h
  split at h
  · cases h
  rw [show withTimes = withSecTime ||| withUsecTime ||| withNsecTime ||| with2SecTime from rfl, has_or, has_or, has_or]
  split at h
  · rename_i q; rw [q]; simp
  split at h
  · rename_i q; rw [q]; simp
  split at h
  · rename_i q; rw [q]; simp
  split at h
  · rename_i q; rw [q]; simp
  · cases h

theorem checkTime_ok {c : RCfg} {e : Entry} {m m' : Meta} (h : checkTime c e m = .ok m') :
    m' = m ∧ ∀ g, granularity c.replay = .ok g → timespecToNsec m.sec m.nsec / g = e.mtime / g := by
  unfold checkTime at h
  by_cases h1 : has c.replay withTimes = true
  · rw [if_pos h1] at h
    cases hg : granularity c.replay with
    | err e => rw [hg] at h; cases h
    | ub => rw [hg] at h; cases h
    | ok g =>
      rw [hg] at h
      simp only at h
      split at h
      · rename_i q
        injection h with h
        exact ⟨h.symm, fun g' hg' => by injection hg' with hg'; subst hg'; exact q⟩
      · cases h
  · rw [if_neg h1] at h
    injection h with h
    exact ⟨h.symm, fun g hg => absurd (granularity_times hg) h1⟩

/-! ### All together -/

theorem toMap_none {map : List (Word × Word)} {all w : Word} (h : ∀ x ∈ map, x.1 &&& all = x.1) (hw : has w all = false) : toMap map w = 0#64 := by
  apply bv_ext
  intro i _
  rw [toMap_bits, BitVec.getLsbD_zero, List.any_eq_false]
  intro x hx hq
  rw [Bool.and_eq_true] at hq
  have : has w x.1 = false := by
    unfold has at hw ⊢
    have hz : w &&& all = 0#64 := by simpa using hw
    rw [← h x hx, BitVec.and_comm x.1, ← BitVec.and_assoc, hz]
    simp
  rw [this] at hq
  exact absurd hq.1 (by simp)

/-- What the chain of steps does. -/
theorem finalize_steps {c : RCfg} {db : Names} {fs : Fs} {k k' : RCache} {e : Entry} {a : Attrs} {m m' : Meta}
    (hn : notReplayed c e = false) (h : finalize c db fs k e a m = .ok (m', k')) :
    m.mode &&& ifmt = e.mode &&& ifmt ∧ ∃ m1 k1 m2 m3 k3 m4 m5 m6 m8 m9 m10,
      restoreOwner c db fs k e a m = .ok (m1, k1) ∧ restoreMode c e m1 = .ok m2 ∧ restoreAcl c db fs k1 e a m2 = .ok (m3, k3) ∧
      restoreXattrs c fs a m3 = .ok m4 ∧ restoreFcaps c fs a m4 = .ok m5 ∧ restoreSelinux c fs a m5 = .ok m6 ∧
      restoreChattr c fs e (restoreTime c fs e m6) = .ok m8 ∧ restoreFat c fs e m8 = .ok m9 ∧ restoreSubvol c e m9 = .ok m10 ∧
      checkTime c e m10 = .ok m' := by
  unfold finalize at h
  rw [if_neg (by rw [hn]; simp)] at h
  by_cases ht : (m.mode &&& ifmt) ≠ (e.mode &&& ifmt)
  · rw [if_pos ht] at h; cases h
  rw [if_neg ht] at h
  rw [Decidable.not_not] at ht
  refine ⟨ht, ?_⟩
  obtain ⟨⟨m1, k1⟩, h1, h⟩ := Res.bind_eq_ok.1 h
  obtain ⟨m2, h2, h⟩ := Res.bind_eq_ok.1 h
  obtain ⟨⟨m3, k3⟩, h3, h⟩ := Res.bind_eq_ok.1 h
  obtain ⟨m4, h4, h⟩ := Res.bind_eq_ok.1 h
  obtain ⟨m5, h5, h⟩ := Res.bind_eq_ok.1 h
  obtain ⟨m6, h6, h⟩ := Res.bind_eq_ok.1 h
  obtain ⟨m8, h8, h⟩ := Res.bind_eq_ok.1 h
  obtain ⟨m9, h9, h⟩ := Res.bind_eq_ok.1 h
  obtain ⟨m10, h10, h⟩ := Res.bind_eq_ok.1 h
  obtain ⟨m11, h11, h⟩ := Res.bind_eq_ok.1 h
  rw [Res.pure_eq] at h
  injection h with h
  injection h with e1 e2
  subst e1
  exact ⟨m1, k1, m2, m3, k3, m4, m5, m6, m8, m9, m10, h1, h2, h3, h4, h5, h6, h8, h9, h10, h11⟩

/-- If the records hold the metadata of `m0` and are put on an object without an error, that object has the metadata of `m0`. -/
theorem finalize_same {c : RCfg} {db : Names} {fs : Fs} {k k' : RCache} {e : Entry} {a : Attrs} {m m' m0 : Meta} (hk : RCacheOK db k)
    (hs : Stores c db e a m0) (hfs : FsHas fs m) (hn : notReplayed c e = false) (h : finalize c db fs k e a m = .ok (m', k')) :
    Same c.replay m0 m' ∧ m'.projid = m.projid := by
  obtain ⟨ht, m1, k1, m2, m3, k3, m4, m5, m6, m8, m9, m10, h1, h2, h3, h4, h5, h6, h8, h9, h10, h11⟩ := finalize_steps hn h
  obtain ⟨hk1, u, g, w1, xs, e1, q1⟩ := restoreOwner_ok hk hs.userName hs.groupName h1
  obtain ⟨w2, e2, t2, q2⟩ := restoreMode_ok h2
  have t1 : m1.mode &&& ifmt = m0.mode &&& ifmt := by
    rw [e1]; simp only; rw [keep_bits _ (by decide), ht, hs.type]
  have T2 : m2.mode &&& ifmt = m0.mode &&& ifmt := by rw [e2]; simp only; rw [t2, t1]
  obtain ⟨w3, x3, d3, e3, t3, q3, q3x, q3d⟩ := restoreAcl_ok hk1 hs T2 (fun q => by rw [e2, e1]; exact hfs.acl q) h3
  have T3 : m3.mode &&& ifmt = m0.mode &&& ifmt := by rw [e3]; simp only; rw [t3, T2]
  obtain ⟨l4, e4, q4⟩ := restoreXattrs_ok hs T3 h4
  have T4 : m4.mode &&& ifmt = m0.mode &&& ifmt := by rw [e4]; exact T3
  obtain ⟨l5, e5, q5, q5c⟩ := restoreFcaps_ok hs T4 h5
  obtain ⟨s6, e6, q6⟩ := restoreSelinux_ok hs (fun q => by rw [e5, e4, e3, e2, e1]; exact hfs.selinux q) h6
  obtain ⟨s7, n7, e7⟩ := restoreTime_ok c fs e m6
  rw [e7] at h8
  obtain ⟨w8, e8, q8⟩ := restoreChattr_ok hs (by rw [e6, e5]; exact T4) (fun q => by rw [e6, e5, e4, e3, e2, e1]; exact hfs.chattr q) h8
  obtain ⟨w9, e9, q9⟩ := restoreFat_ok hs (by rw [e8, e6, e5]; exact T4) (fun q => by rw [e8, e6, e5, e4, e3, e2, e1]; exact hfs.fat q) h9
  obtain ⟨r10, e10, q10, q10r⟩ := restoreSubvol_ok hs (by rw [e9, e8, e6, e5]; exact T4) h10
  obtain ⟨e11, q11⟩ := checkTime_ok h11
  have hmode : m'.mode = m3.mode := by rw [e11, e10, e9, e8, e6, e5, e4]
  have M2 : m2.mode = w2 := by rw [e2]
  have M3 : m3.mode = w3 := by rw [e3]
  refine ⟨?_, by rw [e11, e10, e9, e8, e6, e5, e4, e3, e2, e1]⟩
  exact {
    type := by rw [hmode]; exact T3
    owner := fun q => by
      obtain ⟨a1, a2⟩ := q1 q
      have hu : m'.uid = u := by rw [e11, e10, e9, e8, e6, e5, e4, e3, e2, e1]
      have hg : m'.gid = g := by rw [e11, e10, e9, e8, e6, e5, e4, e3, e2, e1]
      rw [hu, hg, a1, a2]
      exact ⟨hs.uid q, hs.gid q⟩
    perm := fun q ql => by
      rw [hmode, M3, ← hs.perm q ql]
      exact q3 (by rw [M2]; exact q2 (hs.aclExcl q) q)
    acl := fun q ql => by
      have : m'.ext = x3 := by rw [e11, e10, e9, e8, e6, e5, e4, e3]
      rw [this]; exact q3x q ql
    defaultAcl := fun q ql => by
      have : m'.dfl = d3 := by rw [e11, e10, e9, e8, e6, e5, e4, e3]
      rw [this]; exact q3d q ql
    xattr := fun q ql n hx => by
      have : m'.xattrs = l5 := by rw [e11, e10, e9, e8, e6, e5]
      have h4' : m4.xattrs = l4 := by rw [e4]
      show xval m'.xattrs n = _
      rw [this, q5 n hx, h4']
      exact q4 q ql n hx
    fcaps := fun q ql => by
      have : m'.xattrs = l5 := by rw [e11, e10, e9, e8, e6, e5]
      show xval m'.xattrs capName = _
      rw [this]; exact q5c q ql
    selinux := fun q => by
      have : m'.selinux = s6 := by rw [e11, e10, e9, e8, e6]
      rw [this]; exact q6 q
    time := fun g hg => by
      rw [e11, q11 g hg]; exact hs.time g hg
    chattr := fun ho => by
      have : m'.chattr = w8 := by rw [e11, e10, e9, e8]
      rw [this]
      by_cases q : has c.replay withChattr = true
      · exact q8 q ho
      · rw [toMap_none (all := withChattr) (by decide) (by simpa using q)]; simp
    fat := fun ho => by
      have : m'.fat = w9 := by rw [e11, e10, e9]
      rw [this]
      by_cases q : has c.replay withFatAttrs = true
      · exact q9 q ho
      · rw [toMap_none (all := withFatAttrs) (by decide) (by simpa using q)]; simp
    subvol := fun q ql => by
      have : m'.subvol = m9.subvol := by rw [e11, e10]
      rw [this]; exact q10 q ql
    subvolRo := fun q qr ql qs => by
      have : m'.subvolRo = r10 := by rw [e11, e10]
      rw [this]; exact q10r q qr ql qs }

end Casync.Meta
