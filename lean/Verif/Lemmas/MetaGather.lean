import Verif.Lemmas.MetaAcl
import Verif.Props.Flags
import Verif.Lemmas.ArchiveHead
/-!
The metadata as a whole.
-/
namespace Casync.Meta
open Casync Flags Archive

/-- What `ca_encoder_set_feature_flags()` leaves: a normalised word and its granularity. -/
structure CfgOK (c : Cfg) : Prop where
  norm : areNormalized c.ff = .ok true
  gran : granularity c.ff = .ok c.gran ∨ (granularity c.ff = .err .ENODATA ∧ c.gran = u64max)

theorem setFeatureFlags_ok {flags : Word} {s r : Nat} {c : Cfg} (h : setFeatureFlags flags s r = .ok c) : CfgOK c ∧ c.shift = s ∧ c.range = r := by
  unfold setFeatureFlags at h
  cases hn : normalize flags with
  | err e => rw [hn] at h; cases h
  | ub => rw [hn] at h; cases h
  | ok ff =>
    rw [hn] at h
    simp only at h
    have hN := C17_result_is_normalized _ _ hn
    split at h
    · rename_i g hg; injection h with h; subst h; exact ⟨⟨hN, .inl hg⟩, rfl, rfl⟩
    · rename_i hg; injection h with h; subst h; exact ⟨⟨hN, .inr ⟨hg, rfl⟩⟩, rfl, rfl⟩
    · cases h
    · cases h

theorem CfgOK.cases {c : Cfg} (h : CfgOK c) :
    (has c.ff withNsecTime = true ∧ c.gran = 1) ∨
    (has c.ff withNsecTime = false ∧ has c.ff withUsecTime = true ∧ c.gran = 1000) ∨
    (has c.ff withNsecTime = false ∧ has c.ff withUsecTime = false ∧ has c.ff withSecTime = true ∧ c.gran = 1000000000) ∨
    (has c.ff withNsecTime = false ∧ has c.ff withUsecTime = false ∧ has c.ff withSecTime = false ∧ has c.ff with2SecTime = true ∧ c.gran = 2000000000) ∨
    (has c.ff withNsecTime = false ∧ has c.ff withUsecTime = false ∧ has c.ff withSecTime = false ∧ has c.ff with2SecTime = false ∧ c.gran = u64max) := by
  rcases h.gran with g | ⟨g, hg⟩
  · rcases ((C17_granularity_iff _ _).1 g).2 with h | h | h | h
    · exact .inl h
    · exact .inr (.inl h)
    · exact .inr (.inr (.inl h))
    · exact .inr (.inr (.inr (.inl h)))
  · unfold granularity at g
    split at g
    · cases g
    split at g
    · cases g
    split at g
    · cases g
    split at g
    · cases g
    split at g
    · cases g
    rename_i a b d e
    exact .inr (.inr (.inr (.inr ⟨by simpa using a, by simpa using b, by simpa using d, by simpa using e, hg⟩)))

theorem fixupMtime_ok {c : Cfg} (hc : CfgOK c) {db : Names} {m : Meta} (hf : Fits c db m) : TimeOK c.ff (fixupMtime c m) := by
  have hmax : u64max = 18446744073709551615 := by decide
  unfold TimeOK fixupMtime
  rcases hc.cases with ⟨h1, g⟩ | ⟨h1, h2, g⟩ | ⟨h1, h2, h3, g⟩ | ⟨h1, h2, h3, h4, g⟩ | ⟨h1, h2, h3, h4, g⟩
  · obtain ⟨t0, t1⟩ := hf.time (by rw [g, hmax]; omega)
    have ht := timespec_nonneg t0 t1
    rw [if_neg (by rw [g, hmax]; omega), if_pos h1, g, hmax]
    generalize timespecToNsec m.sec m.nsec = t at *
    simp; omega
  · obtain ⟨t0, t1⟩ := hf.time (by rw [g, hmax]; omega)
    have ht := timespec_nonneg t0 t1
    have hu := hf.usec h2
    rw [if_neg (by rw [g, hmax]; omega), if_neg (by rw [h1]; simp), if_pos h2, g, hmax]
    generalize timespecToNsec m.sec m.nsec = t at *
    rw [← ht] at hu
    omega
  · obtain ⟨t0, t1⟩ := hf.time (by rw [g, hmax]; omega)
    have ht := timespec_nonneg t0 t1
    rw [if_neg (by rw [g, hmax]; omega), if_neg (by rw [h1]; simp), if_neg (by rw [h2]; simp), if_pos h3, g, hmax]
    generalize timespecToNsec m.sec m.nsec = t at *
    omega
  · obtain ⟨t0, t1⟩ := hf.time (by rw [g, hmax]; omega)
    have ht := timespec_nonneg t0 t1
    rw [if_neg (by rw [g, hmax]; omega), if_neg (by rw [h1]; simp), if_neg (by rw [h2]; simp), if_neg (by rw [h3]; simp), if_pos h4, g, hmax]
    generalize timespecToNsec m.sec m.nsec = t at *
    omega
  · rw [if_pos g, if_neg (by rw [h1]; simp), if_neg (by rw [h2]; simp), if_neg (by rw [h3]; simp), if_neg (by rw [h4]; simp), hmax]
    omega

theorem entryIds_ok {c : Cfg} {m : Meta} (hm : FsOK m) {u g : Nat} (h : entryIds c m = .ok (u, g)) : IdOK c.ff u ∧ IdOK c.ff g := by
  unfold entryIds at h
  by_cases hi : has c.ff withIds = true
  · rw [if_pos hi] at h
    by_cases h1 : ¬ uidValid (shiftUid c m.uid) = true
    · rw [if_pos (by simpa using h1)] at h; cases h
    rw [Decidable.not_not] at h1
    rw [if_neg (by simpa using h1)] at h
    by_cases h2 : ¬ uidValid (shiftUid c m.gid) = true
    · rw [if_pos (by simpa using h2)] at h; cases h
    rw [Decidable.not_not] at h2
    rw [if_neg (by simpa using h2)] at h
    by_cases h3 : (has c.ff with16BitUids && (decide (shiftUid c m.uid > 65535) || decide (shiftUid c m.gid > 65535))) = true
    · rw [if_pos h3] at h; cases h
    rw [if_neg h3] at h
    injection h with h; injection h with ha hb; subst ha; subst hb
    have e1 := idOK_of (shiftUid_lt hm.ids.1) h1 (fun g => by
      rw [g] at h3; simp at h3; omega)
    have e2 := idOK_of (shiftUid_lt hm.ids.2) h2 (fun g => by
      rw [g] at h3; simp at h3; omega)
    rw [if_pos hi] at e1 e2
    exact ⟨e1, e2⟩
  · rw [if_neg hi] at h
    injection h with h; injection h with ha hb; subst ha; subst hb
    have ho : has c.ff withIds = (has c.ff with16BitUids || has c.ff with32BitUids) := has_or _ _ _
    rw [ho, Bool.or_eq_true, not_or] at hi
    unfold IdOK
    rw [if_neg hi.1, if_neg hi.2]
    exact ⟨rfl, rfl⟩

theorem xattrName_split {n : Bytes} (h : xattrNameValid n = true) :
    ∃ ns rest, n = ns ++ 46 :: rest ∧ ns ≠ [] ∧ (46 : UInt8) ∉ ns ∧ rest ≠ [] ∧ n.length ≤ 255 := by
  unfold xattrNameValid at h
  split at h
  · cases h
  have hsplit := (List.takeWhile_append_dropWhile (p := (· != (46 : UInt8))) (l := n)).symm
  split at h
  · cases h
  rename_i c rest hd
  split at h
  · cases h
  split at h
  · cases h
  rename_i h1 h2 h3
  have hc : c = 46 := by
    have hh := List.head?_dropWhile_not (· != (46 : UInt8)) n
    rw [hd] at hh
    simpa using hh
  subst hc
  rw [hd] at hsplit
  refine ⟨_, rest, hsplit, ?_, ?_, by simpa using h3, by simpa using h⟩
  · intro e
    rw [e, List.nil_append] at hsplit
    rw [hsplit] at h2
    simp at h2
  · intro hm
    have h46 : ∀ l : Bytes, (46 : UInt8) ∉ l.takeWhile (· != 46) := by
      intro l
      induction l with
      | nil => simp
      | cons c l ih => 
        rw [List.takeWhile_cons]
        split
        · rename_i hc
          intro hm
          rcases List.mem_cons.mp hm with e | e
          · rw [← e] at hc; simp at hc
          · exact ih e
        · simp
    exact h46 _ hm

theorem readXattrs_ok {c : Cfg} {m : Meta} (hm : FsOK m) :
    (readXattrs c m ≠ [] → has c.ff withXattrs = true ∧ isType m.mode ifLnk = false) ∧ (∀ x ∈ readXattrs c m, XattrOK x) ∧
    (readXattrs c m).Pairwise (fun x y => strLt x.1 y.1 = true) := by
  unfold readXattrs
  split
  · exact ⟨fun h => absurd rfl h, fun x hx => (by cases hx), .nil⟩
  · rename_i hc
    rw [Bool.or_eq_true, not_or] at hc
    refine ⟨fun _ => ⟨by simpa using hc.2, ?_⟩, ?_, ?_⟩
    · have hc1 := hc.1
      rw [Bool.not_eq_true', Bool.not_eq_false, Bool.or_eq_true] at hc1
      rcases hc1 with h | h <;> exact isType_excl h (by decide)
    · intro x hx
      rw [List.mem_mergeSort, List.mem_filter] at hx
      obtain ⟨g1, g2⟩ := hm.xattrs x hx.1
      have hs := hx.2
      unfold xattrStore at hs
      rw [Bool.and_eq_true] at hs
      obtain ⟨ns, rest, e1, e2, e3, e4, e5⟩ := xattrName_split hs.1
      exact ⟨⟨ns, rest, e1, e2, e3, e4, e5⟩, g1, by omega⟩
    · exact sortXattr_strict (hm.xattrOnce.sublist (List.Sublist.map _ List.filter_sublist))

theorem readFcaps_ok {c : Cfg} {m : Meta} (hm : FsOK m) (s : Bytes) (h : readFcaps c m = some s) : isType m.mode ifReg = true ∧ s.length ≤ 65536 := by
  unfold readFcaps at h
  split at h
  · rename_i hc
    rw [Bool.and_eq_true] at hc
    refine ⟨hc.1, ?_⟩
    unfold xattrValue at h
    rw [Option.map_eq_some_iff] at h
    obtain ⟨x, hx, rfl⟩ := h
    exact (hm.xattrs x (List.mem_of_find?_eq_some hx)).2
  · cases h

theorem readQuota_ok {c : Cfg} {m : Meta} (hm : FsOK m) (q : Nat) (h : readQuota c m = some q) :
    (isType m.mode ifReg = true ∨ isType m.mode ifDir = true) ∧ q ≠ 0 ∧ q ≤ 0xffffffff := by
  unfold readQuota at h
  split at h
  · rename_i hc
    rw [Bool.and_eq_true, Bool.and_eq_true, Bool.or_eq_true] at hc
    injection h with h; subst h
    exact ⟨hc.1.1.symm, by simpa using hc.2, hm.projid⟩
  · cases h

/-- What the ACL records are. -/
theorem readAcl_ok {c : Cfg} {db : Names} {m : Meta} {o : AclOut} (h : Meta.readAcl c db m = .ok o) :
    (o = {} ∧ (has c.ff withAcl = false ∨ isType m.mode ifLnk = true)) ∨
    (has c.ff withAcl = true ∧ isType m.mode ifLnk = false ∧
      ∃ x, processItems c db (aclOf m) {} = .ok x ∧ o.users = sortAcl x.users ∧ o.groups = sortAcl x.groups ∧ o.groupObj = storedGroupObj x ∧
      ((isType m.mode ifDir = false ∧ o.dfl = none ∧ o.defUsers = [] ∧ o.defGroups = []) ∨
       (isType m.mode ifDir = true ∧ ∃ y, processItems c db (defAclOf m) {} = .ok y ∧ o.dfl = defOf y ∧ o.defUsers = sortAcl y.users ∧
          o.defGroups = sortAcl y.groups))) := by
  unfold Meta.readAcl at h
  by_cases h1 : has c.ff withAcl = true
  · rw [if_neg (by simpa using h1)] at h
    by_cases h2 : isType m.mode ifLnk = true
    · rw [if_pos h2] at h; injection h with h; exact .inl ⟨h.symm, .inr h2⟩
    rw [if_neg h2] at h
    cases hx : processItems c db (aclOf m) {} with
    | err e => rw [hx] at h; cases h
    | ub => rw [hx] at h; cases h
    | ok x =>
      rw [hx] at h
      simp only at h
      refine .inr ⟨h1, by simpa using h2, x, rfl, ?_⟩
      by_cases h3 : isType m.mode ifDir = true
      · rw [if_pos h3] at h
        cases hy : processItems c db (defAclOf m) {} with
        | err e => rw [hy] at h; cases h
        | ub => rw [hy] at h; cases h
        | ok y =>
          rw [hy] at h
          simp only at h
          injection h with h; subst h
          exact ⟨rfl, rfl, rfl, .inr ⟨h3, y, rfl, rfl, rfl, rfl⟩⟩
      · rw [if_neg h3] at h
        injection h with h; subst h
        exact ⟨rfl, rfl, rfl, .inl ⟨by simpa using h3, rfl, rfl, rfl⟩⟩
  · rw [if_pos (by simpa using h1)] at h
    injection h with h
    exact .inl ⟨h.symm, .inl (by simpa using h1)⟩

theorem CfgOK.aclNames {c : Cfg} (h : CfgOK c) (ha : has c.ff withAcl = true) (hi : has c.ff withIds = false) : has c.ff withUserNames = true := by
  obtain ⟨_, _, _, _, _, _, _, h7, _⟩ := (C17_areNormalized_iff _).1 h.norm
  have ho : has c.ff withIds = (has c.ff with16BitUids || has c.ff with32BitUids) := has_or _ _ _
  rw [ho, has_with16BitUids, has_with32BitUids] at hi
  rw [has_withAcl] at ha
  rw [has_withUserNames]
  rcases h7 ha with g | g | g
  · rw [g] at hi; simp at hi
  · rw [g] at hi; simp at hi
  · exact g

/-- Both lists of an ACL, sorted, as the format wants them. -/
theorem sorted_ok {c : Cfg} (hc : CfgOK c) {f : Nat → Res (Option Bytes)} {l : List (Nat × Nat)} {out : List AclEnt} (h : Ents c f l out)
    (hacl : has c.ff withAcl = true) (hl : ∀ x ∈ l, x.2 < 8 ∧ x.1 < 2 ^ 32) (hn : (l.map (·.1)).Nodup)
    (hf : ∀ x ∈ l, ∀ o, f x.1 = .ok o → ∀ n, o = some n → NameOK n)
    (hap : ∀ u v, u ∈ l.map (·.1) → v ∈ l.map (·.1) → u ≠ v → (has c.ff withIds = true → shiftUid c u ≠ shiftUid c v) ∧ (has c.ff withIds = false → f u ≠ f v)) :
    (∀ a ∈ sortAcl out, AclOK c.ff a) ∧ (sortAcl out).Pairwise AclBefore ∧ (sortAcl out ≠ [] → l ≠ []) := by
  refine ⟨fun a ha => h.ok hacl hl hf a ((sortAcl_perm out).mem_iff.mp ha), sortAcl_strict (h.nodup hn (hc.aclNames hacl) hap), ?_⟩
  intro hne e
  subst e
  cases h
  exact hne (by simp [sortAcl])

/-- Everything that is stored with an object is as the format wants it. -/
theorem gather_ok {c : Cfg} (hc : CfgOK c) {db : Names} (hdb : NamesOK db) {k k' : Cache} (hk : CacheOK c db k) {m : Meta} (hm : FsOK m) (hf : Fits c db m)
    {e : Entry} {a : Attrs} (h : gather c db k m = .ok (e, a, k')) : ObjOK c.ff e a ∧ CacheOK c db k' ∧ e.mode &&& ifmt = m.mode &&& ifmt ∧ typeRefused c m = false := by
  unfold gather at h
  cases hA : Meta.readAcl c db m with
  | err e => rw [hA] at h; cases h
  | ub => rw [hA] at h; cases h
  | ok acl =>
  rw [hA] at h
  simp only at h
  cases hN : readNames c db k m with
  | err e => rw [hN] at h; cases h
  | ub => rw [hN] at h; cases h
  | ok k1 =>
  rw [hN] at h
  simp only at h
  cases hI : entryIds c m with
  | err e => rw [hI] at h; cases h
  | ub => rw [hI] at h; cases h
  | ok ug =>
  obtain ⟨u, g⟩ := ug
  rw [hI] at h
  simp only at h
  by_cases hT : typeRefused c m = true
  · rw [if_pos hT] at h; cases h
  rw [if_neg hT] at h
  injection h with h
  injection h with he h
  injection h with ha hk'
  subst he; subst ha; subst hk'
  obtain ⟨hk1, hn1, hn2⟩ := readNames_ok hk hN
  obtain ⟨iu, ig⟩ := entryIds_ok hm hI
  obtain ⟨x1, x2, x3⟩ := readXattrs_ok (c := c) hm
  have uOK : ∀ v, (v = m.uid ∨ v ∈ namedUsers m) → has c.ff withUserNames = true → ∀ o, uidToName c db v = .ok o →
      (∀ n, o = some n → NameOK n) ∧ (has c.ff withIds = false → v ≠ 0 → o.isSome = true) :=
    fun v hv hu o ho => uidToName_ok hdb ho (fun hi h0 => (hf.known hu hi).1 v hv h0)
  have gOK : ∀ v, (v = m.gid ∨ v ∈ namedGroups m) → has c.ff withUserNames = true → ∀ o, gidToName c db v = .ok o →
      (∀ n, o = some n → NameOK n) ∧ (has c.ff withIds = false → v ≠ 0 → o.isSome = true) :=
    fun v hv hu o ho => gidToName_ok hdb ho (fun hi h0 => (hf.known hu hi).2 v hv h0)
  have modeT : ∀ t, isType (fixupMode c m) t = isType m.mode t := fixupMode_isType c m
  -- names of ACL entries: those without a name flag cannot have any
  have uACL : ∀ v, v ∈ namedUsers m → has c.ff withAcl = true → ∀ o, uidToName c db v = .ok o → ∀ n, o = some n → NameOK n := by
    intro v hv hacl o ho n hn
    by_cases hu : has c.ff withUserNames = true
    · exact (uOK v (.inr hv) hu o ho).1 n hn
    · have hi : has c.ff withIds = true := by
        by_cases hi : has c.ff withIds = true
        · exact hi
        · exact absurd (hc.aclNames hacl (by simpa using hi)) hu
      exact (uidToName_ok hdb ho (fun g => by rw [hi] at g; cases g)).1 n hn
  have gACL : ∀ v, v ∈ namedGroups m → has c.ff withAcl = true → ∀ o, gidToName c db v = .ok o → ∀ n, o = some n → NameOK n := by
    intro v hv hacl o ho n hn
    by_cases hu : has c.ff withUserNames = true
    · exact (gOK v (.inr hv) hu o ho).1 n hn
    · have hi : has c.ff withIds = true := by
        by_cases hi : has c.ff withIds = true
        · exact hi
        · exact absurd (hc.aclNames hacl (by simpa using hi)) hu
      exact (gidToName_ok hdb ho (fun g => by rw [hi] at g; cases g)).1 n hn
  -- the access ACL
  have accU : (∀ x ∈ acl.users, AclOK c.ff x) ∧ acl.users.Pairwise AclBefore ∧ (∀ x ∈ acl.groups, AclOK c.ff x) ∧ acl.groups.Pairwise AclBefore ∧
      (∀ p, acl.groupObj = some p → has c.ff withAcl = true ∧ p < 8) ∧ ((acl.users ≠ [] ∨ acl.groups ≠ []) → acl.groupObj.isSome = true) ∧
      (isType m.mode ifLnk = true → acl.users = [] ∧ acl.groups = [] ∧ acl.groupObj = none) := by
    rcases readAcl_ok hA with ⟨h1, _⟩ | ⟨hacl, hlnk, x, hx, e1, e2, e3, _⟩
    · subst h1
      exact ⟨fun x h => (by cases h), .nil, fun x h => (by cases h), .nil, fun p h => (by cases h), fun h => (by simp at h), fun _ => ⟨rfl, rfl, rfl⟩⟩
    · rcases process_access hx with ⟨_, g1, g2, g3⟩ | ⟨a, ga, g1, g2, g3⟩
      · rw [e1, e2, e3, g1, g2, g3]
        exact ⟨fun x h => (by simp [sortAcl] at h), (by simp [sortAcl]), fun x h => (by simp [sortAcl] at h), (by simp [sortAcl]), fun p h => (by cases h), fun h => (by simp [sortAcl] at h),
          fun _ => ⟨(by simp [sortAcl]), (by simp [sortAcl]), rfl⟩⟩
      · have ho := hm.ext a ga
        have mu : ∀ v, v ∈ a.users.map (·.1) → v ∈ namedUsers m := fun v hv => by unfold namedUsers; rw [ga]; exact List.mem_append_left _ hv
        have mg : ∀ v, v ∈ a.groups.map (·.1) → v ∈ namedGroups m := fun v hv => by unfold namedGroups; rw [ga]; exact List.mem_append_left _ hv
        obtain ⟨s1, s2, _⟩ := sorted_ok hc g1 hacl ho.users ho.usersOnce (fun x hx => uACL x.1 (mu _ (List.mem_map_of_mem hx)) hacl)
          (fun u v hu hv => hf.apartUsers hacl u v (mu u hu) (mu v hv))
        obtain ⟨t1, t2, _⟩ := sorted_ok hc g2 hacl ho.groups ho.groupsOnce (fun x hx => gACL x.1 (mg _ (List.mem_map_of_mem hx)) hacl)
          (fun u v hu hv => hf.apartGroups hacl u v (mg u hu) (mg v hv))
        rw [e1, e2, e3, g3]
        refine ⟨s1, s2, t1, t2, fun p h => ?_, fun _ => rfl, fun h => by rw [hlnk] at h; cases h⟩
        injection h with h; subst h; exact ⟨hacl, ho.groupObj⟩
  -- the default ACL
  have dflU : (∀ x ∈ acl.defUsers, AclOK c.ff x) ∧ acl.defUsers.Pairwise AclBefore ∧ (∀ x ∈ acl.defGroups, AclOK c.ff x) ∧ acl.defGroups.Pairwise AclBefore ∧
      (∀ d, acl.dfl = some d → has c.ff withAcl = true ∧ d.user < 8 ∧ d.group < 8 ∧ d.other < 8 ∧ (d.mask = u64max ∨ d.mask < 8)) ∧
      ((acl.defUsers ≠ [] ∨ acl.defGroups ≠ []) → ∃ d, acl.dfl = some d ∧ d.mask < 8) ∧ (isType m.mode ifDir = false → acl.dfl = none) := by
    rcases readAcl_ok hA with ⟨h1, _⟩ | ⟨hacl, hlnk, x, hx, _, _, _, ⟨hd, e1, e2, e3⟩ | ⟨hd, y, hy, e1, e2, e3⟩⟩
    · subst h1
      exact ⟨fun x h => (by cases h), .nil, fun x h => (by cases h), .nil, fun p h => (by cases h), fun h => (by simp at h), fun _ => rfl⟩
    · rw [e1, e2, e3]
      exact ⟨fun x h => (by cases h), .nil, fun x h => (by cases h), .nil, fun p h => (by cases h), fun h => (by simp at h), fun _ => rfl⟩
    · rcases process_default hy with ⟨_, g1, g2, g3⟩ | ⟨a, ga, g1, g2, g3⟩
      · rw [e1, e2, e3, g1, g2, g3]
        exact ⟨fun x h => (by simp [sortAcl] at h), (by simp [sortAcl]), fun x h => (by simp [sortAcl] at h), (by simp [sortAcl]), fun p h => (by cases h), fun h => (by simp [sortAcl] at h),
          fun _ => rfl⟩
      · have ho := hm.dfl a ga
        have mu : ∀ v, v ∈ a.users.map (·.1) → v ∈ namedUsers m := fun v hv => by unfold namedUsers; rw [ga]; exact List.mem_append_right _ hv
        have mg : ∀ v, v ∈ a.groups.map (·.1) → v ∈ namedGroups m := fun v hv => by unfold namedGroups; rw [ga]; exact List.mem_append_right _ hv
        obtain ⟨s1, s2, s3⟩ := sorted_ok hc g1 hacl ho.users ho.usersOnce (fun x hx => uACL x.1 (mu _ (List.mem_map_of_mem hx)) hacl)
          (fun u v hu hv => hf.apartUsers hacl u v (mu u hu) (mu v hv))
        obtain ⟨t1, t2, t3⟩ := sorted_ok hc g2 hacl ho.groups ho.groupsOnce (fun x hx => gACL x.1 (mg _ (List.mem_map_of_mem hx)) hacl)
          (fun u v hu hv => hf.apartGroups hacl u v (mg u hu) (mg v hv))
        rw [e1, e2, e3, g3]
        refine ⟨s1, s2, t1, t2, fun d h => ?_, fun h => ?_, fun h => by rw [hd] at h; cases h⟩
        · injection h with h; subst h
          refine ⟨hacl, ho.obj.1, ho.obj.2.1, ho.obj.2.2, ?_⟩
          cases hk : a.mask with
          | none => exact .inl rfl
          | some p => exact .inr (ho.mask p hk)
        · refine ⟨_, rfl, ?_⟩
          have := ho.masked (h.imp s3 t3)
          cases hk : a.mask with
          | none => rw [hk] at this; cases this
          | some p => exact ho.mask p hk
  obtain ⟨p1, p2, p3, p4, p5, p6, p7⟩ := accU
  obtain ⟨d1, d2, d3, d4, d5, d6, d7⟩ := dflU
  refine ⟨⟨⟨rfl, fixupMode_bits c m, fixupMode_perm c m, iu, ig, fixupMtime_ok hc hf, entryFlags_ok c m,
      fun h => entryFlags_subvol c m (by rw [← modeT]; exact h), fun h1 h2 => entryFlags_other c m (by rw [← modeT]; exact h1) (by rw [← modeT]; exact h2)⟩, ?_⟩,
    hk1, fixupMode_type c m, by simpa using hT⟩
  have named : ∀ n, cachedUser k1 m = some n → has c.ff withUserNames = true ∧ NameOK n := by
    intro n hn
    by_cases hu : has c.ff withUserNames = true
    · exact ⟨hu, (uOK m.uid (.inl rfl) hu _ (hn1 hu).1).1 n hn⟩
    · rw [(hn2 (by simpa using hu)).1] at hn; cases hn
  have gnamed : ∀ n, cachedGroup k1 m = some n → has c.ff withUserNames = true ∧ NameOK n := by
    intro n hn
    by_cases hu : has c.ff withUserNames = true
    · exact ⟨hu, (gOK m.gid (.inl rfl) hu _ (hn1 hu).2).1 n hn⟩
    · rw [(hn2 (by simpa using hu)).2] at hn; cases hn
  exact {
    user := named
    group := gnamed
    names := fun hu hi => ⟨(uOK m.uid (.inl rfl) hu _ (hn1 hu).1).2 hi (hf.notRoot hu hi).1, (gOK m.gid (.inl rfl) hu _ (hn1 hu).2).2 hi (hf.notRoot hu hi).2⟩
    xattrFlag := fun h => (x1 h).1
    xattrs := x2
    xattrOrder := x3
    aclUser := p1
    aclGroup := p3
    defUser := d1
    defGroup := d3
    aclUserOrder := p2
    aclGroupOrder := p4
    defUserOrder := d2
    defGroupOrder := d4
    groupObj := p5
    needsGroupObj := p6
    aclDefault := d5
    needsMask := d6
    defaultDir := fun h => d7 (by rw [← modeT]; exact h)
    selinux := by
      intro s hs
      unfold readSelinux at hs
      simp only at hs
      split at hs
      · rename_i hsel
        obtain ⟨a1, a2, a3⟩ := hm.selinux s hs
        exact ⟨hsel, a1, a2, a3⟩
      · cases hs
    fcaps := by
      intro s hs
      rw [modeT]
      exact readFcaps_ok hm s hs
    quota := by
      intro q hq
      rw [modeT, modeT]
      exact readQuota_ok hm q hq
    link := by
      intro h
      rw [modeT] at h
      obtain ⟨q1, q2, q3⟩ := p7 h
      refine ⟨?_, q1, q2, q3⟩
      by_cases hx : readXattrs c m = []
      · exact hx
      · have := (x1 hx).2; rw [h] at this; cases this }

end Casync.Meta
