import Verif.Lemmas.Meta
/-!
ACLs and names.
-/
namespace Casync.Meta
open Casync Flags Archive

/-- The ACL records for a list of named users or groups. -/
inductive Ents (c : Cfg) (f : Nat → Res (Option Bytes)) : List (Nat × Nat) → List AclEnt → Prop
  | nil : Ents c f [] []
  | cons {x a l out} : aclEnt c f x.1 x.2 = .ok a → Ents c f l out → Ents c f (x :: l) (a :: out)

theorem processItems_users {c : Cfg} {db : Names} {us : List (Nat × Nat)} {rest : List AclItem} {acc r : AclAcc}
    (h : processItems c db (us.map (fun x => ⟨.user x.1, x.2⟩) ++ rest) acc = .ok r) :
    ∃ l, Ents c (uidToName c db) us l ∧ processItems c db rest { acc with users := acc.users ++ l } = .ok r := by
  induction us generalizing acc with
  | nil => exact ⟨[], .nil, by simpa using h⟩
  | cons x us ih =>
    rw [List.map_cons, List.cons_append, processItems] at h
    simp only at h
    cases ha : aclEnt c (uidToName c db) x.1 x.2 with
    | err e => rw [ha] at h; cases h
    | ub => rw [ha] at h; cases h
    | ok a =>
      rw [ha] at h
      simp only at h
      obtain ⟨l, h1, h2⟩ := ih h
      exact ⟨a :: l, .cons ha h1, by simpa using h2⟩

theorem processItems_groups {c : Cfg} {db : Names} {us : List (Nat × Nat)} {rest : List AclItem} {acc r : AclAcc}
    (h : processItems c db (us.map (fun x => ⟨.group x.1, x.2⟩) ++ rest) acc = .ok r) :
    ∃ l, Ents c (gidToName c db) us l ∧ processItems c db rest { acc with groups := acc.groups ++ l } = .ok r := by
  induction us generalizing acc with
  | nil => exact ⟨[], .nil, by simpa using h⟩
  | cons x us ih =>
    rw [List.map_cons, List.cons_append, processItems] at h
    simp only at h
    cases ha : aclEnt c (gidToName c db) x.1 x.2 with
    | err e => rw [ha] at h; cases h
    | ub => rw [ha] at h; cases h
    | ok a =>
      rw [ha] at h
      simp only at h
      obtain ⟨l, h1, h2⟩ := ih h
      exact ⟨a :: l, .cons ha h1, by simpa using h2⟩

/-- What an access ACL becomes. -/
theorem process_access {c : Cfg} {db : Names} {m : Meta} {x : AclAcc} (h : processItems c db (aclOf m) {} = .ok x) :
    (m.ext = none ∧ x.users = [] ∧ x.groups = [] ∧ storedGroupObj x = none) ∨
    ∃ a, m.ext = some a ∧ Ents c (uidToName c db) a.users x.users ∧ Ents c (gidToName c db) a.groups x.groups ∧ storedGroupObj x = some a.groupObj := by
  unfold aclOf at h
  cases hm : m.ext with
  | none =>
    rw [hm] at h
    simp only [processItems] at h
    injection h with h; subst h
    exact .inl ⟨rfl, rfl, rfl, rfl⟩
  | some a =>
    rw [hm] at h
    refine .inr ⟨a, rfl, ?_⟩
    simp only at h
    rw [processItems] at h
    simp only at h
    obtain ⟨l, hl, h⟩ := processItems_users h
    rw [processItems] at h
    simp only at h
    obtain ⟨g, hg, h⟩ := processItems_groups h
    simp only [processItems] at h
    injection h with h; subst h
    exact ⟨by simpa using hl, by simpa using hg, rfl⟩

/-- What a default ACL becomes. -/
theorem process_default {c : Cfg} {db : Names} {m : Meta} {x : AclAcc} (h : processItems c db (defAclOf m) {} = .ok x) :
    (m.dfl = none ∧ x.users = [] ∧ x.groups = [] ∧ defOf x = none) ∨
    ∃ a, m.dfl = some a ∧ Ents c (uidToName c db) a.users x.users ∧ Ents c (gidToName c db) a.groups x.groups ∧
      defOf x = some { user := a.user, group := a.group, other := a.other, mask := a.mask.getD u64max } := by
  unfold defAclOf at h
  cases hm : m.dfl with
  | none =>
    rw [hm] at h
    simp only [processItems] at h
    injection h with h; subst h
    exact .inl ⟨rfl, rfl, rfl, rfl⟩
  | some a =>
    rw [hm] at h
    refine .inr ⟨a, rfl, ?_⟩
    simp only [defItems] at h
    rw [processItems] at h
    simp only at h
    obtain ⟨l, hl, h⟩ := processItems_users h
    rw [processItems] at h
    simp only at h
    obtain ⟨g, hg, h⟩ := processItems_groups h
    cases hk : a.mask with
    | none =>
      rw [hk] at h
      simp only [processItems, List.nil_append] at h
      injection h with h; subst h
      exact ⟨by simpa using hl, by simpa using hg, rfl⟩
    | some p =>
      rw [hk] at h
      simp only [processItems, List.cons_append, List.nil_append] at h
      injection h with h; subst h
      exact ⟨by simpa using hl, by simpa using hg, rfl⟩

/-- The fields of one ACL record. -/
theorem aclEnt_ok {c : Cfg} {f : Nat → Res (Option Bytes)} {q p : Nat} {a : AclEnt} (h : aclEnt c f q p = .ok a) :
    uidValid q = true ∧ uidValid (shiftUid c q) = true ∧ (has c.ff with16BitUids = true → shiftUid c q ≤ 65535) ∧
    a.perm = p ∧ a.id = (if has c.ff withIds then shiftUid c q else 0) ∧
    (has c.ff withUserNames = true → f q = .ok a.name) ∧ (has c.ff withUserNames = false → a.name = none) := by
  unfold aclEnt at h
  by_cases h1 : ¬ uidValid q = true
  · rw [if_pos (by simpa using h1)] at h; cases h
  rw [Decidable.not_not] at h1
  rw [if_neg (by simpa using h1)] at h
  by_cases h2 : ¬ uidValid (shiftUid c q) = true
  · rw [if_pos (by simpa using h2)] at h; cases h
  rw [Decidable.not_not] at h2
  rw [if_neg (by simpa using h2)] at h
  by_cases h3 : (has c.ff with16BitUids && decide (shiftUid c q > 65535)) = true
  · rw [if_pos h3] at h; cases h
  rw [if_neg h3] at h
  simp only at h
  have h3' : has c.ff with16BitUids = true → shiftUid c q ≤ 65535 := by
    intro g; rw [g] at h3; simpa using h3
  refine ⟨h1, h2, h3', ?_⟩
  by_cases h4 : has c.ff withUserNames = true
  · rw [if_pos h4] at h
    cases hf : f q with
    | err e => rw [hf] at h; cases h
    | ub => rw [hf] at h; cases h
    | ok n =>
      rw [hf] at h
      simp only at h
      injection h with h; subst h
      exact ⟨rfl, rfl, fun _ => rfl, fun g => by rw [h4] at g; cases g⟩
  · rw [if_neg h4] at h
    injection h with h; subst h
    exact ⟨rfl, rfl, fun g => absurd g h4, fun _ => rfl⟩

/-- Which names come out. -/
theorem nameOf_ok {c : Cfg} {found : Option Bytes} {u : Nat} {o : Option Bytes} (h : nameOf c found u = .ok o) :
    (∃ n, found = some n ∧ o = some n) ∨ (found = none ∧ has c.ff withIds = true ∧ o = none) ∨ (found = none ∧ has c.ff withIds = false) := by
  unfold nameOf at h
  cases found with
  | some n => simp only at h; injection h with h; exact .inl ⟨n, rfl, h.symm⟩
  | none =>
    simp only at h
    cases hi : has c.ff withIds with
    | true => rw [hi] at h; simp only [if_true] at h; injection h with h; exact .inr (.inl ⟨rfl, rfl, h.symm⟩)
    | false => exact .inr (.inr ⟨rfl, rfl⟩)

theorem uidToName_ok {c : Cfg} {db : Names} (hdb : NamesOK db) {u : Nat} {o : Option Bytes} (h : uidToName c db u = .ok o)
    (hk : has c.ff withIds = false → u ≠ 0 → (db.user u).isSome = true) :
    (∀ n, o = some n → NameOK n) ∧ (has c.ff withIds = false → u ≠ 0 → o.isSome = true) := by
  unfold uidToName at h
  split at h
  · cases h
  split at h
  · rename_i h0
    injection h with h; subst h
    exact ⟨fun n e => (by cases e), fun _ g => absurd h0 g⟩
  · rename_i h0
    rcases nameOf_ok h with ⟨n, h1, h2⟩ | ⟨h1, h2, h3⟩ | ⟨h1, h2⟩
    · subst h2
      refine ⟨fun n' e => ?_, fun _ _ => rfl⟩
      injection e with e; subst e; exact hdb.user u _ h0 h1
    · subst h3
      exact ⟨fun n e => (by cases e), fun g => (by rw [h2] at g; cases g)⟩
    · have := hk h2 h0
      rw [h1] at this; cases this

theorem gidToName_ok {c : Cfg} {db : Names} (hdb : NamesOK db) {u : Nat} {o : Option Bytes} (h : gidToName c db u = .ok o)
    (hk : has c.ff withIds = false → u ≠ 0 → (db.group u).isSome = true) :
    (∀ n, o = some n → NameOK n) ∧ (has c.ff withIds = false → u ≠ 0 → o.isSome = true) := by
  unfold gidToName at h
  split at h
  · rename_i h0
    injection h with h; subst h
    exact ⟨fun n e => (by cases e), fun _ g => absurd h0 g⟩
  · rename_i h0
    rcases nameOf_ok h with ⟨n, h1, h2⟩ | ⟨h1, h2, h3⟩ | ⟨h1, h2⟩
    · subst h2
      refine ⟨fun n' e => ?_, fun _ _ => rfl⟩
      injection e with e; subst e; exact hdb.group u _ h0 h1
    · subst h3
      exact ⟨fun n e => (by cases e), fun g => (by rw [h2] at g; cases g)⟩
    · have := hk h2 h0
      rw [h1] at this; cases this

/-! ### Lists of ACL records -/

theorem Ents.mem {c : Cfg} {f : Nat → Res (Option Bytes)} {l : List (Nat × Nat)} {out : List AclEnt} (h : Ents c f l out) {a : AclEnt}
    (ha : a ∈ out) : ∃ x ∈ l, aclEnt c f x.1 x.2 = .ok a := by
  induction h with
  | nil => cases ha
  | cons h1 _ ih =>
    rcases List.mem_cons.mp ha with rfl | ha
    · exact ⟨_, List.mem_cons_self, h1⟩
    · obtain ⟨x, hx, h⟩ := ih ha; exact ⟨x, List.mem_cons_of_mem _ hx, h⟩

theorem Ents.mem_left {c : Cfg} {f : Nat → Res (Option Bytes)} {l : List (Nat × Nat)} {out : List AclEnt} (h : Ents c f l out) {x : Nat × Nat}
    (hx : x ∈ l) : ∃ a ∈ out, aclEnt c f x.1 x.2 = .ok a := by
  induction h with
  | nil => cases hx
  | cons h1 _ ih =>
    rcases List.mem_cons.mp hx with rfl | hx
    · exact ⟨_, List.mem_cons_self, h1⟩
    · obtain ⟨a, ha, h⟩ := ih hx; exact ⟨a, List.mem_cons_of_mem _ ha, h⟩

/-- Records for different ids are different if the ids or the names stay apart. -/
theorem Ents.nodup {c : Cfg} {f : Nat → Res (Option Bytes)} {l : List (Nat × Nat)} {out : List AclEnt} (h : Ents c f l out)
    (hn : (l.map (·.1)).Nodup) (hnames : has c.ff withIds = false → has c.ff withUserNames = true)
    (hap : ∀ u v, u ∈ l.map (·.1) → v ∈ l.map (·.1) → u ≠ v → (has c.ff withIds = true → shiftUid c u ≠ shiftUid c v) ∧ (has c.ff withIds = false → f u ≠ f v)) :
    out.Nodup := by
  induction h with
  | nil => exact List.nodup_nil
  | @cons x a l out h1 h2 ih =>
    rw [List.map_cons, List.nodup_cons] at hn
    rw [List.nodup_cons]
    refine ⟨?_, ih hn.2 (fun u v hu hv => hap u v (List.mem_cons_of_mem _ hu) (List.mem_cons_of_mem _ hv))⟩
    intro ha
    obtain ⟨y, hy, hya⟩ := Ents.mem h2 ha
    have hym : y.1 ∈ l.map (·.1) := List.mem_map_of_mem hy
    have hne : x.1 ≠ y.1 := fun e => hn.1 (e ▸ hym)
    obtain ⟨g1, g2⟩ := hap x.1 y.1 List.mem_cons_self (List.mem_cons_of_mem _ hym) hne
    obtain ⟨_, _, _, _, i1, n1, _⟩ := aclEnt_ok h1
    obtain ⟨_, _, _, _, i2, n2, _⟩ := aclEnt_ok hya
    cases hi : has c.ff withIds with
    | true => rw [hi] at i1 i2; exact g1 hi (by simpa using i1.symm.trans i2)
    | false => exact g2 hi ((n1 (hnames hi)).trans (n2 (hnames hi)).symm)

/-- They are as the format wants them. -/
theorem Ents.ok {c : Cfg} {f : Nat → Res (Option Bytes)} {l : List (Nat × Nat)} {out : List AclEnt} (h : Ents c f l out)
    (hacl : has c.ff withAcl = true) (hl : ∀ x ∈ l, x.2 < 8 ∧ x.1 < 2 ^ 32)
    (hf : ∀ x ∈ l, ∀ o, f x.1 = .ok o → ∀ n, o = some n → NameOK n) : ∀ a ∈ out, AclOK c.ff a := by
  intro a ha
  obtain ⟨x, hx, h1⟩ := h.mem ha
  obtain ⟨_, h2, h3, h4, h5, h6, h7⟩ := aclEnt_ok h1
  refine ⟨hacl, ?_, ?_, ?_⟩
  · rw [h5]; exact idOK_of (shiftUid_lt (hl x hx).2) h2 h3
  · rw [h4]; exact (hl x hx).1
  · intro n hn
    cases hu : has c.ff withUserNames with
    | true => exact ⟨rfl, hf x hx _ (h6 hu) n hn⟩
    | false => rw [h7 hu] at hn; cases hn

/-! ### The name cache -/

theorem readUser_ok {c : Cfg} {db : Names} {k k' : Cache} {u : Nat} (hk : CacheOK c db k) (hu : has c.ff withUserNames = true) (h : readUser c db k u = .ok k') :
    CacheOK c db k' ∧ k'.uid = u ∧ uidToName c db u = .ok k'.userName ∧ k'.groupName = k.groupName ∧ k'.gid = k.gid := by
  unfold readUser at h
  split at h
  · cases hn : uidToName c db u with
    | err e => rw [hn] at h; cases h
    | ub => rw [hn] at h; cases h
    | ok n =>
      rw [hn] at h
      simp only at h
      injection h with h; subst h
      exact ⟨⟨fun n' e => ⟨hu, by simp only at e ⊢; rw [hn, e]⟩, hk.group⟩, rfl, rfl, rfl, rfl⟩
  · rename_i hc
    injection h with h; subst h
    have h1 : k.uid = u := by by_cases e : k.uid = u; exact e; exact absurd (.inr e) hc
    refine ⟨hk, h1, ?_, rfl, rfl⟩
    cases hn : k.userName with
    | none => exact absurd (.inl hn) hc
    | some n => rw [← h1]; exact (hk.user n hn).2

theorem readGroup_ok {c : Cfg} {db : Names} {k k' : Cache} {u : Nat} (hk : CacheOK c db k) (hu : has c.ff withUserNames = true) (h : readGroup c db k u = .ok k') :
    CacheOK c db k' ∧ k'.gid = u ∧ gidToName c db u = .ok k'.groupName ∧ k'.userName = k.userName ∧ k'.uid = k.uid := by
  unfold readGroup at h
  split at h
  · cases hn : gidToName c db u with
    | err e => rw [hn] at h; cases h
    | ub => rw [hn] at h; cases h
    | ok n =>
      rw [hn] at h
      simp only at h
      injection h with h; subst h
      exact ⟨⟨hk.user, fun n' e => ⟨hu, by simp only at e ⊢; rw [hn, e]⟩⟩, rfl, rfl, rfl, rfl⟩
  · rename_i hc
    injection h with h; subst h
    have h1 : k.gid = u := by by_cases e : k.gid = u; exact e; exact absurd (.inr e) hc
    refine ⟨hk, h1, ?_, rfl, rfl⟩
    cases hn : k.groupName with
    | none => exact absurd (.inl hn) hc
    | some n => rw [← h1]; exact (hk.group n hn).2

/-- The names stored with an object are the ones of its ids, whatever the cache had. -/
theorem readNames_ok {c : Cfg} {db : Names} {k k' : Cache} {m : Meta} (hk : CacheOK c db k) (h : readNames c db k m = .ok k') :
    CacheOK c db k' ∧
    (has c.ff withUserNames = true → uidToName c db m.uid = .ok (cachedUser k' m) ∧ gidToName c db m.gid = .ok (cachedGroup k' m)) ∧
    (has c.ff withUserNames = false → cachedUser k' m = none ∧ cachedGroup k' m = none) := by
  unfold readNames at h
  cases hu : has c.ff withUserNames with
  | false =>
    rw [hu] at h
    simp only [Bool.not_false, if_true] at h
    injection h with h; subst h
    refine ⟨hk, fun g => (by cases g), fun _ => ?_⟩
    have h1 : k.userName = none := by
      cases e : k.userName with
      | none => rfl
      | some n => have := (hk.user n e).1; rw [hu] at this; cases this
    have h2 : k.groupName = none := by
      cases e : k.groupName with
      | none => rfl
      | some n => have := (hk.group n e).1; rw [hu] at this; cases this
    unfold cachedUser cachedGroup
    rw [h1, h2]
    simp
  | true =>
    rw [hu] at h
    simp only [Bool.not_true, Bool.false_eq_true, if_false] at h
    split at h
    · cases h
    cases h1 : readUser c db k m.uid with
    | err e => rw [h1] at h; cases h
    | ub => rw [h1] at h; cases h
    | ok k1 =>
      rw [h1] at h
      simp only at h
      obtain ⟨a1, a2, a3, _, _⟩ := readUser_ok hk hu h1
      obtain ⟨b1, b2, b3, b4, b5⟩ := readGroup_ok a1 hu h
      refine ⟨b1, fun _ => ⟨?_, ?_⟩, fun g => (by cases g)⟩
      · unfold cachedUser; rw [if_pos (by rw [b5, a2]), b4]; exact a3
      · unfold cachedGroup; rw [if_pos b2.symm]; exact b3

end Casync.Meta
