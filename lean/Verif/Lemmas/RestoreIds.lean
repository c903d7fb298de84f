import Verif.Spec.Restore
import Verif.Lemmas.MetaGather
/-!
Ids that are shifted and shifted back, and names that are looked up.
-/
namespace Casync.Meta
open Casync Flags Archive

/-- What is shifted on the way into the archive is shifted back on the way out. -/
theorem unshift_shift {c : Cfg} {rp : Word} {u : Nat} (hu : u < 2 ^ 32) (hv : uidValid (shiftUid c u) = true) (hr : InRange c.shift c.range u) :
    unshiftUid { replay := rp, shift := c.shift, range := c.range } (shiftUid c u % 2 ^ 32) = u := by
  have hlt := shiftUid_lt (c := c) hu
  rw [Nat.mod_eq_of_lt hlt]
  have hs : shiftUid c u = u - c.shift := by
    unfold shiftUid at hv ⊢
    by_cases h1 : uidValid u = true
    · rw [if_neg (by simpa using h1)] at hv ⊢
      rw [if_neg (by have := hr.1; omega)] at hv ⊢
      by_cases h3 : c.range ≠ 0
      · rw [if_pos h3]; exact Nat.mod_eq_of_lt (by have := hr.2 h3; have := hr.1; omega)
      · rw [if_neg h3]
    · rw [if_pos (by simpa using h1)] at hv; cases hv
  unfold unshiftUid
  rw [if_neg (by simpa using hv), hs]
  simp only
  have h1 := hr.1
  have hm : (if c.range ≠ 0 then (u - c.shift) % c.range else u - c.shift) = u - c.shift := by
    by_cases h3 : c.range ≠ 0
    · rw [if_pos h3]; exact Nat.mod_eq_of_lt (by have := hr.2 h3; omega)
    · rw [if_neg h3]
  rw [hm, show c.shift + (u - c.shift) = u by omega, Nat.mod_eq_of_lt hu, if_neg (by omega)]

/-- What is shifted back is refused or in the range. -/
theorem unshift_range {c : RCfg} {v : Nat} (h : uidValid (unshiftUid c v) = true) :
    InRange c.shift c.range (unshiftUid c v) ∧ unshiftUid c v < 2 ^ 32 := by
  unfold unshiftUid at h ⊢
  by_cases h1 : uidValid v = true
  · rw [if_neg (by simpa using h1)] at h ⊢
    simp only at h ⊢
    generalize hr : (if c.range ≠ 0 then v % c.range else v) = r at h ⊢
    by_cases h2 : (c.shift + r) % 2 ^ 32 < c.shift
    · rw [if_pos h2] at h; cases h
    rw [if_neg h2] at h ⊢
    refine ⟨⟨by omega, fun h3 => ?_⟩, Nat.mod_lt _ (by decide)⟩
    rw [if_pos h3] at hr
    have : r < c.range := by rw [← hr]; exact Nat.mod_lt _ (by omega)
    have := Nat.mod_le (c.shift + r) (2 ^ 32)
    omega
  · rw [if_pos (by simpa using h1)] at h; cases h

/-! ### Names -/

theorem char_noDigit {x : UInt8} (h : isLetter x = true ∨ x = 95) :
    Number.isWs x = false ∧ Number.isSpace x = false ∧ x ≠ 43 ∧ x ≠ 45 ∧ x ≠ 48 ∧ Number.isDigit 10 x = false := by
  have h2 : (97 ≤ x.toNat ∧ x.toNat ≤ 122) ∨ (65 ≤ x.toNat ∧ x.toNat ≤ 90) ∨ x.toNat = 95 := by
    rcases h with h | h
    · unfold isLetter at h
      simp only [Bool.or_eq_true, Bool.and_eq_true, decide_eq_true_eq, UInt8.le_iff_toNat_le] at h
      rcases h with h | h
      · exact .inl h
      · exact .inr (.inl h)
    · subst h; exact .inr (.inr rfl)
  have ne : ∀ y : UInt8, y.toNat < 65 → x ≠ y := fun y hy e => by subst e; omega
  have n1 := ne 32 (by decide)
  have n2 := ne 9 (by decide)
  have n3 := ne 10 (by decide)
  have n4 := ne 13 (by decide)
  have n5 := ne 11 (by decide)
  have n6 := ne 12 (by decide)
  refine ⟨?_, ?_, ne 43 (by decide), ne 45 (by decide), ne 48 (by decide), ?_⟩
  · simp [Number.isWs, n1, n2, n3, n4]
  · simp [Number.isSpace, Number.isWs, n1, n2, n3, n4, n5, n6]
  · unfold Number.isDigit Number.digitVal
    rw [if_neg (by omega)]
    by_cases a : 97 ≤ x.toNat ∧ x.toNat ≤ 122
    · rw [if_pos a]; simp; omega
    rw [if_neg a]
    by_cases b : 65 ≤ x.toNat ∧ x.toNat ≤ 90
    · rw [if_pos b]; simp; omega
    rw [if_neg b]

theorem selectBase_other {x : UInt8} {r : Bytes} (h : x ≠ 48) : Number.selectBase 0 (x :: r) = (10, x :: r) := by
  unfold Number.selectBase
  split
  · rename_i heq; injection heq with h1 _; exact absurd h1 h
  · rename_i heq; injection heq with h1 _; exact absurd h1 h
  · rfl

/-- A name is not a number. -/
theorem parseUid_name {n : Bytes} (h : NameOK n) : parseUid n = .err .EINVAL := by
  obtain ⟨x, cs, rfl, hx, _⟩ := h.first
  obtain ⟨h1, h2, h3, h4, h5, h6⟩ := char_noDigit hx
  have e : Number.strtoull 0 (x :: cs) = none := by
    have hd : (x :: cs).dropWhile Number.isSpace = x :: cs := by rw [List.dropWhile_cons, if_neg (by rw [h2]; simp)]
    have : Number.strtoullDigits false 0 (x :: cs) = none := by
      unfold Number.strtoullDigits
      rw [selectBase_other h5]
      simp only
      have ht : (x :: cs).takeWhile (Number.isDigit 10) = [] := by rw [List.takeWhile_cons, if_neg (by rw [h6]; simp)]
      rw [ht]
      rfl
    unfold Number.strtoull
    rw [hd]
    split
    · rename_i heq; injection heq with g _; exact absurd g h4
    · rename_i heq; injection heq with g _; exact absurd g h3
    · exact this
  unfold parseUid Number.atou Number.safeAto
  have hd : (x :: cs).dropWhile Number.isWs = x :: cs := by rw [List.dropWhile_cons, if_neg (by rw [h1]; simp)]
  simp only [hd, e]

theorem lookUp_name {c : RCfg} {look : Bytes → Option Nat} {n : Bytes} (h : NameOK n) {u : Nat} {b : Bool} (hl : lookUp c look n = .ok (u, b)) :
    look n = some u := by
  unfold lookUp at hl
  rw [parseUid_name h] at hl
  simp only at hl
  cases hk : look n with
  | none => rw [hk] at hl; cases hl
  | some v => rw [hk] at hl; injection hl with hl; injection hl with hl _; rw [hl]

theorem nameToUid_ok {c : RCfg} {db : Names} {k k' : RCache} {n : Bytes} (hk : RCacheOK db k) (hn : NameOK n) {u : Nat}
    (h : nameToUid c db k n = .ok (u, k')) : db.uid n = some u ∧ RCacheOK db k' := by
  have go : ∀ k0 : RCache, RCacheOK db k0 → (match lookUp c db.uid n with
      | .ok (v, keep) => (.ok (v, if keep then { k0 with user := some (n, v) } else k0) : Res (Nat × RCache))
      | .err e => .err e
      | .ub => .ub) = .ok (u, k') → db.uid n = some u ∧ RCacheOK db k' := by
    intro k0 hk0 h
    cases hl : lookUp c db.uid n with
    | err e => rw [hl] at h; cases h
    | ub => rw [hl] at h; cases h
    | ok r =>
      obtain ⟨v, b⟩ := r
      rw [hl] at h
      simp only at h
      injection h with h
      injection h with h1 h2
      subst h1
      have := lookUp_name hn hl
      refine ⟨this, ?_⟩
      subst h2
      cases b
      · exact hk0
      · exact ⟨fun n' u' e => by simp only [if_true] at e; injection e with e; injection e with e1 e2; subst e1; subst e2; exact this, hk0.group⟩
  unfold nameToUid at h
  cases hc : k.user with
  | none => rw [hc] at h; exact go k hk h
  | some p =>
    obtain ⟨n', u'⟩ := p
    rw [hc] at h
    simp only at h
    by_cases e : n' = n
    · rw [if_pos e] at h
      injection h with h
      injection h with h1 h2
      subst h1; subst h2; subst e
      exact ⟨hk.user _ _ hc, hk⟩
    · rw [if_neg e] at h; exact go k hk h

theorem nameToGid_ok {c : RCfg} {db : Names} {k k' : RCache} {n : Bytes} (hk : RCacheOK db k) (hn : NameOK n) {u : Nat}
    (h : nameToGid c db k n = .ok (u, k')) : db.gid n = some u ∧ RCacheOK db k' := by
  have go : ∀ k0 : RCache, RCacheOK db k0 → (match lookUp c db.gid n with
      | .ok (v, keep) => (.ok (v, if keep then { k0 with group := some (n, v) } else k0) : Res (Nat × RCache))
      | .err e => .err e
      | .ub => .ub) = .ok (u, k') → db.gid n = some u ∧ RCacheOK db k' := by
    intro k0 hk0 h
    cases hl : lookUp c db.gid n with
    | err e => rw [hl] at h; cases h
    | ub => rw [hl] at h; cases h
    | ok r =>
      obtain ⟨v, b⟩ := r
      rw [hl] at h
      simp only at h
      injection h with h
      injection h with h1 h2
      subst h1
      have := lookUp_name hn hl
      refine ⟨this, ?_⟩
      subst h2
      cases b
      · exact hk0
      · exact ⟨hk0.user, fun n' u' e => by simp only [if_true] at e; injection e with e; injection e with e1 e2; subst e1; subst e2; exact this⟩
  unfold nameToGid at h
  cases hc : k.group with
  | none => rw [hc] at h; exact go k hk h
  | some p =>
    obtain ⟨n', u'⟩ := p
    rw [hc] at h
    simp only at h
    by_cases e : n' = n
    · rw [if_pos e] at h
      injection h with h
      injection h with h1 h2
      subst h1; subst h2; subst e
      exact ⟨hk.group _ _ hc, hk⟩
    · rw [if_neg e] at h; exact go k hk h

/-- The id that a stored name or number stands for. -/
def idVal (c : RCfg) (look : Bytes → Option Nat) (name : Option Bytes) (id : Nat) : Nat :=
  match name with
  | some n => (look n).getD 0
  | none => unshiftUid c (id % 2 ^ 32)

/-- A function that looks up names and keeps the cache in order. -/
def Looks (db : Names) (look : Bytes → Option Nat) (toId : RCache → Bytes → Res (Nat × RCache)) : Prop :=
  ∀ k k' n u, RCacheOK db k → NameOK n → toId k n = .ok (u, k') → look n = some u ∧ RCacheOK db k'

theorem wantedId_ok {c : RCfg} {db : Names} {look : Bytes → Option Nat} {toId : RCache → Bytes → Res (Nat × RCache)} (hl : Looks db look toId)
    {k k' : RCache} (hk : RCacheOK db k) {name : Option Bytes} (hn : ∀ n, name = some n → NameOK n) {id u : Nat}
    (h : wantedId c toId k name id = .ok (u, k')) : u = idVal c look name id ∧ RCacheOK db k' := by
  unfold wantedId at h
  cases name with
  | some n =>
    obtain ⟨h1, h2⟩ := hl k k' n u hk (hn n rfl) h
    exact ⟨by unfold idVal; simp only; rw [h1]; rfl, h2⟩
  | none =>
    simp only at h
    split at h
    · injection h with h
      injection h with h1 h2
      subst h2
      exact ⟨h1.symm, hk⟩
    · cases h

theorem aclIds_ok {c : RCfg} {db : Names} {look : Bytes → Option Nat} {toId : RCache → Bytes → Res (Nat × RCache)} (hl : Looks db look toId)
    {l : List AclEnt} (hn : ∀ x ∈ l, ∀ n, x.name = some n → NameOK n) {k k' : RCache} (hk : RCacheOK db k) {r : List (Nat × Nat)}
    (h : aclIds c toId k l = .ok (r, k')) : r = l.map (fun x => (idVal c look x.name x.id, x.perm)) ∧ RCacheOK db k' := by
  induction l generalizing k k' r with
  | nil => unfold aclIds at h; injection h with h; injection h with h1 h2; subst h1; subst h2; exact ⟨rfl, hk⟩
  | cons x l ih =>
    unfold aclIds at h
    cases hw : wantedId c toId k x.name x.id with
    | err e => rw [hw] at h; cases h
    | ub => rw [hw] at h; cases h
    | ok p =>
      obtain ⟨u, k1⟩ := p
      rw [hw] at h
      simp only at h
      obtain ⟨h1, h2⟩ := wantedId_ok hl hk (hn x List.mem_cons_self) hw
      cases ha : aclIds c toId k1 l with
      | err e => rw [ha] at h; cases h
      | ub => rw [ha] at h; cases h
      | ok q =>
        obtain ⟨r1, k2⟩ := q
        rw [ha] at h
        simp only at h
        injection h with h
        injection h with e1 e2
        obtain ⟨h3, h4⟩ := ih (fun y hy => hn y (List.mem_cons_of_mem _ hy)) h2 ha
        subst e2
        exact ⟨by rw [← e1, h1, h3, List.map_cons], h4⟩

theorem uidLooks (c : RCfg) (db : Names) : Looks db db.uid (nameToUid c db) := fun _ _ _ _ hk hn h => nameToUid_ok hk hn h
theorem gidLooks (c : RCfg) (db : Names) : Looks db db.gid (nameToGid c db) := fun _ _ _ _ hk hn h => nameToGid_ok hk hn h

/-- A name or number that was stored for an id stands for it. -/
theorem idVal_stored {c : Cfg} {rp : Word} {look : Bytes → Option Nat} {u : Nat} (hu : u < 2 ^ 32)
    {name : Option Bytes} {id : Nat} (hname : ∀ n, name = some n → look n = some u)
    (hid : name = none → id = shiftUid c u ∨ (id = 0 ∧ u = 0 ∧ c.shift = 0)) (hv : name = none → uidValid (shiftUid c u) = true ∨ u = 0) (hr : name = none → InRange c.shift c.range u) :
    idVal { replay := rp, shift := c.shift, range := c.range } look name id = u := by
  cases name with
  | some n => unfold idVal; simp only; rw [hname n rfl]; rfl
  | none =>
    unfold idVal
    simp only
    have zero : u = 0 → c.shift = 0 → unshiftUid { replay := rp, shift := c.shift, range := c.range } (0 % 2 ^ 32) = 0 := by
      intro _ h2
      rw [h2]
      unfold unshiftUid
      rw [if_neg (by decide)]
      simp
    rcases hid rfl with h | ⟨h1, h2, h3⟩
    · rcases hv rfl with hv | hv
      · rw [h]; exact unshift_shift hu hv (hr rfl)
      · have h0 : c.shift = 0 := by have := (hr rfl).1; omega
        have : shiftUid c u = 0 := by
          subst hv; unfold shiftUid; rw [if_neg (by decide), h0]; simp
        rw [h, this, hv]; exact zero hv h0
    · rw [h1, h2]; exact zero h2 h3

end Casync.Meta
