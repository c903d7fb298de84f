import Verif.Lemmas.ArchiveEntry
/-!
The remaining optional records, and the records of an object as a whole.
-/
namespace Casync.Archive
open Casync Flags

theorem strLt_irrefl : ∀ x : Bytes, strLt x x = false
  | [] => rfl
  | a :: x => by
    unfold strLt
    rw [if_neg (by simp), if_neg (by simp)]
    exact strLt_irrefl x

theorem AclBefore.lt {a b : AclEnt} (h : AclBefore a b) : aclLt a b = true := by
  unfold aclLt
  cases h with
  | id h => rw [if_pos h]
  | named h1 h2 h3 => rw [if_neg (by omega), if_neg (by omega), h2, h3]
  | name h1 h2 h3 h4 => rw [if_neg (by omega), if_neg (by omega), h2, h3]; simp [h4]
  | perm h1 h2 h3 =>
    rw [if_neg (by omega), if_neg (by omega), h2]
    cases b.name with
    | none => simpa using h3
    | some x => simp only [strLt_irrefl]; simpa using h3

def aclBody (a : AclEnt) : Bytes := le64 a.id ++ le64 a.perm ++ (match a.name with | some n => n ++ [0] | none => [])

theorem aclBody_length (a : AclEnt) : (aclBody a).length = 16 + (match a.name with | some n => n.length + 1 | none => 0) := by
  unfold aclBody
  simp only [List.length_append, le64_length]
  cases a.name <;> simp

theorem aclBody_drop (a : AclEnt) : (aclBody a).drop 16 = (match a.name with | some n => n ++ [0] | none => []) := by
  unfold aclBody
  have : (le64 a.id ++ le64 a.perm).length = 16 := by simp only [List.length_append, le64_length]
  generalize (le64 a.id ++ le64 a.perm) = b at this
  rw [← this, List.drop_left]

theorem AclOK.read {ff : Word} {a : AclEnt} (h : AclOK ff a) : word 0 (aclBody a) = a.id ∧ word 1 (aclBody a) = a.perm ∧ readAcl (aclBody a) = a := by
  have h0 : word 0 (aclBody a) = a.id := by unfold aclBody; rw [List.append_assoc]; exact word_zero h.id.lt _
  have h1 : word 1 (aclBody a) = a.perm := by
    unfold aclBody; rw [List.append_assoc]; refine word_one ?_ _; have := h.perm; omega
  refine ⟨h0, h1, ?_⟩
  unfold readAcl
  rw [h0, h1, aclBody_length, aclBody_drop]
  obtain ⟨i, p, n⟩ := a
  cases n with
  | none => rfl
  | some n => simp

theorem AclOK.valid {ff : Word} {a : AclEnt} (h : AclOK ff a) : validateAcl ff (aclBody a) = true := by
  unfold validateAcl
  rw [if_neg (by rw [aclBody_length]; omega), if_neg (by rw [h.flag]; simp), if_neg, h.read.1, h.read.2.1, if_neg (by rw [h.id.valid]; simp)]
  · unfold validatePerm; have := h.perm; simp; omega
  · rw [aclBody_length, aclBody_drop]
    cases hn : a.name with
    | none => simp
    | some n => simp [(h.name n hn).1, (h.name n hn).2.valid]

theorem AclOK.size {ff : Word} {a : AclEnt} (h : AclOK ff a) : (aclBody a).length ≤ 272 := by
  rw [aclBody_length]
  cases hn : a.name with
  | none => simp
  | some n => have := (h.name n hn).2.len; simp only; omega

theorem aclBytes_eq (r : RType) (a : AclEnt) : aclBytes r a = record r (aclBody a) := rfl

theorem parse_acls (r : RType) (d : FF) (e : Entry) (mk : List AclEnt → Attrs) (he : ends r = false)
    (hpre : ∀ acc l, l ≤ 288 → pre r { entry := some e, attrs := mk acc } l = true)
    (hacc : ∀ acc body, validateAcl d.ff body = true → aclOrder acc (readAcl body) = true →
      accept r d { entry := some e, attrs := mk acc } body = .ok (d, { entry := some e, attrs := mk (acc ++ [readAcl body]) }))
    (l : List AclEnt) (acc : List AclEnt) (off : Nat) (x : Bytes) (hl : ∀ a ∈ l, AclOK d.ff a) (hs : (acc ++ l).Pairwise AclBefore) :
    parseLoop d { entry := some e, attrs := mk acc } off (l.flatMap (aclBytes r) ++ x) =
      parseLoop d { entry := some e, attrs := mk (acc ++ l) } (off + (l.flatMap (aclBytes r)).length) x := by
  induction l generalizing acc off with
  | nil => simp
  | cons a l ih =>
    have ha := hl a List.mem_cons_self
    have hsz := ha.size
    have hmax : u64max = 2 ^ 64 - 1 := by decide
    rw [List.flatMap_cons, List.append_assoc, aclBytes_eq]
    have hst : accept r d { entry := some e, attrs := mk acc } (aclBody a) = .ok (d, { entry := some e, attrs := mk (acc ++ [a]) }) := by
      have := hacc acc (aclBody a) ha.valid (by
        rw [ha.read.2.2]
        unfold aclOrder
        cases hg : acc.getLast? with
        | none => rfl
        | some z => exact ((List.pairwise_append.1 hs).2.2 z (List.mem_of_getLast? hg) a List.mem_cons_self).lt)
      rw [ha.read.2.2] at this
      exact this
    rw [parseLoop_record off _ (by omega) he (hpre _ _ (by omega)) hst, ih (acc ++ [a]) _ (fun z hz => hl z (List.mem_cons_of_mem _ hz))
      (by rw [List.append_assoc]; exact hs)]
    rw [List.append_assoc, List.length_append, Nat.add_assoc]
    rfl

/-- An optional record. -/
theorem parse_opt {α : Type} (r : RType) (d : FF) (e : Entry) (a0 a1 : Attrs) (f : α → Bytes) (g : α → Bytes) (o : Option α) (he : ends r = false)
    (hg : ∀ q, g q = record r (f q))
    (h0 : o = none → a0 = a1) (h1 : ∀ q, o = some q → 16 + (f q).length ≤ 70000 ∧ pre r { entry := some e, attrs := a0 } (16 + (f q).length) = true ∧
      accept r d { entry := some e, attrs := a0 } (f q) = .ok (d, { entry := some e, attrs := a1 })) (off : Nat) (x : Bytes) :
    parseLoop d { entry := some e, attrs := a0 } off (optBytes g o ++ x) =
      parseLoop d { entry := some e, attrs := a1 } (off + (optBytes g o).length) x := by
  have hmax : u64max = 2 ^ 64 - 1 := by decide
  cases o with
  | none => have := h0 rfl; subst this; rfl
  | some b =>
    obtain ⟨h1, h2, h3⟩ := h1 b rfl
    unfold optBytes
    simp only [hg]
    exact parseLoop_record off x (by omega) he h2 h3

theorem word0_le64 {q : Nat} (h : q < 2 ^ 64) : word 0 (le64 q) = q := by
  have := word_zero h []
  rwa [List.append_nil] at this

theorem aclDefBody_length (d : AclDef) : (aclDefBody d).length = 32 := by unfold aclDefBody; simp only [List.length_append, le64_length]

theorem readAclDef_body {d : AclDef} (h : d.user < 8 ∧ d.group < 8 ∧ d.other < 8 ∧ (d.mask = u64max ∨ d.mask < 8)) : readAclDef (aclDefBody d) = d := by
  have hmax : u64max = 2 ^ 64 - 1 := by decide
  obtain ⟨h1, h2, h3, h4⟩ := h
  unfold readAclDef aclDefBody
  have e0 : le64 d.mask = le64 d.mask ++ [] := (List.append_nil _).symm
  rw [e0, word_zero (by omega), word_one (by omega), word_succ, word_one (by omega), word_succ, word_succ, word_one (by omega)]

theorem parse_attrs {d : FF} {e : Entry} {a : Attrs} (h : AttrsOK d.ff e a) (off : Nat) (x : Bytes) :
    parseLoop d { entry := some e } off (attrsBytes a ++ x) = parseLoop d { entry := some e, attrs := a } (off + (attrsBytes a).length) x := by
  obtain ⟨user, group, xattrs, aclUser, aclGroup, groupObj, aclDefault, defUser, defGroup, selinux, fcaps, quota⟩ := a
  unfold attrsBytes
  simp only [List.append_assoc, List.length_append]
  simp only [← Nat.add_assoc]
  rw [parse_user h.user, parse_group h.group]
  rw [parse_xattrs _ _ xattrs [] h.xattrFlag h.xattrs h.xattrOrder]
  rw [List.nil_append]
  have e1 := parse_acls .aclUser d e (fun l => { user := user, group := group, xattrs := xattrs, aclUser := l }) rfl
    (by intro acc l hl; simp [pre, hl]) (by intro acc body h1 h2; simp [accept, h1, h2]) aclUser []
  rw [e1 _ _ h.aclUser h.aclUserOrder, List.nil_append]
  have e2 := parse_acls .aclGroup d e (fun l => { user := user, group := group, xattrs := xattrs, aclUser := aclUser, aclGroup := l }) rfl
    (by intro acc l hl; simp [pre, hl]) (by intro acc body h1 h2; simp [accept, h1, h2]) aclGroup []
  rw [e2 _ _ h.aclGroup h.aclGroupOrder, List.nil_append]
  have e3 := parse_opt .aclGroupObj d e { user := user, group := group, xattrs := xattrs, aclUser := aclUser, aclGroup := aclGroup }
    { user := user, group := group, xattrs := xattrs, aclUser := aclUser, aclGroup := aclGroup, groupObj := groupObj } le64 _ groupObj rfl (fun _ => rfl)
    (by rintro rfl; rfl) (by
      rintro p rfl
      obtain ⟨h1, h2⟩ := h.groupObj p rfl
      refine ⟨by rw [le64_length]; omega, by simp [pre, le64_length], ?_⟩
      simp only [accept, validateGroupObj, word0_le64 (show p < 2 ^ 64 by omega), h1]
      simp [validatePerm]
      omega)
  rw [e3]
  have e4 := parse_opt .aclDefault d e { user := user, group := group, xattrs := xattrs, aclUser := aclUser, aclGroup := aclGroup, groupObj := groupObj }
    { user := user, group := group, xattrs := xattrs, aclUser := aclUser, aclGroup := aclGroup, groupObj := groupObj, aclDefault := aclDefault }
    aclDefBody _ aclDefault rfl (fun _ => rfl)
    (by rintro rfl; rfl) (by
      rintro p rfl
      obtain ⟨h1, h2⟩ := h.aclDefault p rfl
      refine ⟨by rw [aclDefBody_length]; omega, by simp [pre, aclDefBody_length], ?_⟩
      simp only [accept, readAclDef_body h2, validateAclDef, h1]
      obtain ⟨h2, h3, h4, h5⟩ := h2
      simp [validatePerm]
      omega)
  rw [e4]
  have e5 := parse_acls .aclDefaultUser d e (fun l => { user := user, group := group, xattrs := xattrs, aclUser := aclUser, aclGroup := aclGroup, groupObj := groupObj, aclDefault := aclDefault, defUser := l }) rfl
    (by intro acc l hl; simp [pre, hl]) (by intro acc body h1 h2; simp [accept, h1, h2]) defUser []
  rw [e5 _ _ h.defUser h.defUserOrder, List.nil_append]
  have e6 := parse_acls .aclDefaultGroup d e (fun l => { user := user, group := group, xattrs := xattrs, aclUser := aclUser, aclGroup := aclGroup, groupObj := groupObj, aclDefault := aclDefault, defUser := defUser, defGroup := l }) rfl
    (by intro acc l hl; simp [pre, hl]) (by intro acc body h1 h2; simp [accept, h1, h2]) defGroup []
  rw [e6 _ _ h.defGroup h.defGroupOrder, List.nil_append]
  have e7 := parse_opt .selinux d e { user := user, group := group, xattrs := xattrs, aclUser := aclUser, aclGroup := aclGroup, groupObj := groupObj, aclDefault := aclDefault, defUser := defUser, defGroup := defGroup }
    { user := user, group := group, xattrs := xattrs, aclUser := aclUser, aclGroup := aclGroup, groupObj := groupObj, aclDefault := aclDefault, defUser := defUser, defGroup := defGroup, selinux := selinux }
    (fun s => s ++ [0]) (strRecord .selinux) selinux rfl (fun _ => rfl)
    (by rintro rfl; rfl) (by
      rintro p rfl
      obtain ⟨h1, h2, h3, h4⟩ := h.selinux p rfl
      have hp := List.length_pos_iff.2 h2
      refine ⟨by rw [List.length_append]; simp; omega, by simp [pre]; omega, ?_⟩
      have hv : validateSelinux d.ff (p ++ [0]) = true := by
        unfold validateSelinux
        rw [if_neg (by rw [List.length_append]; simp; omega), if_neg (by rw [h1]; simp), if_neg (by rw [getLast_append]; simp), List.dropLast_concat,
          any_false_iff.2]
        · rfl
        · intro c hc
          have : c ≠ 0 := fun e => h3 (e ▸ hc)
          simpa using this
      simp only [accept, hv, List.dropLast_concat]
      simp)
  rw [e7]
  have e8 := parse_opt .fcaps d e { user := user, group := group, xattrs := xattrs, aclUser := aclUser, aclGroup := aclGroup, groupObj := groupObj, aclDefault := aclDefault, defUser := defUser, defGroup := defGroup, selinux := selinux }
    { user := user, group := group, xattrs := xattrs, aclUser := aclUser, aclGroup := aclGroup, groupObj := groupObj, aclDefault := aclDefault, defUser := defUser, defGroup := defGroup, selinux := selinux, fcaps := fcaps }
    id (record .fcaps) fcaps rfl (fun _ => rfl)
    (by rintro rfl; rfl) (by
      rintro p rfl
      obtain ⟨h1, h2⟩ := h.fcaps p rfl
      refine ⟨by simp; omega, by simp [pre]; omega, ?_⟩
      simp [accept])
  rw [e8]
  have e9 := parse_opt .quotaProjid d e { user := user, group := group, xattrs := xattrs, aclUser := aclUser, aclGroup := aclGroup, groupObj := groupObj, aclDefault := aclDefault, defUser := defUser, defGroup := defGroup, selinux := selinux, fcaps := fcaps }
    { user := user, group := group, xattrs := xattrs, aclUser := aclUser, aclGroup := aclGroup, groupObj := groupObj, aclDefault := aclDefault, defUser := defUser, defGroup := defGroup, selinux := selinux, fcaps := fcaps, quota := quota }
    le64 _ quota rfl (fun _ => rfl)
    (by rintro rfl; rfl) (by
      rintro p rfl
      obtain ⟨h1, h2, h3⟩ := h.quota p rfl
      refine ⟨by rw [le64_length]; omega, by simp [pre, le64_length], ?_⟩
      simp only [accept, validateQuota, word0_le64 (show p < 2 ^ 64 by omega)]
      simp
      omega)
  rw [e9]

end Casync.Archive
