import Verif.Spec.Meta
import Verif.Lemmas.ArchiveAttrs
/-!
The orders the encoder sorts by.
-/
namespace Casync.Archive
open Casync Flags

theorem strLt_trans : ∀ {a b c : Bytes}, strLt a b = true → strLt b c = true → strLt a c = true
  | [], [], _, h, _ => by simp [strLt] at h
  | [], _ :: _, [], _, h => by simp [strLt] at h
  | [], _ :: _, _ :: _, _, _ => by simp [strLt]
  | _ :: _, [], _, h, _ => by simp [strLt] at h
  | _ :: _, _ :: _, [], _, h => by simp [strLt] at h
  | x :: a, y :: b, z :: c, h1, h2 => by
    unfold strLt at h1 h2 ⊢
    by_cases hxy : x < y
    · by_cases hyz : y < z
      · rw [if_pos (UInt8.lt_trans hxy hyz)]
      · rw [if_neg hyz] at h2
        by_cases hzy : z < y
        · rw [if_pos hzy] at h2; cases h2
        · have : y = z := UInt8.le_antisymm (UInt8.not_lt.mp hzy) (UInt8.not_lt.mp hyz)
          rw [if_pos (this ▸ hxy)]
    · rw [if_neg hxy] at h1
      by_cases hyx : y < x
      · rw [if_pos hyx] at h1; cases h1
      · rw [if_neg hyx] at h1
        have he : x = y := UInt8.le_antisymm (UInt8.not_lt.mp hyx) (UInt8.not_lt.mp hxy)
        subst he
        by_cases hyz : x < z
        · rw [if_pos hyz]
        · rw [if_neg hyz] at h2 ⊢
          by_cases hzy : z < x
          · rw [if_pos hzy] at h2; cases h2
          · rw [if_neg hzy] at h2 ⊢
            exact strLt_trans h1 h2

theorem strLt_tri : ∀ {a b : Bytes}, strLt a b = false → strLt b a = false → a = b
  | [], [], _, _ => rfl
  | [], _ :: _, h, _ => by simp [strLt] at h
  | _ :: _, [], _, h => by simp [strLt] at h
  | x :: a, y :: b, h1, h2 => by
    unfold strLt at h1 h2
    by_cases hxy : x < y
    · rw [if_pos hxy] at h1; cases h1
    · rw [if_neg hxy] at h1 h2
      by_cases hyx : y < x
      · rw [if_pos hyx] at h2; cases h2
      · rw [if_neg hyx] at h1 h2
        have he : x = y := UInt8.le_antisymm (UInt8.not_lt.mp hyx) (UInt8.not_lt.mp hxy)
        subst he
        rw [strLt_tri h1 h2]

theorem strLt_asymm {a b : Bytes} (h : strLt a b = true) : strLt b a = false := by
  cases hb : strLt b a
  · rfl
  · have := strLt_trans h hb; rw [strLt_irrefl] at this; exact this.symm ▸ rfl

/-- The order of ACL entries is the one of the specification. -/
theorem aclLt_before {a b : AclEnt} (h : aclLt a b = true) : AclBefore a b := by
  unfold aclLt at h
  by_cases h1 : a.id < b.id
  · exact .id h1
  rw [if_neg h1] at h
  by_cases h2 : a.id > b.id
  · rw [if_pos h2] at h; cases h
  rw [if_neg h2] at h
  have hi : a.id = b.id := by omega
  cases ha : a.name with
  | none =>
    cases hb : b.name with
    | none => rw [ha, hb] at h; exact .perm hi (ha.trans hb.symm) (by simpa using h)
    | some y => exact .named hi ha hb
  | some x =>
    cases hb : b.name with
    | none => rw [ha, hb] at h; cases h
    | some y =>
      rw [ha, hb] at h
      simp only at h
      cases hxy : strLt x y with
      | true => exact .name hi ha hb hxy
      | false =>
        rw [hxy] at h
        simp only [Bool.false_eq_true, if_false] at h
        cases hyx : strLt y x with
        | true => rw [hyx] at h; simp at h
        | false =>
          rw [hyx] at h
          exact .perm hi (by rw [ha, hb, strLt_tri hxy hyx]) (by simpa using h)

theorem aclLt_iff {a b : AclEnt} : aclLt a b = true ↔ AclBefore a b := ⟨aclLt_before, AclBefore.lt⟩

theorem AclBefore.trans {a b c : AclEnt} (h1 : AclBefore a b) (h2 : AclBefore b c) : AclBefore a c := by
  cases h1 with
  | id g1 =>
    cases h2 with
    | id g2 => exact .id (by omega)
    | named g2 _ _ => exact .id (by omega)
    | name g2 _ _ _ => exact .id (by omega)
    | perm g2 _ _ => exact .id (by omega)
  | named g1 n1 m1 =>
    cases h2 with
    | id g2 => exact .id (by omega)
    | named g2 n2 _ => rw [m1] at n2; cases n2
    | name g2 n2 m2 _ => exact .named (by omega) n1 m2
    | perm g2 n2 _ => exact .named (by omega) n1 (n2 ▸ m1)
  | name g1 n1 m1 s1 =>
    cases h2 with
    | id g2 => exact .id (by omega)
    | named g2 n2 _ => rw [m1] at n2; cases n2
    | name g2 n2 m2 s2 => rw [m1] at n2; cases n2; exact .name (by omega) n1 m2 (strLt_trans s1 s2)
    | perm g2 n2 _ => exact .name (by omega) n1 (n2 ▸ m1) s1
  | perm g1 n1 p1 =>
    cases h2 with
    | id g2 => exact .id (by omega)
    | named g2 n2 m2 => exact .named (by omega) (n1.trans n2) m2
    | name g2 n2 m2 s2 => exact .name (by omega) (n1.trans n2) m2 s2
    | perm g2 n2 p2 => exact .perm (by omega) (n1.trans n2) (by omega)

theorem AclBefore.tri (a b : AclEnt) : AclBefore a b ∨ a = b ∨ AclBefore b a := by
  rcases Nat.lt_trichotomy a.id b.id with h | h | h
  · exact .inl (.id h)
  · cases ha : a.name with
    | none =>
      cases hb : b.name with
      | none =>
        rcases Nat.lt_trichotomy a.perm b.perm with g | g | g
        · exact .inl (.perm h (ha.trans hb.symm) g)
        · exact .inr (.inl (by cases a; cases b; simp_all))
        · exact .inr (.inr (.perm h.symm (hb.trans ha.symm) g))
      | some y => exact .inl (.named h ha hb)
    | some x =>
      cases hb : b.name with
      | none => exact .inr (.inr (.named h.symm hb ha))
      | some y =>
        cases hxy : strLt x y with
        | true => exact .inl (.name h ha hb hxy)
        | false =>
          cases hyx : strLt y x with
          | true => exact .inr (.inr (.name h.symm hb ha hyx))
          | false =>
            have he := strLt_tri hxy hyx
            rcases Nat.lt_trichotomy a.perm b.perm with g | g | g
            · exact .inl (.perm h (by rw [ha, hb, he]) g)
            · exact .inr (.inl (by cases a; cases b; simp_all))
            · exact .inr (.inr (.perm h.symm (by rw [ha, hb, he]) g))
  · exact .inr (.inr (.id h))

theorem AclBefore.irrefl (a : AclEnt) : ¬ AclBefore a a := by
  intro h
  cases h with
  | id g => omega
  | named _ n m => rw [n] at m; cases m
  | name _ n m s => rw [n] at m; cases m; rw [strLt_irrefl] at s; cases s
  | perm _ _ g => omega

end Casync.Archive

namespace Casync.Meta
open Casync Flags Archive

theorem aclLe_trans (a b c : AclEnt) (h1 : aclLe a b = true) (h2 : aclLe b c = true) : aclLe a c = true := by
  unfold aclLe at *
  simp only [Bool.not_eq_true', Bool.eq_false_iff, ne_eq, aclLt_iff] at *
  intro h
  rcases AclBefore.tri b a with g | g | g
  · exact h1 g
  · subst g; exact h2 h
  · exact h2 (h.trans g)

theorem aclLe_total (a b : AclEnt) : (aclLe a b || aclLe b a) = true := by
  unfold aclLe
  rw [Bool.or_eq_true]
  simp only [Bool.not_eq_true', Bool.eq_false_iff, ne_eq, aclLt_iff]
  by_cases h : AclBefore b a
  · exact .inr (fun g => AclBefore.irrefl _ (h.trans g))
  · exact .inl h

theorem sortAcl_perm (l : List AclEnt) : (sortAcl l).Perm l := List.mergeSort_perm l aclLe

/-- Sorted entries are in strict order if no two are the same. -/
theorem sortAcl_strict {l : List AclEnt} (h : l.Nodup) : (sortAcl l).Pairwise AclBefore := by
  have h1 : (sortAcl l).Pairwise (fun a b => aclLe a b = true) := List.pairwise_mergeSort aclLe_trans aclLe_total l
  have h2 : (sortAcl l).Nodup := (sortAcl_perm l).nodup_iff.mpr h
  refine (h1.and h2).imp ?_
  rintro a b ⟨g, hne⟩
  rcases AclBefore.tri a b with t | t | t
  · exact t
  · exact absurd t hne
  · unfold aclLe at g; rw [t.lt] at g; simp at g

/-- There is only one way to put them into order. -/
theorem strict_unique {l m : List AclEnt} (hl : l.Pairwise AclBefore) (hm : m.Pairwise AclBefore) (h : ∀ x, x ∈ l ↔ x ∈ m) : l = m := by
  have nl : l.Nodup := hl.imp (@fun a b (h : AclBefore a b) (e : a = b) => AclBefore.irrefl _ (e ▸ h))
  have nm : m.Nodup := hm.imp (@fun a b (h : AclBefore a b) (e : a = b) => AclBefore.irrefl _ (e ▸ h))
  have hp : l.Perm m := (List.perm_ext_iff_of_nodup nl nm).mpr h
  exact hp.eq_of_pairwise (fun a b _ _ g1 g2 => absurd (g1.trans g2) (AclBefore.irrefl _)) hl hm

theorem xattrLe_trans (a b c : Bytes × Bytes) (h1 : xattrLe a b = true) (h2 : xattrLe b c = true) : xattrLe a c = true := by
  unfold xattrLe at *
  simp only [Bool.not_eq_true', Bool.eq_false_iff, ne_eq] at *
  intro h
  cases g : strLt b.1 a.1 with
  | true => exact h1 g
  | false =>
    cases g2 : strLt a.1 b.1 with
    | true => exact h2 (strLt_trans h g2)
    | false => rw [strLt_tri g g2] at h2; exact h2 h

theorem xattrLe_total (a b : Bytes × Bytes) : (xattrLe a b || xattrLe b a) = true := by
  unfold xattrLe
  cases h : strLt b.1 a.1 with
  | false => rfl
  | true => rw [strLt_asymm h]; rfl

theorem sortXattr_strict {l : List (Bytes × Bytes)} (h : (l.map (·.1)).Nodup) :
    (l.mergeSort xattrLe).Pairwise (fun x y => strLt x.1 y.1 = true) := by
  have h1 : (l.mergeSort xattrLe).Pairwise (fun a b => xattrLe a b = true) := List.pairwise_mergeSort xattrLe_trans xattrLe_total l
  have h2 : ((l.mergeSort xattrLe).map (·.1)).Nodup := ((List.mergeSort_perm l xattrLe).map _).nodup_iff.mpr h
  have h3 := List.pairwise_map.mp h2
  refine (h1.and h3).imp ?_
  rintro a b ⟨g, hne⟩
  cases t : strLt a.1 b.1 with
  | true => rfl
  | false =>
    unfold xattrLe at g
    simp only [Bool.not_eq_true'] at g
    exact absurd (strLt_tri t g) hne

theorem xattr_unique {l m : List (Bytes × Bytes)} (hl : l.Pairwise (fun x y => strLt x.1 y.1 = true)) (hm : m.Pairwise (fun x y => strLt x.1 y.1 = true))
    (h : ∀ x, x ∈ l ↔ x ∈ m) : l = m := by
  have nl : l.Nodup := hl.imp (fun h e => by rw [e, strLt_irrefl] at h; cases h)
  have nm : m.Nodup := hm.imp (fun h e => by rw [e, strLt_irrefl] at h; cases h)
  have hp : l.Perm m := (List.perm_ext_iff_of_nodup nl nm).mpr h
  exact hp.eq_of_pairwise (fun a b _ _ g1 g2 => by rw [strLt_asymm g1] at g2; cases g2) hl hm

end Casync.Meta
