import Verif.Spec.Seek
/-!
The components of a path, and how the decoder takes them one by one.
-/
namespace Casync.Archive
open Casync Flags

theorem splitSlash_ne (p : Bytes) : splitSlash p ≠ [] := by
  cases p with
  | nil => simp [splitSlash]
  | cons c cs =>
    unfold splitSlash
    split
    · simp
    · split <;> simp

theorem components_nil : components [] = [] := by simp [components, splitSlash]

theorem components_slash (p : Bytes) : components (47 :: p) = components p := by
  unfold components
  rw [splitSlash, if_pos rfl]
  simp

theorem components_dropSlash : ∀ p : Bytes, components (p.dropWhile (· == 47)) = components p
  | [] => rfl
  | c :: p => by
    rw [List.dropWhile_cons]
    by_cases h : c = 47
    · subst h
      rw [if_pos (by rfl), components_slash]
      exact components_dropSlash p
    · rw [if_neg (by simpa using h)]

/-- A component up to the next "/". -/
theorem splitSlash_name : ∀ (c : Bytes), (47 : UInt8) ∉ c → ∀ r, splitSlash (c ++ 47 :: r) = c :: splitSlash r
  | [], _, r => by simp [splitSlash]
  | a :: c, h, r => by
    have ha : a ≠ 47 := fun e => h (e ▸ List.mem_cons_self ..)
    rw [List.cons_append, splitSlash, if_neg ha, splitSlash_name c (fun m => h (List.mem_cons_of_mem _ m))]

theorem splitSlash_last : ∀ (c : Bytes), (47 : UInt8) ∉ c → splitSlash c = [c]
  | [], _ => rfl
  | a :: c, h => by
    have ha : a ≠ 47 := fun e => h (e ▸ List.mem_cons_self ..)
    rw [splitSlash, if_neg ha, splitSlash_last c (fun m => h (List.mem_cons_of_mem _ m))]

theorem components_name {c : Bytes} (hc : c ≠ []) (h : (47 : UInt8) ∉ c) (r : Bytes) : components (c ++ 47 :: r) = c :: components r := by
  unfold components
  rw [splitSlash_name c h, List.filter_cons_of_pos (by simpa using hc)]

theorem components_last {c : Bytes} (hc : c ≠ []) (h : (47 : UInt8) ∉ c) : components c = [c] := by
  unfold components
  rw [splitSlash_last c h, List.filter_cons_of_pos (by simpa using hc)]
  rfl

theorem takeWhile_noSlash (p : Bytes) : (47 : UInt8) ∉ p.takeWhile (· != 47) := by
  intro h
  have := List.all_takeWhile (l := p) (p := fun x => x != 47)
  rw [List.all_eq_true] at this
  have := this _ h
  simp at this

/-- A path without leading "/" is a component and, if there is more, "/" and a rest. -/
theorem path_cases (p : Bytes) : p = p.takeWhile (· != 47) ∨ ∃ r, p = p.takeWhile (· != 47) ++ 47 :: r := by
  have h := List.takeWhile_append_dropWhile (p := fun x : UInt8 => x != 47) (l := p)
  cases hd : p.dropWhile (· != 47) with
  | nil => left; rw [hd, List.append_nil] at h; exact h.symm
  | cons a r =>
    right
    have ha : (p.dropWhile (· != 47)).head? = some a := by rw [hd]; rfl
    have := List.head?_dropWhile_not (p := fun x : UInt8 => x != 47) p
    rw [ha] at this
    have h47 : a = 47 := by simpa using this
    rw [hd, h47] at h
    exact ⟨r, h.symm⟩

theorem getComponent_components (p : Bytes) : components p = (match getComponent p with | (none, _) => [] | (some c, r) => c :: components r) := by
  rw [← components_dropSlash p]
  unfold getComponent
  simp only
  generalize hq : p.dropWhile (· == 47) = u
  have hh : u.head? ≠ some 47 := by
    have := List.head?_dropWhile_not (p := fun x : UInt8 => x == 47) p
    rw [hq] at this
    intro h
    rw [h] at this
    simp at this
  have hn := takeWhile_noSlash u
  generalize ht : u.takeWhile (· != 47) = c at hn ⊢
  by_cases hc : c = []
  · rw [if_pos hc]
    simp only
    cases u with
    | nil => exact components_nil
    | cons a u =>
      rw [List.takeWhile_cons] at ht
      have ha : a ≠ 47 := by intro e; subst e; simp at hh
      rw [if_pos (by simpa using ha)] at ht
      rw [hc] at ht; cases ht
  · rw [if_neg hc]
    simp only
    rw [components_dropSlash]
    rcases path_cases u with h | ⟨r, h⟩
    · rw [ht] at h
      subst h
      rw [List.drop_length, components_last hc hn, components_nil]
    · rw [ht] at h
      subst h
      rw [List.drop_left, components_name hc hn, components_slash]

theorem getComponent_none {p r : Bytes} (h : getComponent p = (none, r)) : components p = [] := by rw [getComponent_components, h]

theorem getComponent_some {p c r : Bytes} (h : getComponent p = (some c, r)) : components p = c :: components r := by rw [getComponent_components, h]

theorem prefix_self {c r : Bytes} : c.isPrefixOf (c ++ r) = true := by rw [List.isPrefixOf_iff_prefix]; exact List.prefix_append ..

theorem dropSlash_nil {r : Bytes} (h : r.dropWhile (· == 47) = []) : components r = [] := by rw [← components_dropSlash, h]; exact components_nil

theorem components_ne_nil {r : Bytes} (h : r.dropWhile (· == 47) ≠ []) : components r ≠ [] := by
  rw [getComponent_components]
  unfold getComponent
  simp only
  generalize hq : r.dropWhile (· == 47) = u at h
  have hh : u.head? ≠ some 47 := by
    have := List.head?_dropWhile_not (p := fun x : UInt8 => x == 47) r
    rw [hq] at this
    intro h
    rw [h] at this
    simp at this
  cases u with
  | nil => exact absurd rfl h
  | cons a u =>
    have ha : a ≠ 47 := by intro e; subst e; simp at hh
    rw [if_neg]
    · simp
    · rw [List.takeWhile_cons, if_pos (by simpa using ha)]; simp

/-- What the comparison of a path with a name says. -/
theorem matchComponent_spec {p c : Bytes} {rest : List Bytes} (h : components p = c :: rest) {name : Bytes} (hn : (47 : UInt8) ∉ name) (hne : name ≠ []) :
    (matchComponent p name = .no ∧ name ≠ c) ∨ (matchComponent p name = .final ∧ name = c ∧ rest = []) ∨
    (matchComponent p name = .more ∧ name = c ∧ rest ≠ []) := by
  rw [← components_dropSlash] at h
  unfold matchComponent
  simp only
  generalize hq : p.dropWhile (· == 47) = u at h
  have hh : u.head? ≠ some 47 := by
    have := List.head?_dropWhile_not (p := fun x : UInt8 => x == 47) p
    rw [hq] at this
    intro h
    rw [h] at this
    simp at this
  by_cases hp : name.isPrefixOf u = true
  · rw [if_neg (by rw [hp]; simp)]
    obtain ⟨w, hw⟩ := List.isPrefixOf_iff_prefix.1 hp
    subst hw
    rw [List.drop_left]
    cases w with
    | nil =>
      rw [List.append_nil, components_last hne hn] at h
      injection h with h1 h2
      exact .inr (.inl ⟨rfl, h1, h2.symm⟩)
    | cons a w =>
      simp only
      by_cases ha : a = 47
      · subst ha
        rw [components_name hne hn] at h
        injection h with h1 h2
        rw [if_neg (by simp)]
        by_cases hw : w.dropWhile (· == 47) = []
        · rw [if_pos hw]
          exact .inr (.inl ⟨rfl, h1, by rw [← h2]; exact dropSlash_nil hw⟩)
        · rw [if_neg hw]
          exact .inr (.inr ⟨rfl, h1, by rw [← h2]; exact components_ne_nil hw⟩)
      · rw [if_pos ha]
        refine .inl ⟨rfl, ?_⟩
        intro e
        subst e
        have htw : (name ++ a :: w).takeWhile (· != 47) = name ++ (a :: w).takeWhile (· != 47) := by
          rw [List.takeWhile_append_of_pos]
          intro x hx
          have : x ≠ 47 := fun e => hn (e ▸ hx)
          simpa using this
        have hc := takeWhile_noSlash (name ++ a :: w)
        have hlen : ((name ++ a :: w).takeWhile (· != 47)).length > name.length := by
          rw [htw, List.takeWhile_cons, if_pos (by simpa using ha)]
          simp
        rcases path_cases (name ++ a :: w) with h' | ⟨r, h'⟩
        · rw [h', components_last (by intro e; rw [e] at hlen; simp at hlen) hc] at h
          injection h with h1 _
          rw [h1] at hlen; omega
        · rw [h', components_name (by intro e; rw [e] at hlen; simp at hlen) hc] at h
          injection h with h1 _
          rw [h1] at hlen; omega
  · rw [if_pos (by rw [Bool.eq_false_iff.2 hp]; rfl)]
    refine .inl ⟨rfl, ?_⟩
    intro e
    subst e
    apply hp
    have hc := takeWhile_noSlash u
    have hne' : u.takeWhile (· != 47) ≠ [] := by
      cases u with
      | nil => rw [components_nil] at h; cases h
      | cons a u =>
        have ha : a ≠ 47 := by intro e; subst e; simp at hh
        rw [List.takeWhile_cons, if_pos (by simpa using ha)]; simp
    rcases path_cases u with h' | ⟨r, h'⟩
    · rw [h', components_last hne' hc] at h
      injection h with h1 _
      rw [h', h1, List.isPrefixOf_iff_prefix]
      exact List.prefix_rfl
    · rw [h', components_name hne' hc] at h
      injection h with h1 _
      rw [h', h1]
      exact prefix_self

/-- Open nodes that are used again lie on the path, and it is known where they end. -/
theorem reuse_spec : ∀ (l : List (DNode × NX)) (p : Bytes), (reuse l p).1 ≤ l.length ∧ (∀ y ∈ l.take (reuse l p).1, y.2.endOff.isSome = true) ∧
    ∃ names : List Bytes, (l.take (reuse l p).1).map (fun y => y.1.name) = names.map some ∧ names ++ components (reuse l p).2 = components p
  | [], p => by simp only [reuse]; exact ⟨Nat.zero_le _, (fun _ h => nomatch h), [], rfl, rfl⟩
  | (n, x) :: l, p => by
    unfold reuse
    cases hg : getComponent p with
    | mk o r =>
      cases o with
      | none => exact ⟨Nat.zero_le _, (fun _ h => nomatch h), [], rfl, rfl⟩
      | some c =>
        simp only
        by_cases hm : n.name = some c ∧ x.endOff.isSome = true
        · rw [if_pos hm]
          obtain ⟨h1, h4, names, h2, h3⟩ := reuse_spec l r
          refine ⟨by simp only [List.length_cons]; omega, ?_, c :: names, ?_, ?_⟩
          · intro y hy
            rw [List.take_succ_cons] at hy
            rcases List.mem_cons.1 hy with hy | hy
            · rw [hy]; exact hm.2
            · exact h4 y hy
          · simp only [List.take_succ_cons, List.map_cons, h2, hm.1]
          · rw [List.cons_append, h3, getComponent_some hg]
        · rw [if_neg hm]
          exact ⟨Nat.zero_le _, (fun _ h => nomatch h), [], rfl, rfl⟩

/-- A path in writing. -/
theorem components_pathString : ∀ l : List Bytes, (∀ c ∈ l, c ≠ [] ∧ (47 : UInt8) ∉ c) → components (pathString l) = l
  | [], _ => by unfold pathString; exact components_nil
  | [a], h => by
    unfold pathString
    exact components_last (h a (List.mem_cons_self ..)).1 (h a (List.mem_cons_self ..)).2
  | a :: b :: r, h => by
    unfold pathString
    rw [components_name (h a (List.mem_cons_self ..)).1 (h a (List.mem_cons_self ..)).2, components_pathString (b :: r) (fun c hc => h c (List.mem_cons_of_mem _ hc))]

end Casync.Archive
