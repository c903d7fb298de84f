import Verif.Model.Goodbye
/-! Lemmas about the implicit binary search tree. -/
namespace Casync.Goodbye
open Casync

/-- In-order list of the indexes below `N` in the subtree of index `i`. -/
def order (N i : Nat) : List Nat :=
  if i < N then order N (2 * i + 1) ++ i :: order N (2 * i + 2) else []
termination_by N - i

theorem order_lt {N i : Nat} (h : i < N) : order N i = order N (2 * i + 1) ++ i :: order N (2 * i + 2) := by
  rw [order, if_pos h]

theorem order_ge {N i : Nat} (h : N ≤ i) : order N i = [] := by
  rw [order, if_neg (by omega)]

/-- `j` is in the subtree of `i`. -/
def Desc (i j : Nat) : Prop := ∃ a, (j + 1) / 2 ^ a = i + 1

theorem desc_self (i : Nat) : Desc i i := ⟨0, by simp⟩

theorem desc_left {i j : Nat} (h : Desc (2 * i + 1) j) : Desc i j := by
  obtain ⟨a, h⟩ := h
  exact ⟨a + 1, by rw [Nat.pow_succ, ← Nat.div_div_eq_div_mul, h]; omega⟩

theorem desc_right {i j : Nat} (h : Desc (2 * i + 2) j) : Desc i j := by
  obtain ⟨a, h⟩ := h
  exact ⟨a + 1, by rw [Nat.pow_succ, ← Nat.div_div_eq_div_mul, h]; omega⟩

theorem desc_ge {i j : Nat} (h : Desc i j) : i ≤ j := by
  obtain ⟨a, h⟩ := h
  have := Nat.div_le_self (j + 1) (2 ^ a)
  omega

theorem desc_disjoint {i j : Nat} (h1 : Desc (2 * i + 1) j) (h2 : Desc (2 * i + 2) j) : False := by
  obtain ⟨a, h1⟩ := h1
  obtain ⟨b, h2⟩ := h2
  rcases Nat.lt_trichotomy a b with h | h | h
  · obtain ⟨c, rfl⟩ := Nat.exists_eq_add_of_lt h
    rw [show a + c + 1 = a + (c + 1) by omega, Nat.pow_add, ← Nat.div_div_eq_div_mul, h1] at h2
    have := Nat.div_le_self (2 * i + 1 + 1) (2 ^ (c + 1))
    omega
  · subst h; omega
  · obtain ⟨c, rfl⟩ := Nat.exists_eq_add_of_lt h
    rw [show b + c + 1 = b + (c + 1) by omega, Nat.pow_add, ← Nat.div_div_eq_div_mul, h2, Nat.pow_succ,
      Nat.mul_comm (2 ^ c) 2, ← Nat.div_div_eq_div_mul] at h1
    have := Nat.div_le_self ((2 * i + 2 + 1) / 2) (2 ^ c)
    omega

theorem order_desc {N i j : Nat} (h : j ∈ order N i) : Desc i j ∧ j < N := by
  rcases Nat.lt_or_ge i N with hi | hi
  · rw [order_lt hi, List.mem_append, List.mem_cons] at h
    rcases h with h | rfl | h
    · have := order_desc h; exact ⟨desc_left this.1, this.2⟩
    · exact ⟨desc_self _, hi⟩
    · have := order_desc h; exact ⟨desc_right this.1, this.2⟩
  · rw [order_ge hi] at h; cases h
termination_by N - i

theorem order_nodup (N i : Nat) : (order N i).Nodup := by
  rcases Nat.lt_or_ge i N with hi | hi
  · rw [order_lt hi]
    have h1 := order_nodup N (2 * i + 1)
    have h2 := order_nodup N (2 * i + 2)
    rw [List.nodup_append]
    refine ⟨h1, ?_, ?_⟩
    · rw [List.nodup_cons]
      refine ⟨fun hm => ?_, h2⟩
      have := desc_ge (order_desc hm).1
      omega
    · intro a ha b hb
      rw [List.mem_cons] at hb
      rintro rfl
      rcases hb with rfl | hb
      · have := desc_ge (order_desc ha).1; omega
      · exact desc_disjoint (order_desc ha).1 (order_desc hb).1
  · rw [order_ge hi]; exact List.nodup_nil
termination_by N - i

theorem order_closed {N i a c : Nat} (h : a ∈ order N i) (hc : c = 2 * a + 1 ∨ c = 2 * a + 2) (hcN : c < N) :
    c ∈ order N i := by
  rcases Nat.lt_or_ge i N with hi | hi
  · rw [order_lt hi, List.mem_append, List.mem_cons] at h ⊢
    rcases h with h | rfl | h
    · left; exact order_closed h hc hcN
    · rcases hc with rfl | rfl
      · left; rw [order_lt hcN]; simp
      · right; right; rw [order_lt hcN]; simp
    · right; right; exact order_closed h hc hcN
  · rw [order_ge hi] at h; cases h
termination_by N - i

theorem order_complete {N : Nat} (j : Nat) (h : j < N) : j ∈ order N 0 := by
  induction j using Nat.strongRecOn with
  | ind j ih =>
    rcases Nat.eq_zero_or_pos j with rfl | hj
    · rw [order_lt h]; simp
    · refine order_closed (a := (j - 1) / 2) (ih _ (by omega) (by omega)) (by omega) h

theorem order_perm (N : Nat) : (order N 0).Perm (List.range N) := by
  apply (List.perm_ext_iff_of_nodup (order_nodup N 0) List.nodup_range).2
  intro a
  rw [List.mem_range]
  exact ⟨fun h => (order_desc h).2, fun h => order_complete a h⟩

/-! ### the shape invariant -/

/-- Number of nodes of the subtree at index `i` with `e` levels left, in an array of `N` slots all of whose rows but
the last are full. -/
def cnt (N e i : Nat) : Nat :=
  match e with
  | 0 => 0
  | e + 1 => 2 ^ e - 1 + min (2 ^ e) (N + 1 - (i + 1) * 2 ^ e)

theorem cnt_split {N e i k : Nat} (hn : cnt N (e + 1) i ≠ 0) (hi : i < N ∨ e ≠ 0)
    (hk : k = if 2 ^ e - 1 + 2 ^ e / 2 ≤ cnt N (e + 1) i then (2 ^ (e + 1) - 2) / 2
      else (2 ^ (e + 1) - 2) / 2 - (2 ^ e - 1 + 2 ^ e / 2 - cnt N (e + 1) i)) :
    k = cnt N e (2 * i + 1) ∧ cnt N (e + 1) i - k - 1 = cnt N e (2 * i + 2) ∧ k < cnt N (e + 1) i := by
  cases e with
  | zero =>
    simp only [cnt] at *
    simp at hk hn hi ⊢
    subst hk
    refine ⟨?_, ?_⟩ <;> omega
  | succ e =>
    simp only [cnt, Nat.pow_succ] at *
    have hp : 0 < 2 ^ e := Nat.pow_pos (by omega)
    have e1 : (i + 1) * (2 ^ e * 2) = 2 * (i * 2 ^ e) + 2 * 2 ^ e := by grind
    have e2 : (2 * i + 1 + 1) * 2 ^ e = 2 * (i * 2 ^ e) + 2 * 2 ^ e := by grind
    have e3 : (2 * i + 2 + 1) * 2 ^ e = 2 * (i * 2 ^ e) + 3 * 2 ^ e := by grind
    simp only [e1] at hk hn ⊢
    rw [e2, e3]
    generalize 2 ^ e = x at *
    generalize i * x = y at *
    split at hk <;> subst hk <;> refine ⟨?_, ?_, ?_⟩ <;> omega

/-- `make_bst_inner` lays out the input in order in the subtree of `i`, and leaves the rest alone. -/
theorem makeBstInner_ok {α : Type} (N : Nat) : ∀ (e : Nat) (input : List α) (n : Nat) (out : List (Option α)) (i d : Nat),
    out.length = N → n = cnt N e i → n ≤ input.length → 2 ^ d ≤ i + 1 → i + 1 < 2 ^ (d + 1) →
    2 ^ (d + e) ≤ 2 * N + 1 → N < 2 ^ (d + e) →
    ∃ out', makeBstInner e input n out i = .ok out' ∧ out'.length = N ∧
      (∀ j, ¬ Desc i j → out'[j]? = out[j]?) ∧
      (order N i).map (fun j => out'[j]?) = (input.take n).map (fun x => some (some x)) := by
  intro e
  induction e with
  | zero =>
    intro input n out i d hl hn hle h1 h2 h3 h4
    simp only [cnt] at hn
    subst hn
    refine ⟨out, by unfold makeBstInner; simp, hl, fun _ _ => rfl, ?_⟩
    simp only [Nat.add_zero] at h4
    rw [order_ge (by omega)]; simp
  | succ e ih =>
    intro input n out i d hl hn hle h1 h2 h3 h4
    unfold makeBstInner
    have hpe : 0 < 2 ^ e := Nat.pow_pos (by omega)
    by_cases h0 : n = 0
    · -- only possible for a single level
      rw [if_pos h0]
      refine ⟨out, rfl, hl, fun _ _ => rfl, ?_⟩
      subst h0
      have : N ≤ i := by
        simp only [cnt] at hn
        have he : e = 0 := by
          rcases Nat.eq_zero_or_pos e with h | h
          · exact h
          · have : 2 ≤ 2 ^ e := by
              calc 2 = 2 ^ 1 := rfl
                _ ≤ 2 ^ e := Nat.pow_le_pow_right (by omega) h
            omega
        subst he; simp at hn; omega
      rw [order_ge this]; simp
    · rw [if_neg h0]
      have hiN : i < N := by
        rcases Nat.eq_zero_or_pos e with he | he
        · subst he; simp only [cnt] at hn; simp at hn; omega
        · -- upper rows are full
          have : 2 ^ (d + (e + 1)) = 2 * (2 ^ (d + 1) * 2 ^ (e - 1)) := by
            rw [← Nat.pow_add, Nat.mul_comm, ← Nat.pow_succ]; congr 1; omega
          have hp1 : 1 ≤ 2 ^ (e - 1) := Nat.pow_pos (by omega)
          have : 2 ^ (d + 1) * 1 ≤ 2 ^ (d + 1) * 2 ^ (e - 1) := Nat.mul_le_mul_left _ hp1
          omega
      subst hn
      obtain ⟨k1, k2, k3⟩ := cnt_split (N := N) (e := e) (i := i) h0 (Or.inl hiN) rfl
      simp only at *
      generalize hk : (if 2 ^ e - 1 + 2 ^ e / 2 ≤ cnt N (e + 1) i then (2 ^ (e + 1) - 2) / 2
        else (2 ^ (e + 1) - 2) / 2 - (2 ^ e - 1 + 2 ^ e / 2 - cnt N (e + 1) i)) = k at *
      have hklt : k < input.length := by omega
      rw [List.getElem?_eq_getElem hklt]
      simp only
      rw [if_pos (by omega)]
      have hpow : 2 ^ (d + 1 + e) = 2 ^ (d + (e + 1)) := by congr 1; omega
      have hd2 : 2 ^ (d + 1 + 1) = 2 * 2 ^ (d + 1) := by rw [Nat.pow_succ]; omega
      have hd1 : 2 ^ (d + 1) = 2 * 2 ^ d := by rw [Nat.pow_succ]; omega
      obtain ⟨o1, r1, l1, u1, v1⟩ := ih input k (out.set i (some input[k])) (i * 2 + 1) (d + 1)
        (by simpa using hl) (by rw [Nat.mul_comm i 2]; exact k1) (by omega) (by omega) (by omega)
        (by rw [hpow]; exact h3) (by rw [hpow]; exact h4)
      rw [r1, Res.bind_ok]
      obtain ⟨o2, r2, l2, u2, v2⟩ := ih (input.drop (k + 1)) (cnt N (e + 1) i - k - 1) o1 (i * 2 + 2) (d + 1)
        l1 (by rw [Nat.mul_comm i 2]; exact k2) (by rw [List.length_drop]; omega) (by omega) (by omega)
        (by rw [hpow]; exact h3) (by rw [hpow]; exact h4)
      rw [r2]
      rw [Nat.mul_comm i 2] at u1 v1 u2 v2
      refine ⟨o2, rfl, l2, ?_, ?_⟩
      · intro j hj
        rw [u2 j (fun h => hj (desc_right h)), u1 j (fun h => hj (desc_left h)), List.getElem?_set_ne]
        rintro rfl; exact hj (desc_self _)
      · rw [order_lt hiN, List.map_append, List.map_cons]
        have q1 : (order N (2 * i + 1)).map (fun j => o2[j]?) = (order N (2 * i + 1)).map (fun j => o1[j]?) := by
          apply List.map_congr_left
          intro j hj
          exact u2 j (fun h => desc_disjoint (order_desc hj).1 h)
        have q2 : o2[i]? = some (some input[k]) := by
          rw [u2 i (fun h => by have := desc_ge h; omega), u1 i (fun h => by have := desc_ge h; omega),
            List.getElem?_set_self (by omega)]
        rw [q1, v1, q2, v2]
        rw [← List.map_cons (f := fun x => some (some x)) (a := input[k]), ← List.map_append]
        congr 1
        have : cnt N (e + 1) i = k + 1 + (cnt N (e + 1) i - k - 1) := by omega
        rw [show input.take (cnt N (e + 1) i) = input.take (k + 1 + (cnt N (e + 1) i - k - 1)) from
          congrArg (fun m => input.take m) this, List.take_add, List.take_succ_eq_append_getElem hklt,
          List.append_assoc, List.singleton_append]

theorem cnt_root {N : Nat} (h : N ≠ 0) : cnt N (Nat.log2 N + 1) 0 = N := by
  simp only [cnt]
  have h1 := Nat.log2_self_le h
  have h2 := Nat.lt_log2_self (n := N)
  rw [Nat.pow_succ] at h2
  generalize 2 ^ N.log2 = x at *
  omega

theorem makeBst_ok {α : Type} (input : List α) (out : List (Option α)) (h : input.length ≠ 0)
    (hl : out.length = input.length) :
    ∃ out', makeBst input input.length out = .ok out' ∧ out'.length = input.length ∧
      (order input.length 0).map (fun j => out'[j]?) = input.map (fun x => some (some x)) := by
  unfold makeBst
  rw [if_neg h]
  have h1 := Nat.log2_self_le h
  have h2 := Nat.lt_log2_self (n := input.length)
  obtain ⟨out', r, l, -, v⟩ := makeBstInner_ok input.length (Nat.log2 input.length + 1) input input.length out 0 0
    hl (cnt_root h).symm (Nat.le_refl _) (by simp) (by simp) (by rw [Nat.zero_add, Nat.pow_succ]; omega)
    (by rw [Nat.zero_add]; exact h2)
  exact ⟨out', r, l, by rw [v, List.take_length]⟩

theorem allSet_ok {α : Type} : ∀ (out : List (Option α)), (∀ x ∈ out, x ≠ none) →
    ∃ l, allSet out = .ok l ∧ out = l.map some
  | [], _ => ⟨[], rfl, rfl⟩
  | none :: _, h => absurd rfl (h none (by simp))
  | some x :: t, h => by
    obtain ⟨l, h1, h2⟩ := allSet_ok t (fun y hy => h y (List.mem_cons_of_mem _ hy))
    exact ⟨x :: l, by simp [allSet, h1], by simp [h2]⟩

/-- The table built is in search tree order: reading it in order gives the sorted list. -/
theorem makeBst_table {α : Type} (input : List α) (h : input.length ≠ 0) :
    ∃ tbl : List α, (do let out ← makeBst input input.length (List.replicate input.length none); allSet out) = .ok tbl ∧
      tbl.length = input.length ∧ (order tbl.length 0).map (fun j => tbl[j]?) = input.map some := by
  obtain ⟨out', r, l, v⟩ := makeBst_ok input (List.replicate input.length none) h (by simp)
  have hset : ∀ x ∈ out', x ≠ none := by
    rintro x hx rfl
    obtain ⟨j, hj, hxj⟩ := List.getElem_of_mem hx
    have hm := order_complete (N := input.length) j (by omega)
    have : (some (none : Option α)) ∈ (order input.length 0).map (fun j => out'[j]?) :=
      List.mem_map.2 ⟨j, hm, by rw [List.getElem?_eq_getElem hj, hxj]⟩
    rw [v] at this
    obtain ⟨y, -, hy⟩ := List.mem_map.1 this
    exact absurd hy (by simp)
  obtain ⟨tbl, ha, hb⟩ := allSet_ok out' hset
  refine ⟨tbl, by rw [r, Res.bind_ok]; exact ha, by rw [← l, hb]; simp, ?_⟩
  subst hb
  have hlt : tbl.length = input.length := by simpa using l
  have : ((order input.length 0).map (fun j => (tbl.map some)[j]?)).map (fun x => x.bind id) =
      (input.map (fun x => some (some x))).map (fun x => x.bind id) := by rw [v]
  rw [List.map_map, List.map_map] at this
  rw [hlt]
  rw [show (input.map some) = input.map ((fun x => x.bind id) ∘ fun x => some (some x)) from
    List.map_congr_left fun x _ => rfl, ← this]
  apply List.map_congr_left
  intro j _
  simp only [Function.comp, List.getElem?_map]
  cases tbl[j]? <;> rfl

end Casync.Goodbye
