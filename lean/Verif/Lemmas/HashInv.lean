import Verif.Lemmas.HashResize
/-! The invariant of tables between operations. -/
set_option linter.unusedSectionVars false
namespace Casync.Hashmap
open Casync
variable {K V : Type} [DecidableEq K] [DecidableEq V]

/-- A table as every operation leaves it. -/
structure Inv (t : Table K V) : Prop where
  base : Base t
  nr : ∀ i, i < t.n → t.dibs i ≠ REHASH
  count : t.count = nOcc t
  stop : ∃ z, z < t.n ∧ Stop t z
  direct : t.indirect = false → t.n = t.kind.direct
  big : t.indirect = true → ∃ k, k < 32 ∧ t.n = 2 ^ k / (t.kind.entrySize + 1)

theorem Kind.size (k : Kind) : k.entrySize = 16 ∧ k.direct = 2 ∨ k.entrySize = 8 ∧ k.direct = 4 := by
  cases k
  · exact .inl ⟨rfl, by decide⟩
  · exact .inr ⟨rfl, by decide⟩

theorem Inv.count_le {t : Table K V} (h : Inv t) : t.count ≤ t.n := by rw [h.count]; exact cnt_le _ _

theorem new_inv (kind : Kind) (shared : K → Nat) : Inv (new kind shared : Table K V) ∧ ∀ e, ¬ Has (new kind shared : Table K V) e := by
  have hno : ∀ i, ¬ Occ (new kind shared : Table K V) i := fun i h => h rfl
  have hns : ∀ i, ¬ Settled (new kind shared : Table K V) i := fun i h => hno i h.occ
  have hd : 0 < kind.direct ∧ kind.direct < 10 := by rcases kind.size with ⟨_, h⟩ | ⟨_, h⟩ <;> omega
  refine ⟨⟨⟨hd.1, ?_, ?_, ?_, ?_, ?_⟩, ?_, ?_, ?_, ?_, ?_⟩, ?_⟩
  · show kind.direct < UINT_MAX; unfold UINT_MAX; omega
  · intro i _; exact .inl rfl
  · intro i _ h; exact absurd h (hns i)
  · intro i j _ _ h; exact absurd h (hno i)
  · intro h; cases h
  · intro i _ h; cases h
  · exact (cnt_none (fun i _ => decide_eq_false (hno i))).symm
  · exact ⟨0, hd.1, .inr rfl⟩
  · intro _; rfl
  · intro h; cases h
  · rintro e ⟨i, _, h, _⟩; exact hno i h

/-! ## Resizing -/

theorem log2u_le {x : Nat} (h : 0 < x) : x ≤ 2 ^ log2uRoundUp x := by
  unfold log2uRoundUp
  by_cases h1 : x = 1
  · subst h1; decide
  · rw [if_neg h1]
    have := Nat.lt_log2_self (n := x - 1)
    omega

theorem log2u_gt {x k : Nat} (h : 2 ^ k < x) : k < log2uRoundUp x := by
  apply Classical.byContradiction
  intro hn
  have h1 : 2 ^ log2uRoundUp x ≤ 2 ^ k := Nat.pow_le_pow_right (by decide) (by omega)
  have h2 := log2u_le (x := x) (by have := Nat.two_pow_pos k; omega)
  omega

theorem log2u_lt {x : Nat} (h0 : 0 < x) (h : x ≤ 2 ^ 31) : log2uRoundUp x < 32 := by
  unfold log2uRoundUp
  by_cases h1 : x = 1
  · rw [if_pos h1]; decide
  · rw [if_neg h1]
    have : Nat.log2 (x - 1) < 31 := (Nat.log2_lt (by omega)).2 (by omega)
    omega

/-- The sizes at which the table can be enlarged, or refuses to be: not those for which the storage would take more than 2^31 bytes but
fewer than 2^32. -/
def Sized (kind : Kind) (entries : Nat) : Prop :=
  (entries + entries / 4) * (kind.entrySize + 1) ≤ 2 ^ 31 ∨ UINT_MAX / (kind.entrySize + 1) < entries + entries / 4

/-- The number of entries leads to no allocation of more than 2 GiB. -/
def Fit (kind : Kind) (entries : Nat) : Prop := (entries + entries / 4) * (kind.entrySize + 1) ≤ 2 ^ 31

theorem Fit.small {kind : Kind} {n : Nat} (h : Fit kind n) : n + n / 4 ≤ UINT_MAX / (kind.entrySize + 1) ∧ n + n / 4 ≤ 2 ^ 31 := by
  unfold Fit at h
  have h1 : n + n / 4 ≤ 2 ^ 31 / (kind.entrySize + 1) := (Nat.le_div_iff_mul_le (by omega)).2 h
  have h2 : 2 ^ 31 / (kind.entrySize + 1) ≤ UINT_MAX / (kind.entrySize + 1) := Nat.div_le_div_right (by decide)
  have h3 := Nat.div_le_self (2 ^ 31) (kind.entrySize + 1)
  omega

/-- The table at the start of the rehashing. -/
def grown (t : Table K V) (n : Nat) (hash : K → Nat) : Table K V :=
  { t with indirect := true, n, lowest := if t.indirect then t.lowest else 0, hash, dibs := fun i => if i < t.n then (if t.dibs i = FREE then FREE else REHASH) else FREE, ents := fun i => if i < t.n then t.ents i else none }

theorem grown_occ {t : Table K V} {n : Nat} {hash : K → Nat} (i : Nat) : Occ (grown t n hash) i ↔ i < t.n ∧ Occ t i := by
  show (if i < t.n then (if t.dibs i = FREE then FREE else REHASH) else FREE) ≠ FREE ↔ _ ∧ t.dibs i ≠ FREE
  by_cases h : i < t.n
  · rw [if_pos h]
    by_cases h2 : t.dibs i = FREE
    · rw [if_pos h2]; exact ⟨fun x => absurd rfl x, fun x => absurd h2 x.2⟩
    · rw [if_neg h2]; exact ⟨fun _ => ⟨h, h2⟩, fun _ => by decide⟩
  · rw [if_neg h]; exact ⟨fun x => absurd rfl x, fun x => absurd x.1 h⟩

theorem grown_settled {t : Table K V} {n : Nat} {hash : K → Nat} (i : Nat) : ¬ Settled (grown t n hash) i := by
  show ¬ (if i < t.n then (if t.dibs i = FREE then FREE else REHASH) else FREE) < REHASH
  split
  · split <;> decide
  · decide

theorem grown_has {t : Table K V} {n : Nat} {hash : K → Nat} (hn : t.n ≤ n) (e : K × V) : Has (grown t n hash) e ↔ Has t e := by
  constructor
  · rintro ⟨i, h1, h2, h3⟩
    obtain ⟨h4, h5⟩ := (grown_occ i).1 h2
    refine ⟨i, h4, h5, ?_⟩
    have : (if i < t.n then t.ents i else none) = some e := h3
    rw [if_pos h4] at this; exact this
  · rintro ⟨i, h1, h2, h3⟩
    refine ⟨i, ?_, (grown_occ i).2 ⟨h1, h2⟩, ?_⟩
    · show i < n; omega
    · show (if i < t.n then t.ents i else none) = some e
      rw [if_pos h1]; exact h3

theorem Inv.grown {t : Table K V} (h : Inv t) {n : Nat} {hash : K → Nat} (hn : t.n ≤ n) (hm : n < UINT_MAX) :
    Base (grown t n hash) ∧ nSettled (Hashmap.grown t n hash) = 0 ∧ nOcc (Hashmap.grown t n hash) = t.count := by
  have b := h.base
  have hp := b.pos
  refine ⟨⟨?_, hm, ?_, ?_, ?_, ?_⟩, ?_, ?_⟩
  · show 0 < n; omega
  · intro i hi
    show (if i < t.n then (if t.dibs i = FREE then FREE else REHASH) else FREE) = FREE ∨ ∃ e, (if i < t.n then t.ents i else none) = some e ∧
      ((if i < t.n then (if t.dibs i = FREE then FREE else REHASH) else FREE) = REHASH ∨ _)
    by_cases h1 : i < t.n
    · rw [if_pos h1]
      by_cases h2 : t.dibs i = FREE
      · rw [if_pos h2]; exact .inl rfl
      · rw [if_neg h2]
        obtain ⟨e, he⟩ := b.ent h1 h2
        exact .inr ⟨e, by rw [if_pos h1]; exact he, .inl rfl⟩
    · rw [if_neg h1]; exact .inl rfl
  · intro i _ hs; exact absurd hs (grown_settled i)
  · intro i j _ _ h1 h2 e e' h3 h4 h5
    obtain ⟨h6, h7⟩ := (grown_occ i).1 h1
    obtain ⟨h8, h9⟩ := (grown_occ j).1 h2
    replace h3 : (if i < t.n then t.ents i else none) = some e := h3
    replace h4 : (if j < t.n then t.ents j else none) = some e' := h4
    rw [if_pos h6] at h3
    rw [if_pos h8] at h4
    exact b.inj i j h6 h8 h7 h9 e e' h3 h4 h5
  · intro _ i _ h1
    obtain ⟨h6, h7⟩ := (grown_occ i).1 h1
    show (if t.indirect then t.lowest else 0) ≤ i
    by_cases hin : t.indirect = true
    · rw [if_pos hin]; exact b.low hin i h6 h7
    · rw [if_neg hin]; omega
  · exact cnt_none (fun i _ => decide_eq_false (grown_settled i))
  · rw [h.count]
    have : nOcc (Hashmap.grown t n hash) = cnt (fun i => decide (Occ (Hashmap.grown t n hash) i)) t.n := by
      refine cnt_ext hn ?_
      intro i hi _
      exact decide_eq_false (fun x => by have := ((grown_occ i).1 x).1; omega)
    rw [this]
    refine cnt_congr ?_
    intro i hi
    exact decide_eq_decide.2 ((grown_occ i).trans ⟨fun x => x.2, fun x => ⟨hi, x⟩⟩)

theorem mul_div_pow {a b c : Nat} (hc : 0 < c) (h : a * c ≤ b) : a ≤ b / c := by
  rw [Nat.le_div_iff_mul_le hc]; exact h

/-- The outcome of enlarging a table. -/
structure Resized (t t' : Table K V) : Prop where
  inv : Inv t'
  kind : t'.kind = t.kind
  shared : t'.shared = t.shared
  count : t'.count = t.count
  has : ∀ e, Has t' e ↔ Has t e

theorem Inv.resize {t : Table K V} (h : Inv t) (env : Env K) (add : Nat) (ha : add < 2 ^ 32) (hs : Sized t.kind (t.count + add)) :
    (Hashmap.resize env t add = .err .ENOMEM ∧ (Fit t.kind (t.count + add) → env.alloc = false)) ∨
    ∃ t' b, Hashmap.resize env t add = .ok (t', b) ∧ Resized t t' ∧ t.count + add ≤ t'.n ∧ (b = false → t' = t) := by
  have hn := h.base.le
  have hc := h.count_le
  have hk := t.kind.size
  unfold UINT_MAX at hn
  have hu : UINT_MAX = 2 ^ 32 - 1 := rfl
  have hself : Resized t t := ⟨h, rfl, rfl, rfl, fun _ => Iff.rfl⟩
  unfold Hashmap.resize
  simp only
  by_cases h1 : (t.count + add) % 2 ^ 32 < add
  · rw [if_pos h1]; exact .inl ⟨rfl, fun hf => by exfalso; have := hf.small; omega⟩
  · rw [if_neg h1]
    have hN : (t.count + add) % 2 ^ 32 = t.count + add := by omega
    rw [hN]
    generalize hNe : t.count + add = N at *
    by_cases h2 : (¬ t.indirect = true) ∧ N ≤ t.kind.direct
    · rw [if_pos h2]
      right
      refine ⟨t, false, rfl, hself, ?_, fun _ => rfl⟩
      have := h.direct (by cases hx : t.indirect; rfl; exact absurd hx h2.1)
      omega
    · rw [if_neg h2]
      by_cases h3 : (N + N / 4) % 2 ^ 32 < N
      · rw [if_pos h3]; exact .inl ⟨rfl, fun hf => by exfalso; have := hf.small; omega⟩
      · rw [if_neg h3]
        have hW : (N + N / 4) % 2 ^ 32 = N + N / 4 := by omega
        rw [hW]
        by_cases h4 : N + N / 4 > UINT_MAX / (t.kind.entrySize + 1)
        · rw [if_pos h4]; exact .inl ⟨rfl, fun hf => by exfalso; have := hf.small; omega⟩
        · rw [if_neg h4]
          have hs' : (N + N / 4) * (t.kind.entrySize + 1) ≤ 2 ^ 31 := hs.resolve_right (by omega)
          generalize hWe : N + N / 4 = W at *
          by_cases h5 : W ≤ t.n
          · rw [if_pos h5]
            exact .inr ⟨t, false, rfl, hself, by omega, fun _ => rfl⟩
          · rw [if_neg h5]
            generalize hes : t.kind.entrySize + 1 = es at *
            have hes2 : es = 17 ∨ es = 9 := by omega
            have hx0 : 0 < max (W * es) (2 * directSize) := by unfold directSize; omega
            have hxl : max (W * es) (2 * directSize) ≤ 2 ^ 31 := by unfold directSize; omega
            have hlt := log2u_lt hx0 hxl
            have hxle := log2u_le hx0
            rw [if_neg (by omega)]
            by_cases h6 : env.alloc = true
            · rw [if_neg (by rw [h6]; simp)]
              generalize hsh : log2uRoundUp (max (W * es) (2 * directSize)) = shift at *
              have hWn : W ≤ 2 ^ shift / es := mul_div_pow (by omega) (by omega)
              have hsmall : 2 ^ shift / es < UINT_MAX := by
                have hp : 2 ^ shift ≤ 2 ^ 31 := Nat.pow_le_pow_right (by decide) (by omega)
                have := Nat.div_le_self (2 ^ shift) es
                omega
              have hover : ¬ t.kind.entrySize * (2 ^ shift / es) < es * t.n := by
                cases hin : t.indirect
                · have hd := h.direct hin
                  have h7 : 7 ≤ shift := by
                    apply Classical.byContradiction
                    intro hx
                    have hp : 2 ^ shift ≤ 2 ^ 6 := Nat.pow_le_pow_right (by decide) (by omega)
                    unfold directSize at hxle
                    omega
                  have hp : 2 ^ 7 ≤ 2 ^ shift := Nat.pow_le_pow_right (by decide) h7
                  rcases hk with ⟨k1, k2⟩ | ⟨k1, k2⟩
                  · have e17 : es = 17 := by omega
                    subst e17
                    rw [hd, k2, k1]; omega
                  · have e9 : es = 9 := by omega
                    subst e9
                    rw [hd, k2, k1]; omega
                · obtain ⟨k, hk32, hkn⟩ := h.big hin
                  rw [hes] at hkn
                  have hgt : 2 ^ k < max (W * es) (2 * directSize) := by
                    have : 2 ^ k < (t.n + 1) * es := by
                      rw [hkn, Nat.add_mul, Nat.one_mul]
                      have h8 := Nat.div_add_mod (2 ^ k) es
                      have h9 := Nat.mod_lt (2 ^ k) (show es > 0 by omega)
                      rw [Nat.mul_comm (2 ^ k / es) es]
                      omega
                    have h10 : (t.n + 1) * es ≤ W * es := Nat.mul_le_mul_right _ (by omega)
                    omega
                  have hks := log2u_gt hgt
                  rw [hsh] at hks
                  have hp : 2 ^ (k + 1) ≤ 2 ^ shift := Nat.pow_le_pow_right (by decide) hks
                  have hdbl : 2 * t.n ≤ 2 ^ shift / es := by
                    refine mul_div_pow (by omega) ?_
                    have h8 := Nat.div_mul_le_self (2 ^ k) es
                    rw [← hkn] at h8
                    rw [Nat.mul_assoc, Nat.pow_succ] at *
                    omega
                  rcases hes2 with e | e
                  · subst e
                    have k1 : t.kind.entrySize = 16 := by omega
                    rw [k1]; omega
                  · subst e
                    have k1 : t.kind.entrySize = 8 := by omega
                    rw [k1]; omega
              rw [if_neg hover]
              rw [if_neg (by
                rw [Bool.not_eq_true, List.any_eq_false]
                intro i hi
                have := h.nr i (List.mem_range.1 hi)
                simpa using this)]
              have hNn : t.n ≤ 2 ^ shift / es := by omega
              obtain ⟨gb, g1, g2⟩ := h.grown (hash := env.newHash) hNn hsmall
              have hg : (Hashmap.grown t (2 ^ shift / es) env.newHash).n = 2 ^ shift / es := rfl
              obtain ⟨t', r1, r2, r3, r4, r5⟩ := gb.rehashLoop t.n 0 (by rw [hg]; omega) (by rw [hg, g2]; omega) (by intro i hi; omega)
              rw [g1] at r1
              have r1' : Hashmap.rehashLoop t.n 0 { t with indirect := true, n := 2 ^ shift / es, lowest := if t.indirect then t.lowest else 0, hash := env.newHash, dibs := fun i => if i < t.n then (if t.dibs i = FREE then FREE else REHASH) else FREE, ents := fun i => if i < t.n then t.ents i else none } 0 = .ok (t', nSettled t') := r1
              rw [r1']
              simp only [Res.bind_ok]
              have hn' : t'.n = 2 ^ shift / es := r2.same.n
              have hcnt : t'.count = t.count := r2.same.count
              have hnr : ∀ i, i < t'.n → t'.dibs i ≠ REHASH := by
                intro i hi hx
                by_cases hlt : i < t.n
                · exact r5 i (by omega) hx
                · have := r2.shrink i (by rw [hg, ← hn']; exact hi) hx
                  replace this : (if i < t.n then (if t.dibs i = FREE then FREE else REHASH) else FREE) = REHASH := this
                  rw [if_neg hlt] at this
                  exact absurd this (by decide)
              have hsc : nSettled t' = nOcc t' := by
                refine cnt_congr ?_
                intro i hi
                exact decide_eq_decide.2 ⟨fun x => x.occ, fun x => r2.base.free hnr hi x⟩
              rw [show Res.assert (decide (nSettled t' = t'.count)) = .ok () from by
                rw [decide_eq_true (by rw [hsc, r3, g2, hcnt])]; rfl]
              simp only [Res.bind_ok]
              right
              refine ⟨t', true, rfl, ⟨⟨r2.base, hnr, ?_, ?_, ?_, ?_⟩, r2.same.kind, r2.same.shared, hcnt, ?_⟩, ?_, ?_⟩
              · rw [hcnt, r3, g2]
              · have hlt : nOcc t' < t'.n := by rw [r3, g2, hn']; omega
                obtain ⟨z, hz, hzf⟩ := cnt_lt hlt
                exact ⟨z, hz, .inr (Classical.byContradiction (fun hx => (of_decide_eq_false hzf : ¬ Occ t' z) hx))⟩
              · intro hx
                have : t'.indirect = true := r2.same.indirect
                rw [this] at hx; cases hx
              · intro _
                refine ⟨shift, hlt, ?_⟩
                have hkk : t'.kind = t.kind := r2.same.kind
                rw [hn', hkk, hes]
              · intro e
                rw [r4 e, grown_has hNn e]
              · omega
              · intro hx; cases hx
            · rw [if_pos h6]; exact .inl ⟨rfl, fun _ => by simpa using h6⟩

/-- The window in which enlarging a table is undefined behaviour. -/
theorem Inv.resize_ub {t : Table K V} (h : Inv t) (env : Env K) (add : Nat) (hs : ¬ Sized t.kind (t.count + add)) (hb : t.n < (t.count + add) + (t.count + add) / 4) :
    Hashmap.resize env t add = .ub := by
  have hc := h.count_le
  have hn := h.base.le
  have hk := t.kind.size
  unfold Sized at hs
  rw [not_or] at hs
  obtain ⟨s1, s2⟩ := hs
  have hu : UINT_MAX = 2 ^ 32 - 1 := rfl
  unfold Hashmap.resize
  simp only
  generalize hNe : t.count + add = N at *
  have hd : UINT_MAX / (t.kind.entrySize + 1) ≤ UINT_MAX := Nat.div_le_self _ _
  have hW : N + N / 4 ≤ UINT_MAX := by omega
  rw [Nat.mod_eq_of_lt (show N < 2 ^ 32 by omega), Nat.mod_eq_of_lt (show N + N / 4 < 2 ^ 32 by omega)]
  have hbig : 2 ^ 31 < (N + N / 4) * 17 := by
    have : (N + N / 4) * (t.kind.entrySize + 1) ≤ (N + N / 4) * 17 := Nat.mul_le_mul_left _ (by omega)
    omega
  rw [if_neg (by omega), if_neg (by omega), if_neg (by omega), if_neg (by omega), if_neg (by omega)]
  rw [if_pos]
  have := log2u_gt (k := 31) (x := max ((N + N / 4) * (t.kind.entrySize + 1)) (2 * directSize)) (by omega)
  omega

end Casync.Hashmap
