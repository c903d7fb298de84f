import Verif.Lemmas.HashRemove
/-! Rehashing in place. -/
set_option linter.unusedSectionVars false
namespace Casync.Hashmap
open Casync
variable {K V : Type} [DecidableEq K] [DecidableEq V]

instance (t : Table K V) (i : Nat) : Decidable (Settled t i) := inferInstanceAs (Decidable (_ < _))
instance (t : Table K V) (i : Nat) : Decidable (Occ t i) := inferInstanceAs (Decidable (_ ≠ _))

/-- How many buckets are settled, and how many have an entry. -/
def nSettled (t : Table K V) : Nat := cnt (fun i => decide (Settled t i)) t.n
def nOcc (t : Table K V) : Nat := cnt (fun i => decide (Occ t i)) t.n

theorem nSettled_le (t : Table K V) : nSettled t ≤ nOcc t :=
  cnt_mono (fun _ _ h => decide_eq_true (of_decide_eq_true h : Settled t _).occ)

/-- The counters after putting an entry. -/
theorem Put.counts {t t' : Table K V} {c : K × V} {r : Option (K × V)} (b : Base t) (P : Put t t' c r) :
    nSettled t' = nSettled t + 1 ∧ nOcc t' = nOcc t + (if r.isSome then 0 else 1) ∧
    (∀ i, i < t.n → t'.dibs i = REHASH → t.dibs i = REHASH) ∧
    (r = none → ∃ u, u < t.n ∧ t.dibs u = FREE) := by
  obtain ⟨u, hu, hs, hs', hr, ho⟩ := P.spot
  have hn := P.same.n
  have hocc : ∀ i, i < t.n → i ≠ u → (Occ t' i ↔ Occ t i) := by
    intro i hi hne
    obtain ⟨h1, h2⟩ := ho i hi hne
    by_cases hsi : Settled t i
    · exact ⟨fun _ => hsi.occ, fun _ => (h1.2 hsi).occ⟩
    · unfold Occ; rw [(h2 hsi).1]
  refine ⟨?_, ?_, ?_, ?_⟩
  · unfold nSettled
    rw [hn]
    refine cnt_set hu (decide_eq_false hs) (decide_eq_true hs') ?_
    intro i hi hne
    exact decide_eq_decide.2 (ho i hi hne).1.symm
  · unfold nOcc
    rw [hn]
    rcases b.unsettled hu hs with h | ⟨h, e, he⟩
    · rw [if_neg (by rw [h]; decide)] at hr
      rw [hr]
      refine cnt_set hu (decide_eq_false (fun x => x h)) (decide_eq_true hs'.occ) ?_
      intro i hi hne
      exact decide_eq_decide.2 (hocc i hi hne).symm
    · rw [if_pos h, he] at hr
      rw [hr]
      refine cnt_congr ?_
      intro i hi
      by_cases hne : i = u
      · subst hne
        exact (decide_eq_true hs'.occ).trans (decide_eq_true (show Occ t i by unfold Occ; rw [h]; decide)).symm
      · exact decide_eq_decide.2 (hocc i hi hne)
  · intro i hi h
    by_cases hne : i = u
    · subst hne; unfold Settled at hs'; omega
    · obtain ⟨h1, h2⟩ := ho i hi hne
      by_cases hsi : Settled t i
      · have := h1.2 hsi; unfold Settled at this; omega
      · rw [← (h2 hsi).1]; exact h
  · intro hrn
    rcases b.unsettled hu hs with h | ⟨h, e, he⟩
    · exact ⟨u, hu, h⟩
    · rw [if_pos h, he, hrn] at hr; cases hr

theorem unsettled_of_lt {t : Table K V} (h : nSettled t < t.n) : ∃ u, u < t.n ∧ ¬ Settled t u := by
  obtain ⟨u, hu, hf⟩ := cnt_lt h
  exact ⟨u, hu, of_decide_eq_false hf⟩

/-- What the loops of the rehashing do. -/
structure Rehashed (t t' : Table K V) : Prop where
  base : Base t'
  same : Same t t'
  shrink : ∀ i, i < t.n → t'.dibs i = REHASH → t.dibs i = REHASH

theorem Base.chase : ∀ (fuel : Nat) {t : Table K V} (_ : Base t) {c : K × V}, (∀ v, ¬ Has t (c.1, v)) → nOcc t + 1 < t.n →
    nOcc t < fuel + nSettled t →
    ∃ t', chase fuel t c (nSettled t) = .ok (t', nSettled t') ∧ Rehashed t t' ∧ nOcc t' = nOcc t + 1 ∧ (∀ e, Has t' e ↔ (Has t e ∨ e = c))
  | 0, t, _, c, _, _, hf => by have := nSettled_le t; omega
  | fuel + 1, t, b, c, fresh, hlt, hf => by
    have hle := nSettled_le t
    obtain ⟨t1, r, hrun, P⟩ := b.put fresh (unsettled_of_lt (by omega))
    obtain ⟨p1, p2, p3, _⟩ := P.counts b
    unfold Hashmap.chase
    rw [hrun]
    simp only [Res.bind_ok]
    cases r with
    | none =>
      simp only [Option.isSome_none, Bool.false_eq_true, if_false] at p2
      refine ⟨t1, ?_, ⟨P.base, P.same, p3⟩, p2, ?_⟩
      · simp only; rw [p1]
      · intro e
        have := P.has e
        simpa using this
    | some c' =>
      simp only [Option.isSome_some, if_true] at p2
      obtain ⟨t', h1, h2, h3, h4⟩ := Base.chase fuel P.base (c := c') (P.fresh c' rfl) (by rw [P.same.n]; omega) (by omega)
      refine ⟨t', ?_, ⟨h2.base, P.same.trans h2.same, ?_⟩, by omega, ?_⟩
      · simp only; rw [← p1]; exact h1
      · intro i hi h
        exact p3 i hi (h2.shrink i (by rw [P.same.n]; exact hi) h)
      · intro e
        rw [h4 e, ← P.has e]
        constructor
        · rintro (h | h)
          · exact .inl h
          · exact .inr (by rw [h])
        · rintro (h | h)
          · exact .inl h
          · exact .inr (Option.some.inj h).symm

/-- Taking out an entry that is still to be rehashed. -/
theorem Base.take {t : Table K V} (b : Base t) {idx : Nat} (hi : idx < t.n) (hr : t.dibs idx = REHASH) {e : K × V} (he : t.ents idx = some e) :
    let t1 : Table K V := { t with dibs := upd t.dibs idx FREE, ents := upd t.ents idx none }
    Base t1 ∧ nSettled t1 = nSettled t ∧ nOcc t = nOcc t1 + 1 ∧ (∀ x, Has t x ↔ (Has t1 x ∨ x = e)) ∧ (∀ v, ¬ Has t1 (e.1, v)) := by
  intro t1
  have hs : ∀ i, Settled t1 i ↔ Settled t i := by
    intro i
    show upd t.dibs idx FREE i < REHASH ↔ t.dibs i < REHASH
    by_cases h : i = idx
    · subst h; rw [upd_same, hr]; decide
    · rw [upd_ne _ _ h]
  have ho : ∀ i, Occ t1 i ↔ (i ≠ idx ∧ Occ t i) := by
    intro i
    show upd t.dibs idx FREE i ≠ FREE ↔ (i ≠ idx ∧ t.dibs i ≠ FREE)
    by_cases h : i = idx
    · subst h; rw [upd_same]; exact ⟨fun x => absurd rfl x, fun x => absurd rfl x.1⟩
    · rw [upd_ne _ _ h]; exact ⟨fun x => ⟨h, x⟩, fun x => x.2⟩
  have hen : ∀ i, i ≠ idx → t1.ents i = t.ents i := fun i h => upd_ne _ _ h
  have hns : ¬ Settled t idx := by unfold Settled; omega
  have hD : ∀ i, i ≠ idx → D t1 i = D t i := by
    intro i h; unfold D; rw [hen i h]; rfl
  have hoi : Occ t idx := by unfold Occ; rw [hr]; decide
  have hhas : ∀ x, Has t1 x ↔ ∃ i, i < t.n ∧ i ≠ idx ∧ Occ t i ∧ t.ents i = some x := by
    intro x
    constructor
    · rintro ⟨i, h1, h2, h3⟩
      rw [ho] at h2
      rw [hen i h2.1] at h3
      exact ⟨i, h1, h2.1, h2.2, h3⟩
    · rintro ⟨i, h1, h2, h3, h4⟩
      exact ⟨i, h1, (ho i).2 ⟨h2, h3⟩, by rw [hen i h2]; exact h4⟩
  refine ⟨⟨b.pos, b.le, ?_, ?_, ?_, ?_⟩, ?_, ?_, ?_, ?_⟩
  · intro i hi'
    by_cases h : i = idx
    · subst h; exact .inl (upd_same _ _ _)
    · have := b.slot i hi'
      show upd t.dibs idx FREE i = FREE ∨ ∃ e, t1.ents i = some e ∧ (upd t.dibs idx FREE i = REHASH ∨ upd t.dibs idx FREE i = min (dist t.n i (home t e.1)) OVERFLOW)
      rw [upd_ne _ _ h, hen i h]; exact this
  · intro i hi' hsi hDi
    rw [hs] at hsi
    have h : i ≠ idx := by intro h; subst h; exact hns hsi
    rw [hD i h] at hDi ⊢
    obtain ⟨h1, h2⟩ := b.loc i hi' hsi hDi
    have hp : prev t.n i ≠ idx := by intro h; rw [h] at h1; exact hns h1
    show Settled t1 (prev t.n i) ∧ D t i ≤ D t1 (prev t.n i) + 1
    rw [hs, hD _ hp]; exact ⟨h1, h2⟩
  · intro i j hi' hj h1 h2 e1 e2 h3 h4 h5
    rw [ho] at h1 h2
    rw [hen i h1.1] at h3
    rw [hen j h2.1] at h4
    exact b.inj i j hi' hj h1.2 h2.2 e1 e2 h3 h4 h5
  · intro h i hi' h1
    rw [ho] at h1
    exact b.low h i hi' h1.2
  · exact cnt_congr (fun i _ => decide_eq_decide.2 (hs i))
  · refine cnt_set hi (decide_eq_false (fun x => ((ho idx).1 x).1 rfl)) (decide_eq_true hoi) ?_
    intro i _ hne
    exact decide_eq_decide.2 ⟨fun x => ((ho i).1 x).2, fun x => (ho i).2 ⟨hne, x⟩⟩
  · intro x
    rw [hhas]
    constructor
    · rintro ⟨i, h1, h2, h3⟩
      by_cases h : i = idx
      · subst h; rw [he] at h3; cases h3; exact .inr rfl
      · exact .inl ⟨i, h1, h, h2, h3⟩
    · rintro (⟨i, h1, h2, h3, h4⟩ | h)
      · exact ⟨i, h1, h3, h4⟩
      · subst h; exact ⟨idx, hi, hoi, he⟩
  · intro v hv
    obtain ⟨i, h1, h2, h3, h4⟩ := (hhas _).1 hv
    exact h2 (b.inj i idx h1 hi h3 hoi _ _ h4 he rfl)

theorem Base.rehashLoop : ∀ (m idx : Nat) {t : Table K V} (_ : Base t), idx + m ≤ t.n → nOcc t < t.n → (∀ i, i < idx → t.dibs i ≠ REHASH) →
    ∃ t', rehashLoop m idx t (nSettled t) = .ok (t', nSettled t') ∧ Rehashed t t' ∧ nOcc t' = nOcc t ∧ (∀ e, Has t' e ↔ Has t e) ∧
      ∀ i, i < idx + m → t'.dibs i ≠ REHASH
  | 0, idx, t, b, _, _, hd => by
    refine ⟨t, rfl, ⟨b, Same.refl t, fun _ _ h => h⟩, rfl, fun _ => Iff.rfl, ?_⟩
    intro i h; exact hd i (by omega)
  | m + 1, idx, t, b, hle, hlt, hd => by
    have hi : idx < t.n := by omega
    unfold Hashmap.rehashLoop
    by_cases h : t.dibs idx ≠ REHASH
    · rw [if_pos h]
      obtain ⟨t', h1, h2, h3, h4, h5⟩ := Base.rehashLoop m (idx + 1) b (by omega) hlt (by
        intro i hlt
        by_cases he : i = idx
        · rw [he]; exact h
        · exact hd i (by omega))
      exact ⟨t', h1, h2, h3, h4, fun i hlt => h5 i (by omega)⟩
    · rw [if_neg h]
      have hr : t.dibs idx = REHASH := Classical.byContradiction h
      have hns : ¬ Settled t idx := by unfold Settled; omega
      have hoi : Occ t idx := by unfold Occ; rw [hr]; decide
      obtain ⟨e, he⟩ := b.ent hi hoi
      rw [he]
      simp only
      by_cases hh : home t e.1 = idx
      · rw [if_pos hh]
        have hpl : ({ t with dibs := upd t.dibs idx 0 } : Table K V) = Hashmap.place t t.lowest idx 0 e := by
          unfold Hashmap.place
          congr 1
          funext i
          by_cases hx : i = idx
          · subst hx; rw [upd_same]; exact he
          · rw [upd_ne _ _ hx]
        rw [hpl]
        have h0 : (0 : Nat) < UINT_MAX := by decide
        have hd0 : dist t.n idx (home t e.1) = 0 := by rw [hh, dist_self]
        have b1 : Base (Hashmap.place t t.lowest idx 0 e) := by
          refine b.place hi hd0 (Nat.le_refl _) (fun h => b.low h idx hi hoi) ?_ (fun h => absurd h (Nat.lt_irrefl 0)) ?_
          · intro i e' hi' hne ho he' hk
            exact hne (b.inj i idx hi' hi ho hoi _ _ he' he hk)
          · intro i hi' hne hp hsi
            by_cases hz : D t i = 0
            · omega
            · have := (b.loc i hi' hsi (by omega)).1
              rw [hp] at this; exact absurd this hns
        have hcs : nSettled (Hashmap.place t t.lowest idx 0 e) = nSettled t + 1 := by
          refine cnt_set hi (decide_eq_false hns) (decide_eq_true ((place_settled h0 _).2 (.inl rfl))) ?_
          intro i _ hne
          exact decide_eq_decide.2 ⟨fun x => (place_settled h0 _).2 (.inr x), fun x => ((place_settled h0 _).1 x).resolve_left hne⟩
        have hocc : ∀ i, Occ (Hashmap.place t t.lowest idx 0 e) i ↔ Occ t i := by
          intro i
          rw [place_occ h0]
          exact ⟨fun x => x.elim (fun y => y ▸ hoi) id, .inr⟩
        have hco : nOcc (Hashmap.place t t.lowest idx 0 e) = nOcc t := cnt_congr (fun i _ => decide_eq_decide.2 (hocc i))
        have hdib : ∀ i, i ≠ idx → (Hashmap.place t t.lowest idx 0 e).dibs i = t.dibs i := fun i hne => upd_ne _ _ hne
        have hdi : (Hashmap.place t t.lowest idx 0 e).dibs idx ≠ REHASH := by
          show upd t.dibs idx (rawDib 0) idx ≠ REHASH
          rw [upd_same]; decide
        obtain ⟨t', h1, h2, h3, h4, h5⟩ := Base.rehashLoop m (idx + 1) b1 (by show idx + 1 + m ≤ t.n; omega) (by rw [hco]; exact hlt) (by
          intro i hlt
          by_cases he : i = idx
          · rw [he]; exact hdi
          · rw [hdib i he]; exact hd i (by omega))
        refine ⟨t', by rw [← hcs]; exact h1, ⟨h2.base, Same.trans (b := Hashmap.place t t.lowest idx 0 e) ⟨rfl, rfl, rfl, rfl, rfl, rfl⟩ h2.same, ?_⟩, by omega, ?_, fun i hlt => h5 i (by omega)⟩
        · intro i hi' hx
          have := h2.shrink i hi' hx
          by_cases hne : i = idx
          · rw [hne]; exact hr
          · rw [hdib i hne] at this; exact this
        · intro x
          rw [h4 x]
          have hent : ∀ i, (Hashmap.place t t.lowest idx 0 e).ents i = t.ents i := by
            intro i
            rw [place_ents]
            by_cases hx : i = idx
            · rw [if_pos hx, hx, he]
            · rw [if_neg hx]
          constructor
          · rintro ⟨i, h1, h2, h3⟩; exact ⟨i, h1, (hocc i).1 h2, by rw [← hent]; exact h3⟩
          · rintro ⟨i, h1, h2, h3⟩; exact ⟨i, h1, (hocc i).2 h2, by rw [hent]; exact h3⟩
      · rw [if_neg hh]
        obtain ⟨b1, k1, k2, k3, k4⟩ := b.take hi hr he
        generalize ht1 : ({ t with dibs := upd t.dibs idx FREE, ents := upd t.ents idx none } : Table K V) = t1 at *
        have hn1 : t1.n = t.n := by rw [← ht1]
        have same1 : Same t t1 := by rw [← ht1]; exact ⟨rfl, rfl, rfl, rfl, rfl, rfl⟩
        have hdib : ∀ i, i ≠ idx → t1.dibs i = t.dibs i := by rw [← ht1]; exact fun i hne => upd_ne _ _ hne
        have hdi : t1.dibs idx ≠ REHASH := by rw [← ht1]; show upd t.dibs idx FREE idx ≠ REHASH; rw [upd_same]; decide
        have hle1 := nSettled_le t1
        have hle2 : nOcc t1 ≤ t.n := by rw [← hn1]; exact cnt_le _ _
        obtain ⟨t2, c1, c2, c3, c4⟩ := b1.chase (t.n + 1) (c := e) k4 (by rw [hn1]; omega) (by omega)
        rw [← k1, c1]
        simp only [Res.bind_ok]
        have hn2 : t2.n = t.n := c2.same.n.trans hn1
        obtain ⟨t', h1, h2, h3, h4, h5⟩ := Base.rehashLoop m (idx + 1) c2.base (by omega) (by omega) (by
          intro i hlt hx
          have hx1 := c2.shrink i (by omega) hx
          by_cases he : i = idx
          · rw [he] at hx1; exact hdi hx1
          · rw [hdib i he] at hx1; exact hd i (by omega) hx1)
        refine ⟨t', h1, ⟨h2.base, same1.trans (c2.same.trans h2.same), ?_⟩, by omega, ?_, fun i hlt => h5 i (by omega)⟩
        · intro i hi' hx
          have hx1 := c2.shrink i (by omega) (h2.shrink i (by omega) hx)
          by_cases hne : i = idx
          · rw [hne]; exact hr
          · rw [hdib i hne] at hx1; exact hx1
        · intro x
          rw [h4 x, c4 x, k3 x]

end Casync.Hashmap
