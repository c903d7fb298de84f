import Verif.Lemmas.HashTable
/-! Putting an entry into a hash table. -/
set_option linter.unusedSectionVars false
namespace Casync.Hashmap
open Casync
variable {K V : Type} [DecidableEq K] [DecidableEq V]

/-- Nothing but the buckets and the index of the lowest entry differ. -/
structure Same (t t' : Table K V) : Prop where
  kind : t'.kind = t.kind
  indirect : t'.indirect = t.indirect
  n : t'.n = t.n
  count : t'.count = t.count
  hash : t'.hash = t.hash
  shared : t'.shared = t.shared

theorem Same.refl (t : Table K V) : Same t t := ⟨rfl, rfl, rfl, rfl, rfl, rfl⟩

theorem Same.trans {a b c : Table K V} (h : Same a b) (h' : Same b c) : Same a c :=
  ⟨h'.kind.trans h.kind, h'.indirect.trans h.indirect, h'.n.trans h.n, h'.count.trans h.count, h'.hash.trans h.hash, h'.shared.trans h.shared⟩

theorem rawDib_lt {d : Nat} (h : d < UINT_MAX) : rawDib d = min d OVERFLOW := by
  unfold rawDib; rw [if_pos (by omega)]

/-- The table with the entry `c` at distance `d` written to the bucket `idx`. -/
def place (t : Table K V) (low idx d : Nat) (c : K × V) : Table K V :=
  { t with lowest := low, dibs := upd t.dibs idx (rawDib d), ents := upd t.ents idx (some c) }

theorem place_settled {t : Table K V} {low idx d : Nat} {c : K × V} (hd : d < UINT_MAX) (i : Nat) :
    Settled (place t low idx d c) i ↔ i = idx ∨ Settled t i := by
  unfold Settled place
  by_cases h : i = idx
  · subst h
    simp only [upd_same, rawDib_lt hd, REHASH, OVERFLOW]
    constructor
    · intro _; exact .inl trivial
    · intro _; omega
  · simp only [upd_ne _ _ h, h, false_or]

theorem place_occ {t : Table K V} {low idx d : Nat} {c : K × V} (hd : d < UINT_MAX) (i : Nat) :
    Occ (place t low idx d c) i ↔ i = idx ∨ Occ t i := by
  unfold Occ place
  by_cases h : i = idx
  · subst h
    simp only [upd_same, rawDib_lt hd, FREE, OVERFLOW]
    constructor
    · intro _; exact .inl trivial
    · intro _; omega
  · simp only [upd_ne _ _ h, h, false_or]

theorem place_ents {t : Table K V} {low idx d : Nat} {c : K × V} (i : Nat) :
    (place t low idx d c).ents i = if i = idx then some c else t.ents i := rfl

theorem place_D {t : Table K V} {low idx d : Nat} {c : K × V} (hd : dist t.n idx (home t c.1) = d) (i : Nat) :
    D (place t low idx d c) i = if i = idx then d else D t i := by
  unfold D
  rw [place_ents]
  by_cases h : i = idx
  · subst h; rw [if_pos rfl, if_pos rfl]; exact hd
  · rw [if_neg h, if_neg h]; rfl

theorem Base.place {t : Table K V} (b : Base t) {low idx d : Nat} {c : K × V} (hi : idx < t.n) (hd : dist t.n idx (home t c.1) = d)
    (hlow : low ≤ t.lowest) (hlow2 : t.indirect = true → low ≤ idx)
    (fresh : ∀ i e, i < t.n → i ≠ idx → Occ t i → t.ents i = some e → e.1 ≠ c.1)
    (pr : 0 < d → Settled t (prev t.n idx) ∧ d ≤ D t (prev t.n idx) + 1)
    (nx : ∀ i, i < t.n → i ≠ idx → prev t.n i = idx → Settled t i → D t i ≤ d + 1) : Base (place t low idx d c) := by
  have hdn : d < t.n := by rw [← hd]; exact dist_lt hi (home_lt b.pos _)
  have hdu : d < UINT_MAX := by have := b.le; omega
  refine ⟨b.pos, b.le, ?_, ?_, ?_, ?_⟩
  · intro i hi'
    by_cases h : i = idx
    · subst h
      right
      refine ⟨c, by rw [place_ents, if_pos rfl], .inr ?_⟩
      show upd t.dibs i (rawDib d) i = min (dist t.n i (home t c.1)) OVERFLOW
      rw [upd_same, rawDib_lt hdu, hd]
    · have := b.slot i hi'
      show upd t.dibs idx (rawDib d) i = FREE ∨ ∃ e, (Hashmap.place t low idx d c).ents i = some e ∧ (upd t.dibs idx (rawDib d) i = REHASH ∨ upd t.dibs idx (rawDib d) i = min (dist t.n i (home t e.1)) OVERFLOW)
      rw [upd_ne _ _ h, place_ents, if_neg h]
      exact this
  · intro i hi' hs hD
    rw [place_settled hdu] at hs ⊢
    rw [place_D hd] at hD ⊢
    show (prev t.n i = idx ∨ Settled t (prev t.n i)) ∧ _ ≤ D (Hashmap.place t low idx d c) (prev t.n i) + 1
    rw [place_D hd]
    by_cases h : i = idx
    · subst h
      rw [if_pos rfl] at hD ⊢
      obtain ⟨s, hd2⟩ := pr hD
      have hne : prev t.n i ≠ i := by
        rw [prev_eq hi]; split <;> omega
      rw [if_neg hne]
      exact ⟨.inr s, hd2⟩
    · rw [if_neg h] at hD ⊢
      have hs' := hs.resolve_left h
      by_cases hp : prev t.n i = idx
      · rw [if_pos hp]
        exact ⟨.inl hp, nx i hi' h hp hs'⟩
      · rw [if_neg hp]
        obtain ⟨s, hd2⟩ := b.loc i hi' hs' hD
        exact ⟨.inr s, hd2⟩
  · intro i j hi' hj ho ho' e e' he he' hk
    rw [place_occ hdu] at ho ho'
    rw [place_ents] at he he'
    by_cases h : i = idx
    · by_cases h' : j = idx
      · omega
      · rw [if_pos h] at he; rw [if_neg h'] at he'; cases he
        exact absurd hk.symm (fresh j e' hj h' (ho'.resolve_left h') he')
    · by_cases h' : j = idx
      · rw [if_neg h] at he; rw [if_pos h'] at he'; cases he'
        exact absurd hk (fresh i e hi' h (ho.resolve_left h) he)
      · rw [if_neg h] at he; rw [if_neg h'] at he'
        exact b.inj i j hi' hj (ho.resolve_left h) (ho'.resolve_left h') e e' he he' hk
  · intro hin i hi' ho
    rw [place_occ hdu] at ho
    show low ≤ i
    rcases ho with h | h
    · subst h; exact hlow2 hin
    · have := b.low hin i hi' h; omega

/-- What putting an entry does: a bucket that was free or to be rehashed is settled now, the entry is in the table, and the entry
that had been there, if any, is what is left. -/
structure Put (t t' : Table K V) (c : K × V) (r : Option (K × V)) : Prop where
  base : Base t'
  same : Same t t'
  spot : ∃ u, u < t.n ∧ ¬ Settled t u ∧ Settled t' u ∧ (r = if t.dibs u = REHASH then t.ents u else none) ∧
    ∀ i, i < t.n → i ≠ u → (Settled t' i ↔ Settled t i) ∧ (¬ Settled t i → t'.dibs i = t.dibs i ∧ t'.ents i = t.ents i)
  has : ∀ e, (Has t' e ∨ r = some e) ↔ (Has t e ∨ e = c)
  fresh : ∀ e, r = some e → ∀ v, ¬ Has t' (e.1, v)
  stop : ∃ z, z < t.n ∧ (¬ Settled t' z ∨ D t' z = 0)

theorem Base.putLoop : ∀ (fuel : Nat) {t : Table K V} (_ : Base t) {idx d : Nat} {c : K × V}, idx < t.n → dist t.n idx (home t c.1) = d →
    (∀ v, ¬ Has t (c.1, v)) → (0 < d → Settled t (prev t.n idx) ∧ d ≤ D t (prev t.n idx) + 1) →
    (∃ u, u < t.n ∧ ¬ Settled t u ∧ dist t.n u idx < fuel) →
    ∃ t' r, putLoop fuel t idx d c = .ok (t', r) ∧ Put t t' c r
  | 0, t, _, idx, d, c, _, _, _, _, ⟨u, _, _, h⟩ => by omega
  | fuel + 1, t, b, idx, d, c, hi, hd, fresh, pr, ⟨u, hu, hus, huf⟩ => by
    have hh := home_lt b.pos c.1
    have hdn : d < t.n := by rw [← hd]; exact dist_lt hi hh
    have hdu : d < UINT_MAX := by have := b.le; omega
    have fresh' : ∀ i e, i < t.n → i ≠ idx → Occ t i → t.ents i = some e → e.1 ≠ c.1 := by
      intro i e hi' _ ho he hk
      exact fresh e.2 ⟨i, hi', ho, by rw [he, ← hk]⟩
    unfold Hashmap.putLoop
    rw [if_neg (by omega)]
    by_cases hs : Settled t idx
    · rw [if_neg (by unfold Settled REHASH at hs; unfold FREE REHASH; omega), b.calc hi hs]
      simp only [Res.bind_ok]
      obtain ⟨e, he, hde, _⟩ := b.settled hi hs
      have hune : u ≠ idx := by intro h; subst h; exact hus hs
      have hstep := dist_step hi hu hune
      by_cases hlt : D t idx < d
      · -- Robin Hood
        rw [if_pos hlt, he]
        simp only
        have b1 : Base (Hashmap.place t t.lowest idx d c) := by
          refine b.place hi hd (Nat.le_refl _) (fun h => b.low h idx hi hs.occ) fresh' pr ?_
          intro i hi' hne hp hsi
          by_cases h0 : D t i = 0
          · omega
          · have := (b.loc i hi' hsi (by omega)).2
            rw [hp] at this; omega
        have hfr1 : ∀ v, ¬ Has (Hashmap.place t t.lowest idx d c) (e.1, v) := by
          rintro v ⟨i, hi', ho, hie⟩
          rw [place_occ hdu] at ho
          rw [place_ents] at hie
          by_cases h : i = idx
          · rw [if_pos h] at hie; cases hie
            exact fresh e.2 ⟨idx, hi, hs.occ, he⟩
          · rw [if_neg h] at hie
            exact h (b.inj i idx hi' hi (ho.resolve_left h) hs.occ _ e hie he rfl)
        have hdist : dist t.n (next t.n idx) (home t e.1) = D t idx + 1 := by
          rw [hde]; exact dist_next hi (home_lt b.pos _) (by omega)
        obtain ⟨t', r, hrun, P⟩ := Base.putLoop fuel b1 (idx := next t.n idx) (d := D t idx + 1) (c := e) (next_lt hi) hdist hfr1
          (by
            intro _
            show Settled (Hashmap.place t t.lowest idx d c) (prev t.n (next t.n idx)) ∧ D t idx + 1 ≤ D (Hashmap.place t t.lowest idx d c) (prev t.n (next t.n idx)) + 1
            rw [prev_next hi, place_settled hdu, place_D hd, if_pos rfl]
            exact ⟨.inl rfl, by omega⟩)
          ⟨u, hu, by rw [place_settled hdu]; exact fun h => h.elim hune hus, by show dist t.n u (next t.n idx) < fuel; omega⟩
        refine ⟨t', r, hrun, ?_⟩
        refine ⟨P.base, Same.trans (b := Hashmap.place t t.lowest idx d c) ⟨rfl, rfl, rfl, rfl, rfl, rfl⟩ P.same, ?_, ?_, P.fresh, P.stop⟩
        · obtain ⟨w, hw, hws, hws', hr, hoth⟩ := P.spot
          have hwne : w ≠ idx := by intro h; subst h; exact hws ((place_settled hdu _).2 (.inl rfl))
          have hwt : ¬ Settled t w := fun h => hws ((place_settled hdu _).2 (.inr h))
          refine ⟨w, hw, hwt, hws', ?_, ?_⟩
          · rw [hr]
            show (if upd t.dibs idx (rawDib d) w = REHASH then (Hashmap.place t t.lowest idx d c).ents w else none) = _
            rw [upd_ne _ _ hwne, place_ents, if_neg hwne]
          · intro i hi' hiw
            obtain ⟨h1, h2⟩ := hoth i hi' hiw
            by_cases h : i = idx
            · subst h
              exact ⟨⟨fun _ => hs, fun _ => h1.2 ((place_settled hdu _).2 (.inl rfl))⟩, fun hn => absurd hs hn⟩
            · rw [place_settled hdu] at h1 h2
              have h3 : (i = idx ∨ Settled t i) ↔ Settled t i := ⟨fun x => x.resolve_left h, .inr⟩
              rw [h3] at h1 h2
              refine ⟨h1, fun hn => ?_⟩
              have := h2 hn
              rw [place_ents, if_neg h] at this
              refine ⟨this.1.trans ?_, this.2⟩
              show upd t.dibs idx (rawDib d) i = _
              rw [upd_ne _ _ h]
        · intro x
          rw [P.has x]
          have hm : Has (Hashmap.place t t.lowest idx d c) x ↔ (x = c ∨ ∃ i, i < t.n ∧ i ≠ idx ∧ Occ t i ∧ t.ents i = some x) := by
            constructor
            · rintro ⟨i, hi', ho, hie⟩
              rw [place_occ hdu] at ho
              rw [place_ents] at hie
              by_cases h : i = idx
              · rw [if_pos h] at hie; cases hie; exact .inl rfl
              · rw [if_neg h] at hie; exact .inr ⟨i, hi', h, ho.resolve_left h, hie⟩
            · rintro (h | ⟨i, hi', h, ho, hie⟩)
              · subst h; exact ⟨idx, hi, (place_occ hdu _).2 (.inl rfl), by rw [place_ents, if_pos rfl]⟩
              · exact ⟨i, hi', (place_occ hdu _).2 (.inr ho), by rw [place_ents, if_neg h]; exact hie⟩
          have hm2 : Has t x ↔ (x = e ∨ ∃ i, i < t.n ∧ i ≠ idx ∧ Occ t i ∧ t.ents i = some x) := by
            constructor
            · rintro ⟨i, hi', ho, hie⟩
              by_cases h : i = idx
              · subst h; rw [he] at hie; cases hie; exact .inl rfl
              · exact .inr ⟨i, hi', h, ho, hie⟩
            · rintro (h | ⟨i, hi', h, ho, hie⟩)
              · subst h; exact ⟨idx, hi, hs.occ, he⟩
              · exact ⟨i, hi', ho, hie⟩
          rw [hm, hm2]
          constructor
          · rintro ((h | h) | h)
            · exact .inr h
            · exact .inl (.inr h)
            · exact .inl (.inl h)
          · rintro ((h | h) | h)
            · exact .inr h
            · exact .inl (.inr h)
            · exact .inl (.inl h)
      · rw [if_neg hlt]
        have hmore : d + 1 < t.n := by
          apply Classical.byContradiction
          intro hge
          have hall : ∀ i, i < t.n → Settled t i := by
            intro i hi'
            have hil := dist_lt hi' hh
            by_cases hid : dist t.n i (home t c.1) = d
            · have := dist_inj hi' hi hh (by omega)
              subst this; exact hs
            · exact b.chainPut hi hh (by rw [hd]; exact pr) hi' (by omega)
          exact hus (hall u hu)
        obtain ⟨t', r, hrun, P⟩ := Base.putLoop fuel b (idx := next t.n idx) (d := d + 1) (c := c) (next_lt hi)
          (by rw [dist_next hi hh (by omega), hd]) fresh
          (by intro _; rw [prev_next hi]; exact ⟨hs, by omega⟩)
          ⟨u, hu, hus, by omega⟩
        exact ⟨t', r, hrun, P⟩
    · rw [if_pos (by rcases b.unsettled hi hs with h | ⟨h, _⟩; exact .inl h; exact .inr h)]
      refine ⟨_, _, rfl, ?_⟩
      let low := if t.indirect ∧ t.lowest > idx then idx else t.lowest
      have hl1 : low ≤ t.lowest := by
        show (if t.indirect ∧ t.lowest > idx then idx else t.lowest) ≤ _
        split <;> omega
      have hl2 : t.indirect = true → low ≤ idx := by
        intro h
        show (if t.indirect ∧ t.lowest > idx then idx else t.lowest) ≤ _
        by_cases hg : t.lowest > idx
        · rw [if_pos ⟨h, hg⟩]; omega
        · rw [if_neg (fun x => hg x.2)]; omega
      have b1 : Base (Hashmap.place t low idx d c) := by
        refine b.place hi hd hl1 hl2 fresh' pr ?_
        intro i hi' hne hp hsi
        by_cases h0 : D t i = 0
        · omega
        · have := (b.loc i hi' hsi (by omega)).1
          rw [hp] at this; exact absurd this hs
      have same : Same t (Hashmap.place t low idx d c) := ⟨rfl, rfl, rfl, rfl, rfl, rfl⟩
      have sp : ∃ u, u < t.n ∧ ¬ Settled t u ∧ Settled (Hashmap.place t low idx d c) u ∧
          ((if t.dibs idx = REHASH then t.ents idx else none) = if t.dibs u = REHASH then t.ents u else none) ∧
          ∀ i, i < t.n → i ≠ u → (Settled (Hashmap.place t low idx d c) i ↔ Settled t i) ∧
            (¬ Settled t i → (Hashmap.place t low idx d c).dibs i = t.dibs i ∧ (Hashmap.place t low idx d c).ents i = t.ents i) := by
        refine ⟨idx, hi, hs, (place_settled hdu _).2 (.inl rfl), rfl, ?_⟩
        intro i _ h
        refine ⟨?_, fun _ => ⟨?_, ?_⟩⟩
        · rw [place_settled hdu]; exact ⟨fun x => x.resolve_left h, .inr⟩
        · show upd t.dibs idx (rawDib d) i = _
          rw [upd_ne _ _ h]
        · rw [place_ents, if_neg h]
      have hm : ∀ x, Has (Hashmap.place t low idx d c) x ↔ (x = c ∨ ∃ i, i < t.n ∧ i ≠ idx ∧ Occ t i ∧ t.ents i = some x) := by
        intro x
        constructor
        · rintro ⟨i, hi', ho, hie⟩
          rw [place_occ hdu] at ho
          rw [place_ents] at hie
          by_cases h : i = idx
          · rw [if_pos h] at hie; cases hie; exact .inl rfl
          · rw [if_neg h] at hie; exact .inr ⟨i, hi', h, ho.resolve_left h, hie⟩
        · rintro (h | ⟨i, hi', h, ho, hie⟩)
          · subst h; exact ⟨idx, hi, (place_occ hdu _).2 (.inl rfl), by rw [place_ents, if_pos rfl]⟩
          · exact ⟨i, hi', (place_occ hdu _).2 (.inr ho), by rw [place_ents, if_neg h]; exact hie⟩
      have stp : ∃ z, z < t.n ∧ (¬ Settled (Hashmap.place t low idx d c) z ∨ D (Hashmap.place t low idx d c) z = 0) := by
        by_cases hz : next t.n idx = idx
        · refine ⟨idx, hi, .inr ?_⟩
          rw [place_D hd, if_pos rfl]
          have hn1 : t.n = 1 := by rw [next_eq hi] at hz; split at hz <;> omega
          omega
        · refine ⟨next t.n idx, next_lt hi, ?_⟩
          rw [place_settled hdu, place_D hd, if_neg hz]
          by_cases hsn : Settled t (next t.n idx)
          · right
            apply Classical.byContradiction
            intro hne
            have := (b.loc _ (next_lt hi) hsn (by omega)).1
            rw [prev_next hi] at this
            exact hs this
          · exact .inl (fun h => h.elim hz hsn)
      refine ⟨b1, same, sp, ?_, ?_, stp⟩
      · intro x
        show (Has (Hashmap.place t low idx d c) x ∨ (if t.dibs idx = REHASH then t.ents idx else none) = some x) ↔ _
        rw [hm]
        constructor
        · rintro ((h | ⟨i, hi', h, ho, hie⟩) | h)
          · exact .inr h
          · exact .inl ⟨i, hi', ho, hie⟩
          · by_cases hr : t.dibs idx = REHASH
            · rw [if_pos hr] at h
              exact .inl ⟨idx, hi, by unfold Occ; rw [hr]; decide, h⟩
            · rw [if_neg hr] at h; cases h
        · rintro (⟨i, hi', ho, hie⟩ | h)
          · by_cases h : i = idx
            · subst h
              right
              rcases b.unsettled hi hs with h | ⟨h, _⟩
              · exact absurd h ho
              · rw [if_pos h]; exact hie
            · exact .inl (.inr ⟨i, hi', h, ho, hie⟩)
          · exact .inl (.inl h)
      · intro e h v hv
        replace h : (if t.dibs idx = REHASH then t.ents idx else none) = some e := h
        have hv' := (hm (e.1, v)).1 hv
        by_cases hr : t.dibs idx = REHASH
        · rw [if_pos hr] at h
          have ho : Occ t idx := by unfold Occ; rw [hr]; decide
          rcases hv' with h1 | ⟨i, hi', hne, ho', hie⟩
          · exact fresh e.2 ⟨idx, hi, ho, by rw [h, ← h1]⟩
          · exact hne (b.inj i idx hi' hi ho' ho _ _ hie h rfl)
        · rw [if_neg hr] at h; cases h

/-- Putting a new key into a table with a bucket that is free or to be rehashed. -/
theorem Base.put {t : Table K V} (b : Base t) {c : K × V} (fresh : ∀ v, ¬ Has t (c.1, v)) (h : ∃ u, u < t.n ∧ ¬ Settled t u) :
    ∃ t' r, putRobinHood t (home t c.1) c = .ok (t', r) ∧ Put t t' c r := by
  obtain ⟨u, hu, hus⟩ := h
  refine b.putLoop (t.n + 1) (home_lt b.pos _) (dist_self _ _) fresh (fun h => absurd h (Nat.lt_irrefl 0)) ⟨u, hu, hus, ?_⟩
  have := dist_lt hu (home_lt b.pos (t := t) c.1)
  omega

end Casync.Hashmap
