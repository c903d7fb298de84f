import Verif.Lemmas.HashPut
/-! Removing an entry from a hash table. -/
set_option linter.unusedSectionVars false
namespace Casync.Hashmap
open Casync
variable {K V : Type} [DecidableEq K] [DecidableEq V]

/-- The number of steps from `idx` to `r`, a whole round if they are the same. -/
def steps (n idx r : Nat) : Nat := if r = idx then n else dist n r idx

theorem steps_next {n idx r : Nat} (hi : idx < n) (hr : r < n) (h : r ≠ idx) : steps n idx (next n r) = steps n idx r + 1 := by
  unfold steps
  rw [if_neg h]
  rw [next_eq hr]; unfold dist
  by_cases e : r + 1 = n
  · rw [if_pos e]; split <;> split <;> (try split) <;> omega
  · rw [if_neg e]; split <;> split <;> (try split) <;> omega

theorem steps_first {n idx : Nat} (hi : idx < n) : steps n idx (next n idx) = 1 := by
  unfold steps
  rw [next_eq hi]; unfold dist
  by_cases e : idx + 1 = n
  · rw [if_pos e]; split <;> (try split) <;> omega
  · rw [if_neg e]; split <;> (try split) <;> omega

theorem steps_le {n idx r : Nat} (hi : idx < n) (hr : r < n) : 0 < steps n idx r ∧ steps n idx r ≤ n := by
  unfold steps dist; split <;> (try split) <;> omega

theorem steps_inj {n idx r s : Nat} (hi : idx < n) (hr : r < n) (hs : s < n) (h : steps n idx r = steps n idx s) : r = s := by
  unfold steps dist at h; split at h <;> split at h <;> (try split at h) <;> (try split at h) <;> omega

def Stop (t : Table K V) (i : Nat) : Prop := t.dibs i = 0 ∨ t.dibs i = FREE

instance (t : Table K V) (i : Nat) : Decidable (Stop t i) := inferInstanceAs (Decidable (_ ∨ _))

theorem findRight_ok {t : Table K V} {idx : Nat} (hi : idx < t.n) {z : Nat} (hz : z < t.n) (sz : Stop t z) :
    ∀ fuel r, r < t.n → t.n < fuel + steps t.n idx r → (∀ p, p < t.n → steps t.n idx p < steps t.n idx r → ¬ Stop t p) →
      ∃ right, findRight t idx fuel r = .ok right ∧ right < t.n ∧ Stop t right ∧ ∀ p, p < t.n → steps t.n idx p < steps t.n idx right → ¬ Stop t p
  | 0, r, hr, hf, _ => by have := steps_le hi hr; omega
  | fuel + 1, r, hr, hf, hn => by
    unfold findRight
    rw [if_neg (by omega)]
    by_cases hs : Stop t r
    · rw [if_pos (show t.dibs r = 0 ∨ t.dibs r = FREE from hs)]; exact ⟨r, rfl, hr, hs, hn⟩
    · rw [if_neg (show ¬ (t.dibs r = 0 ∨ t.dibs r = FREE) from hs)]
      have hle := steps_le hi hz
      have hle2 := steps_le hi hr
      by_cases he : idx = r
      · exfalso
        have h1 : steps t.n idx r = t.n := by unfold steps; rw [if_pos he.symm]
        by_cases h2 : steps t.n idx z = t.n
        · have := steps_inj hi hz hr (by omega)
          subst this; exact hs sz
        · exact hn z hz (by omega) sz
      · rw [if_neg he]
        have hst := steps_next hi hr (fun h => he h.symm)
        refine findRight_ok hi hz sz fuel (next t.n r) (next_lt hr) (by omega) ?_
        intro p hp hlt
        by_cases h2 : steps t.n idx p = steps t.n idx r
        · have := steps_inj hi hp hr h2
          subst this; exact hs
        · exact hn p hp (by omega)

/-- The table after shifting `s` entries. -/
structure Shifted (t t' : Table K V) (idx s : Nat) : Prop where
  same : Same t t'
  lowest : t'.lowest = t.lowest
  moved : ∀ p, p < t.n → dist t.n p idx < s → t'.dibs p = rawDib (D t (next t.n p) - 1) ∧ t'.ents p = t.ents (next t.n p)
  kept : ∀ p, p < t.n → s ≤ dist t.n p idx → t'.dibs p = t.dibs p ∧ t'.ents p = t.ents p

theorem Base.nonstop {t : Table K V} (b : Base t) (nr : ∀ i, i < t.n → t.dibs i ≠ REHASH) {p : Nat} (hp : p < t.n) (h : ¬ Stop t p) :
    Settled t p ∧ 0 < D t p := by
  have hs := b.free nr hp (fun x => h (.inr x))
  obtain ⟨e, _, _, hr⟩ := b.settled hp hs
  refine ⟨hs, ?_⟩
  have : t.dibs p ≠ 0 := fun x => h (.inl x)
  unfold OVERFLOW at hr; omega

theorem shiftLoop_ok {t : Table K V} (b : Base t) (nr : ∀ i, i < t.n → t.dibs i ≠ REHASH) {idx right : Nat} (hi : idx < t.n) (hr : right < t.n)
    (hn : ∀ p, p < t.n → steps t.n idx p < steps t.n idx right → ¬ Stop t p) :
    ∀ fuel (u : Table K V) s prv, Shifted t u idx s → prv < t.n → dist t.n prv idx = s → s + 1 ≤ steps t.n idx right → t.n < fuel + s →
      ∃ t' prv', shiftLoop fuel u right prv (next t.n prv) = .ok (t', prv') ∧ prv' < t.n ∧ dist t.n prv' idx + 1 = steps t.n idx right ∧
        Shifted t t' idx (dist t.n prv' idx)
  | 0, u, s, prv, _, hp, hd, _, hf => by have := dist_lt hp hi; omega
  | fuel + 1, u, s, prv, sh, hp, hd, hle, hf => by
    unfold shiftLoop
    have hsteps : steps t.n idx (next t.n prv) = s + 1 := by
      by_cases h : prv = idx
      · subst h; rw [steps_first hi]; rw [dist_self] at hd; omega
      · rw [steps_next hi hp h]; unfold steps; rw [if_neg h, hd]
    by_cases he : next t.n prv = right
    · rw [if_pos he]
      exact ⟨u, prv, rfl, hp, by rw [hd, ← he, hsteps], by rw [hd]; exact sh⟩
    · rw [if_neg he, if_neg (by have := next_lt hp; rw [sh.same.n]; omega)]
      have hlt : s + 1 < steps t.n idx right := by
        apply Classical.byContradiction
        intro h
        exact he (steps_inj hi (next_lt hp) hr (by omega))
      have hle2 := steps_le hi hr
      have hne : next t.n prv ≠ idx := by
        intro h
        rw [h] at hsteps; unfold steps at hsteps; rw [if_pos rfl] at hsteps; omega
      have hdist : dist t.n (next t.n prv) idx = s + 1 := by
        rw [← hsteps]; unfold steps; rw [if_neg hne]
      obtain ⟨k1, k2⟩ := sh.kept _ (next_lt hp) (show s ≤ dist t.n (next t.n prv) idx by omega)
      obtain ⟨hs, hD⟩ := b.nonstop nr (next_lt hp) (hn _ (next_lt hp) (by omega))
      have hcalc : calcDib u (next t.n prv) (u.dibs (next t.n prv)) = .ok (D t (next t.n prv)) := by
        rw [← b.calc (next_lt hp) hs, k1]
        unfold calcDib home
        rw [k2, sh.same.n, sh.same.hash]
      rw [hcalc]
      simp only [Res.bind_ok]
      rw [show Res.assert (decide (D t (next t.n prv) ≠ 0)) = .ok () from by rw [decide_eq_true (by omega)]; rfl]
      simp only [Res.bind_ok]
      have hnu : u.n = t.n := sh.same.n
      have sh' : Shifted t { u with dibs := upd u.dibs prv (rawDib (D t (next t.n prv) - 1)), ents := upd u.ents prv (u.ents (next t.n prv)) } idx (s + 1) := by
        refine ⟨⟨sh.same.kind, sh.same.indirect, sh.same.n, sh.same.count, sh.same.hash, sh.same.shared⟩, sh.lowest, ?_, ?_⟩
        · intro p hp' hpd
          by_cases h : p = prv
          · subst h
            simp only [upd_same]
            exact ⟨trivial, k2⟩
          · have hlt2 : dist t.n p idx < s := by
              have : dist t.n p idx ≠ s := fun hx => h (dist_inj hp' hp hi (by omega))
              omega
            show upd u.dibs prv _ p = _ ∧ upd u.ents prv _ p = _
            rw [upd_ne _ _ h, upd_ne _ _ h]
            exact sh.moved p hp' hlt2
        · intro p hp' hpd
          have h : p ≠ prv := by intro h; subst h; omega
          show upd u.dibs prv _ p = _ ∧ upd u.ents prv _ p = _
          rw [upd_ne _ _ h, upd_ne _ _ h]
          exact sh.kept p hp' (by omega)
      have := shiftLoop_ok b nr hi hr hn fuel _ (s + 1) (next t.n prv) sh' (next_lt hp) hdist (by omega) (by omega)
      rw [← hnu] at this ⊢
      exact this

/-- What removing the entry of bucket `idx` does. -/
structure Removed (t t' : Table K V) (idx : Nat) : Prop where
  base : Base t'
  kind : t'.kind = t.kind
  indirect : t'.indirect = t.indirect
  n : t'.n = t.n
  hash : t'.hash = t.hash
  shared : t'.shared = t.shared
  count : t'.count = t.count - 1
  nr : ∀ i, i < t.n → t'.dibs i ≠ REHASH
  free : ∃ w, w < t.n ∧ t'.dibs w = FREE ∧ t'.ents w = none ∧ Occ t w ∧ ∀ i, i < t.n → i ≠ w → (Occ t' i ↔ Occ t i)
  back : ∀ p, p < t.n → Occ t' p → ∃ q, q < t.n ∧ q ≠ idx ∧ Occ t q ∧ t'.ents p = t.ents q
  forth : ∀ q, q < t.n → q ≠ idx → Occ t q → (Occ t' (prev t.n q) ∧ t'.ents (prev t.n q) = t.ents q) ∨ (Occ t' q ∧ t'.ents q = t.ents q)

theorem Base.removeEntry {t : Table K V} (b : Base t) (nr : ∀ i, i < t.n → t.dibs i ≠ REHASH) {z : Nat} (hz : z < t.n) (sz : Stop t z)
    {idx : Nat} (hi : idx < t.n) (ho : Occ t idx) : ∃ t', removeEntry t idx = .ok t' ∧ Removed t t' idx := by
  obtain ⟨right, hfr, hr, hstop, hn⟩ := findRight_ok hi hz sz (t.n + 1) (next t.n idx) (next_lt hi)
    (by rw [steps_first hi]; omega) (by intro p hp h; rw [steps_first hi] at h; have := steps_le hi hp; omega)
  have hM := steps_le hi hr
  obtain ⟨u, w, hsl, hw, hwd, sh⟩ := shiftLoop_ok b nr hi hr hn (t.n + 1) t 0 idx
    ⟨Same.refl t, rfl, fun p _ h => absurd h (Nat.not_lt_zero _), fun p _ _ => ⟨rfl, rfl⟩⟩ hi (dist_self _ _) (by omega) (by omega)
  -- the number of buckets that take part
  generalize hMe : steps t.n idx right = M at *
  have hds : ∀ p, p < t.n → p ≠ idx → steps t.n idx p = dist t.n p idx := by
    intro p _ h; unfold steps; rw [if_neg h]
  have hd0 : ∀ p, p < t.n → p ≠ idx → 0 < dist t.n p idx := by
    intro p hp h
    have : dist t.n p idx ≠ 0 := fun hx => h (dist_zero hp hi hx)
    omega
  have hns : ∀ p, p < t.n → p ≠ idx → dist t.n p idx < M → Settled t p ∧ 0 < D t p := by
    intro p hp h hlt
    exact b.nonstop nr hp (hn p hp (by rw [hds p hp h]; exact hlt))
  -- moved buckets
  have hnx : ∀ p, p < t.n → dist t.n p idx + 1 < M → next t.n p ≠ idx ∧ dist t.n (next t.n p) idx = dist t.n p idx + 1 := by
    intro p hp h
    have h1 := dist_next hp hi (by omega)
    refine ⟨fun hx => ?_, h1⟩
    rw [hx, dist_self] at h1; omega
  let t' : Table K V := { u with dibs := upd u.dibs w FREE, ents := upd u.ents w none, count := u.count - 1 }
  have hrun : Hashmap.removeEntry t idx = .ok t' := by
    unfold Hashmap.removeEntry
    rw [show Res.assert (decide (idx < t.n ∧ t.dibs idx ≠ FREE)) = .ok () from by rw [decide_eq_true ⟨hi, ho⟩]; rfl]
    simp only [Res.bind_ok]
    rw [hfr]
    simp only [Res.bind_ok]
    rw [hsl]
    rfl
  have hun : u.n = t.n := sh.same.n
  have hnw : ∀ p, p < t.n → p ≠ w → dist t.n p idx ≠ M - 1 := by
    intro p hp h hx
    exact h (dist_inj hp hw hi (by omega))
  -- the three kinds of buckets
  have c1 : ∀ p, p < t.n → dist t.n p idx + 1 < M → t'.dibs p = rawDib (D t (next t.n p) - 1) ∧ t'.ents p = t.ents (next t.n p) := by
    intro p hp h
    have hpw : p ≠ w := by intro hx; subst hx; omega
    show upd u.dibs w FREE p = _ ∧ upd u.ents w none p = _
    rw [upd_ne _ _ hpw, upd_ne _ _ hpw]
    exact sh.moved p hp (by omega)
  have c2 : t'.dibs w = FREE := by show upd u.dibs w FREE w = _; rw [upd_same]
  have c3 : ∀ p, p < t.n → M ≤ dist t.n p idx → t'.dibs p = t.dibs p ∧ t'.ents p = t.ents p := by
    intro p hp h
    have hpw : p ≠ w := by intro hx; subst hx; omega
    show upd u.dibs w FREE p = _ ∧ upd u.ents w none p = _
    rw [upd_ne _ _ hpw, upd_ne _ _ hpw]
    exact sh.kept p hp (by omega)
  have hhome : ∀ k, home t' k = home t k := by
    intro k
    show u.hash k % u.n = t.hash k % t.n
    rw [sh.same.hash, sh.same.n]
  have tn : t'.n = t.n := hun
  -- distances
  have d1 : ∀ p, p < t.n → dist t.n p idx + 1 < M → D t' p = D t (next t.n p) - 1 ∧ 0 < D t (next t.n p) ∧ Settled t (next t.n p) ∧
      ∃ e, t'.ents p = some e ∧ dist t.n p (home t e.1) = D t (next t.n p) - 1 := by
    intro p hp h
    obtain ⟨x1, x2⟩ := hnx p hp h
    obtain ⟨s, pos⟩ := hns _ (next_lt hp) x1 (by omega)
    obtain ⟨e, he, hde, _⟩ := b.settled (next_lt hp) s
    have hpd := dist_prev (next_lt hp) (home_lt b.pos (t := t) e.1) (by omega)
    rw [prev_next hp] at hpd
    have he' : t'.ents p = some e := by rw [(c1 p hp h).2, he]
    refine ⟨?_, pos, s, e, he', by omega⟩
    unfold D
    rw [he', he]
    simp only
    rw [hhome, tn]; omega
  have d3 : ∀ p, p < t.n → M ≤ dist t.n p idx → D t' p = D t p := by
    intro p hp h
    unfold D
    rw [(c3 p hp h).2]
    cases t.ents p with
    | none => rfl
    | some e => simp only; rw [hhome, tn]
  have hDu : ∀ p, p < t.n → D t p - 1 < UINT_MAX := by
    intro p hp; have := D_lt b.pos hp (t := t); have := b.le; omega
  have s1 : ∀ p, p < t.n → dist t.n p idx + 1 < M → Settled t' p := by
    intro p hp h
    unfold Settled
    rw [(c1 p hp h).1, rawDib_lt (hDu _ (next_lt hp))]
    unfold OVERFLOW REHASH; omega
  have s3 : ∀ p, p < t.n → M ≤ dist t.n p idx → (Settled t' p ↔ Settled t p) := by
    intro p hp h; unfold Settled; rw [(c3 p hp h).1]
  have tri : ∀ p, p < t.n → dist t.n p idx + 1 < M ∨ p = w ∨ M ≤ dist t.n p idx := by
    intro p hp
    by_cases h : p = w
    · exact .inr (.inl h)
    · have := hnw p hp h; omega
  have o1 : ∀ p, p < t.n → dist t.n p idx + 1 < M → Occ t' p ∧ Occ t p := by
    intro p hp h
    refine ⟨(s1 p hp h).occ, ?_⟩
    by_cases hx : p = idx
    · rw [hx]; exact ho
    · exact (hns p hp hx (by omega)).1.occ
  have o3 : ∀ p, p < t.n → M ≤ dist t.n p idx → (Occ t' p ↔ Occ t p) := by
    intro p hp h; unfold Occ; rw [(c3 p hp h).1]
  have ow : Occ t w := by
    by_cases hx : w = idx
    · rw [hx]; exact ho
    · exact (hns w hw hx (by omega)).1.occ
  have back : ∀ p, p < t.n → Occ t' p → ∃ q, q < t.n ∧ q ≠ idx ∧ Occ t q ∧ t'.ents p = t.ents q ∧
      ((q = next t.n p ∧ dist t.n p idx + 1 < M) ∨ (q = p ∧ M ≤ dist t.n p idx)) := by
    intro p hp hop
    rcases tri p hp with h | h | h
    · exact ⟨next t.n p, next_lt hp, (hnx p hp h).1, (d1 p hp h).2.2.1.occ, (c1 p hp h).2, .inl ⟨rfl, h⟩⟩
    · subst h; exact absurd c2 hop
    · refine ⟨p, hp, ?_, (o3 p hp h).1 hop, (c3 p hp h).2, .inr ⟨rfl, h⟩⟩
      intro hx; rw [hx, dist_self] at h; omega
  refine ⟨t', hrun, ?_⟩
  refine ⟨⟨?_, ?_, ?_, ?_, ?_, ?_⟩, sh.same.kind, sh.same.indirect, hun, sh.same.hash, sh.same.shared, ?_, ?_, ?_, ?_, ?_⟩
  · rw [tn]; exact b.pos
  · rw [tn]; exact b.le
  · intro p hp
    rw [tn] at hp ⊢
    rcases tri p hp with h | h | h
    · obtain ⟨_, _, _, e, he, hde⟩ := d1 p hp h
      refine .inr ⟨e, he, .inr ?_⟩
      rw [(c1 p hp h).1, rawDib_lt (hDu _ (next_lt hp)), hhome, hde]
    · subst h; exact .inl c2
    · have := b.slot p hp
      rw [(c3 p hp h).1, (c3 p hp h).2]
      simp only [hhome]
      exact this
  · intro p hp hs hD
    rw [tn] at hp ⊢
    rcases tri p hp with h | h | h
    · obtain ⟨hd, hpos, hsn, _⟩ := d1 p hp h
      rw [hd] at hD ⊢
      obtain ⟨_, hl⟩ := b.loc _ (next_lt hp) hsn hpos
      rw [prev_next hp] at hl
      by_cases hx : p = idx
      · subst hx
        have hsp : Settled t p := b.free nr hp ho
        obtain ⟨hsq, hlq⟩ := b.loc p hp hsp (by omega)
        -- the predecessor is not part of the shift
        have hMn : M ≤ dist t.n (prev t.n p) p := by
          apply Classical.byContradiction
          intro hlt
          have hpq : dist t.n (prev t.n p) p = t.n - 1 := by
            rw [prev_eq hp]; unfold dist; split <;> split <;> omega
          have hMt : M = t.n := by omega
          -- then the entry removed is at distance 0
          have hrx : right = p := by
            apply Classical.byContradiction
            intro hne
            rw [hds right hr hne] at hMe
            have := dist_lt hr hp
            omega
          rw [hrx] at hstop
          rcases hstop with h0 | h0
          · obtain ⟨e, _, _, hrw⟩ := b.settled hp hsp
            unfold OVERFLOW at hrw; omega
          · exact ho h0
        rw [s3 _ (prev_lt hp) hMn, d3 _ (prev_lt hp) hMn]
        exact ⟨hsq, by omega⟩
      · have hq := prev_lt hp
        have hdp := dist_prev hp hi (hd0 p hp hx)
        refine ⟨s1 _ hq (by omega), ?_⟩
        rw [(d1 _ hq (by omega)).1, next_prev hp]
        have := (hns p hp hx (by omega)).2
        omega
    · subst h
      exact absurd c2 hs.occ
    · have hx : p ≠ idx := by intro hx; rw [hx, dist_self] at h; omega
      rw [s3 p hp h] at hs
      rw [d3 p hp h] at hD ⊢
      obtain ⟨hsq, hlq⟩ := b.loc p hp hs hD
      have hdp := dist_prev hp hi (hd0 p hp hx)
      have hMn : M ≤ dist t.n (prev t.n p) idx := by
        apply Classical.byContradiction
        intro hlt
        -- this is the bucket at which the shift stops
        have hpr : p = right := by
          refine steps_inj hi hp hr ?_
          rw [hds p hp hx, hMe]; omega
        rw [← hpr] at hstop
        rcases hstop with h0 | h0
        · obtain ⟨e, _, _, hrw⟩ := b.settled hp hs
          unfold OVERFLOW at hrw; omega
        · exact hs.occ h0
      rw [s3 _ (prev_lt hp) hMn, d3 _ (prev_lt hp) hMn]
      exact ⟨hsq, hlq⟩
  · intro p q hp hq hop hoq e e' he he' hk
    rw [tn] at hp hq
    obtain ⟨p', hp', _, hop', hep, hcp⟩ := back p hp hop
    obtain ⟨q', hq', _, hoq', heq, hcq⟩ := back q hq hoq
    rw [hep] at he; rw [heq] at he'
    have hpq := b.inj p' q' hp' hq' hop' hoq' e e' he he' hk
    rcases hcp with ⟨h1, h2⟩ | ⟨h1, h2⟩ <;> rcases hcq with ⟨h3, h4⟩ | ⟨h3, h4⟩
    · have : prev t.n (next t.n p) = prev t.n (next t.n q) := by rw [← h1, ← h3, hpq]
      rw [prev_next hp, prev_next hq] at this; exact this
    · have := (hnx p hp h2).2
      rw [← h1, hpq, h3] at this; omega
    · have := (hnx q hq h4).2
      rw [← h3, ← hpq, h1] at this; omega
    · omega
  · intro hin p hp hop
    rw [tn] at hp
    show u.lowest ≤ p
    rw [sh.lowest]
    refine b.low (by rw [← sh.same.indirect]; exact hin) p hp ?_
    rcases tri p hp with h | h | h
    · exact (o1 p hp h).2
    · rw [h]; exact ow
    · exact (o3 p hp h).1 hop
  · show u.count - 1 = _
    rw [sh.same.count]
  · intro p hp
    rcases tri p hp with h | h | h
    · have := s1 p hp h; unfold Settled at this; omega
    · rw [h, c2]; decide
    · rw [(c3 p hp h).1]; exact nr p hp
  · refine ⟨w, hw, c2, (show upd u.ents w none w = none from upd_same _ _ _), ow, ?_⟩
    intro p hp hne
    rcases tri p hp with h | h | h
    · exact ⟨fun _ => (o1 p hp h).2, fun _ => (o1 p hp h).1⟩
    · exact absurd h hne
    · exact o3 p hp h
  · intro p hp hop
    obtain ⟨q, h1, h2, h3, h4, _⟩ := back p hp hop
    exact ⟨q, h1, h2, h3, h4⟩
  · intro q hq hne hoq
    by_cases h : dist t.n q idx < M
    · left
      have hdp := dist_prev hq hi (hd0 q hq hne)
      have h2 : dist t.n (prev t.n q) idx + 1 < M := by omega
      refine ⟨(o1 _ (prev_lt hq) h2).1, ?_⟩
      rw [(c1 _ (prev_lt hq) h2).2, next_prev hq]
    · exact .inr ⟨(o3 q hq (by omega)).2 hoq, (c3 q hq (by omega)).2⟩

end Casync.Hashmap
