import Verif.Lemmas.HashInv
import Verif.Spec.Hashmap
/-! The operations of hash tables, one by one. -/
set_option linter.unusedSectionVars false
namespace Casync.Hashmap
open Casync
open Spec (Distinct without)
variable {K V : Type} [DecidableEq K] [DecidableEq V]

/-- A sound table and the map that it stands for. -/
structure Rep (t : Table K V) (l : List (K × V)) : Prop where
  inv : Inv t
  mem : ∀ e, e ∈ l ↔ Has t e
  distinct : Distinct l
  length : l.length = t.count

theorem Rep.key {t : Table K V} {l : List (K × V)} (h : Rep t l) {k : K} {v w : V} (h1 : (k, v) ∈ l) (h2 : (k, w) ∈ l) : v = w := by
  obtain ⟨i, hi, ho, he⟩ := (h.mem _).1 h1
  obtain ⟨j, hj, ho', he'⟩ := (h.mem _).1 h2
  have := h.inv.base.inj i j hi hj ho ho' _ _ he he' rfl
  subst this
  rw [he] at he'; cases he'; rfl

/-! ## Lists -/

theorem mem_without {k : K} {l : List (K × V)} {e : K × V} : e ∈ without k l ↔ e ∈ l ∧ e.1 ≠ k := by
  unfold without; rw [List.mem_filter]; simp

theorem without_distinct {k : K} {l : List (K × V)} (h : Distinct l) : Distinct (without k l) := h.filter _

theorem without_none {k : K} : ∀ {l : List (K × V)}, (∀ w, (k, w) ∉ l) → without k l = l
  | [], _ => rfl
  | e :: l, h => by
    unfold without
    rw [List.filter_cons_of_pos]
    · have := without_none (k := k) (l := l) (fun w hw => h w (List.mem_cons_of_mem _ hw))
      unfold without at this; rw [this]
    · have : e.1 ≠ k := by intro hk; exact h e.2 (by rw [← hk]; exact List.mem_cons_self)
      simpa using this

theorem without_length {k : K} {v : V} : ∀ {l : List (K × V)}, Distinct l → (k, v) ∈ l → (without k l).length + 1 = l.length
  | e :: l, hd, hm => by
    rw [Distinct, List.pairwise_cons] at hd
    by_cases hk : e.1 = k
    · have : ∀ w, (k, w) ∉ l := fun w hw => hd.1 _ hw hk
      unfold without
      rw [List.filter_cons_of_neg (by simpa using hk)]
      have h2 := without_none this
      unfold without at h2; rw [h2]; rfl
    · unfold without
      rw [List.filter_cons_of_pos (by simpa using hk)]
      have hm' : (k, v) ∈ l := by
        rcases List.mem_cons.1 hm with h | h
        · rw [← h] at hk; exact absurd rfl hk
        · exact h
      have := without_length hd.2 hm'
      unfold without at this
      simp only [List.length_cons]; omega

theorem cons_distinct {k : K} {v : V} {l : List (K × V)} (h : Distinct l) (hn : ∀ w, (k, w) ∉ l) : Distinct ((k, v) :: l) := by
  rw [Distinct, List.pairwise_cons]
  refine ⟨?_, h⟩
  intro e he hk
  exact hn e.2 (by rw [show k = e.1 from hk]; exact he)

/-! ## Looking up -/

theorem Rep.scan {t : Table K V} {l : List (K × V)} (h : Rep t l) (k : K) :
    (∃ p v, p < t.n ∧ Occ t p ∧ t.ents p = some (k, v) ∧ Hashmap.scan t k = .ok (some p) ∧ (k, v) ∈ l) ∨
    ((∀ v, (k, v) ∉ l) ∧ Hashmap.scan t k = .ok none) := by
  rcases h.inv.base.scan h.inv.nr k with ⟨p, e, hp, ho, he, hk, hs⟩ | ⟨h1, h2⟩
  · left
    obtain ⟨ek, ev⟩ := e
    cases hk
    exact ⟨p, ev, hp, ho, he, hs, (h.mem _).2 ⟨p, hp, ho, he⟩⟩
  · right
    exact ⟨fun v hv => h1 v ((h.mem _).1 hv), h2⟩

/-! ## Adding -/

theorem Inv.putIn {t : Table K V} (h : Inv t) {c : K × V} (fresh : ∀ v, ¬ Has t (c.1, v)) (hlt : t.count < t.n) :
    ∃ t', putRobinHood t (home t c.1) c = .ok (t', none) ∧ Inv { t' with count := t'.count + 1 } ∧ Same t t' ∧
      ∀ e, Has t' e ↔ (Has t e ∨ e = c) := by
  have b := h.base
  have hle := nSettled_le t
  have hc := h.count
  obtain ⟨t', r, hrun, P⟩ := b.put fresh (unsettled_of_lt (by omega))
  obtain ⟨p1, p2, p3, _⟩ := P.counts b
  have hr : r = none := by
    obtain ⟨u, hu, hs, _, hr, _⟩ := P.spot
    rw [if_neg (h.nr u hu)] at hr; exact hr
  subst hr
  simp only [Option.isSome_none, Bool.false_eq_true, if_false] at p2
  have hnr : ∀ i, i < t'.n → t'.dibs i ≠ REHASH := by
    intro i hi hx
    have hi' : i < t.n := by rw [← P.same.n]; exact hi
    exact h.nr i hi' (p3 i hi' hx)
  refine ⟨t', hrun, ⟨?_, hnr, ?_, ?_, ?_, ?_⟩, P.same, ?_⟩
  · exact ⟨P.base.pos, P.base.le, P.base.slot, P.base.loc, P.base.inj, P.base.low⟩
  · show t'.count + 1 = nOcc t'
    rw [P.same.count, p2, hc]
  · obtain ⟨z, hz, hst⟩ := P.stop
    refine ⟨z, by show z < t'.n; rw [P.same.n]; exact hz, ?_⟩
    have hz' : z < t'.n := by rw [P.same.n]; exact hz
    show t'.dibs z = 0 ∨ t'.dibs z = FREE
    by_cases hs : Settled t' z
    · obtain ⟨e, _, _, hd⟩ := P.base.settled hz' hs
      left; rw [hd, hst.resolve_left (fun x => x hs)]; rfl
    · rcases P.base.unsettled hz' hs with hf | ⟨hf, _⟩
      · exact .inr hf
      · exact absurd hf (hnr z hz')
  · intro hx
    show t'.n = t'.kind.direct
    rw [P.same.n, P.same.kind]
    exact h.direct (by rw [← P.same.indirect]; exact hx)
  · intro hx
    show ∃ k, k < 32 ∧ t'.n = 2 ^ k / (t'.kind.entrySize + 1)
    rw [P.same.n, P.same.kind]
    exact h.big (by rw [← P.same.indirect]; exact hx)
  · intro e
    have := P.has e
    simpa using this

theorem Rep.cons {t t' : Table K V} {l : List (K × V)} {k : K} {v : V} (h : Rep t l) (i : Inv t') (hn : ∀ w, (k, w) ∉ l)
    (hc : t'.count = t.count + 1) (hh : ∀ e, Has t' e ↔ (Has t e ∨ e = (k, v))) : Rep t' ((k, v) :: l) := by
  refine ⟨i, ?_, cons_distinct h.distinct hn, ?_⟩
  · intro e
    rw [hh e, ← h.mem e, List.mem_cons]
    exact ⟨fun x => x.elim .inr .inl, fun x => x.elim .inr .inl⟩
  · rw [hc, List.length_cons, h.length]

theorem Resized.rep {t t' : Table K V} {l : List (K × V)} (h : Rep t l) (r : Resized t t') : Rep t' l :=
  ⟨r.inv, fun e => (h.mem e).trans (r.has e).symm, h.distinct, by rw [r.count, h.length]⟩

/-- The table as a whole is of the same kind. -/
structure Kept (t t' : Table K V) : Prop where
  kind : t'.kind = t.kind
  shared : t'.shared = t.shared

theorem Rep.putBoldly {t : Table K V} {l : List (K × V)} (h : Rep t l) (env : Env K) {k : K} {v : V} (hn : ∀ w, (k, w) ∉ l)
    (hs : Sized t.kind (l.length + 1)) :
    (Hashmap.putBoldly env t (k, v) true = .err .ENOMEM ∧ (Fit t.kind (l.length + 1) → env.alloc = false)) ∨
    ∃ t', Hashmap.putBoldly env t (k, v) true = .ok t' ∧ Rep t' ((k, v) :: l) ∧ Kept t t' := by
  unfold Hashmap.putBoldly
  rw [h.length] at hs
  rcases h.inv.resize env 1 (by decide) hs with ⟨he, hm⟩ | ⟨t1, b, he, R, hle, _⟩
  · left; rw [if_pos rfl, he]; exact ⟨rfl, by rw [h.length]; exact hm⟩
  · right
    rw [if_pos rfl, he]
    simp only [Res.bind_ok]
    have h1 := R.rep h
    have hlt : t1.count < t1.n := by rw [R.count]; omega
    obtain ⟨t', hrun, hi, hsame, hhas⟩ := h1.inv.putIn (c := (k, v)) (fun w hw => hn w ((h1.mem _).2 hw)) hlt
    rw [show Res.assert (decide (t1.count < t1.n)) = .ok () from by rw [decide_eq_true hlt]; rfl]
    simp only [Res.bind_ok]
    rw [hrun]
    refine ⟨_, rfl, ?_, ?_⟩
    · refine h1.cons hi hn ?_ hhas
      show t'.count + 1 = _
      rw [hsame.count]
    · exact ⟨hsame.kind.trans R.kind, hsame.shared.trans R.shared⟩

theorem Rep.putBoldlyNoResize {t : Table K V} {l : List (K × V)} (h : Rep t l) (env : Env K) {k : K} {v : V} (hn : ∀ w, (k, w) ∉ l)
    (hlt : t.count < t.n) : ∃ t', Hashmap.putBoldly env t (k, v) false = .ok t' ∧ Rep t' ((k, v) :: l) ∧ Kept t t' := by
  unfold Hashmap.putBoldly
  rw [if_neg (by decide)]
  simp only [Res.bind_ok]
  obtain ⟨t', hrun, hi, hsame, hhas⟩ := h.inv.putIn (c := (k, v)) (fun w hw => hn w ((h.mem _).2 hw)) hlt
  rw [show Res.assert (decide (t.count < t.n)) = .ok () from by rw [decide_eq_true hlt]; rfl]
  simp only [Res.bind_ok]
  rw [hrun]
  refine ⟨_, rfl, ?_, ⟨hsame.kind, hsame.shared⟩⟩
  refine h.cons hi hn ?_ hhas
  show t'.count + 1 = _
  rw [hsame.count]

/-! ## Removing -/

theorem Rep.removeEntry {t : Table K V} {l : List (K × V)} (h : Rep t l) {p : Nat} {k : K} {v : V} (hp : p < t.n) (ho : Occ t p)
    (he : t.ents p = some (k, v)) :
    ∃ t', Hashmap.removeEntry t p = .ok t' ∧ Rep t' (without k l) ∧ Kept t t' ∧ t'.n = t.n ∧ t'.count < t.n ∧ Removed t t' p := by
  obtain ⟨z, hz, sz⟩ := h.inv.stop
  obtain ⟨t', hrun, R⟩ := h.inv.base.removeEntry h.inv.nr hz sz hp ho
  have hm : (k, v) ∈ l := (h.mem _).2 ⟨p, hp, ho, he⟩
  have hlen := without_length h.distinct hm
  have hcn := h.inv.count_le
  have hl := h.length
  obtain ⟨w, hw, hwf, _, how, hoth⟩ := R.free
  have hocc : nOcc t = nOcc t' + 1 := by
    unfold nOcc
    rw [R.n]
    refine cnt_set hw (decide_eq_false (fun x => x hwf)) (decide_eq_true how) ?_
    intro i hi hne
    exact decide_eq_decide.2 (hoth i hi hne)
  refine ⟨t', hrun, ⟨⟨R.base, ?_, ?_, ?_, ?_, ?_⟩, ?_, without_distinct h.distinct, ?_⟩, ⟨R.kind, R.shared⟩, R.n, ?_, R⟩
  · intro i hi; exact R.nr i (by rw [← R.n]; exact hi)
  · rw [R.count, h.inv.count]; omega
  · exact ⟨w, by rw [R.n]; exact hw, .inr hwf⟩
  · intro hx; rw [R.n, R.kind]; exact h.inv.direct (by rw [← R.indirect]; exact hx)
  · intro hx; rw [R.n, R.kind]; exact h.inv.big (by rw [← R.indirect]; exact hx)
  · intro e
    rw [mem_without, h.mem e]
    constructor
    · rintro ⟨⟨q, hq, hoq, heq⟩, hk⟩
      have hne : q ≠ p := by intro hx; subst hx; rw [he] at heq; cases heq; exact hk rfl
      rcases R.forth q hq hne hoq with ⟨h1, h2⟩ | ⟨h1, h2⟩
      · exact ⟨prev t.n q, by rw [R.n]; exact prev_lt hq, h1, by rw [h2]; exact heq⟩
      · exact ⟨q, by rw [R.n]; exact hq, h1, by rw [h2]; exact heq⟩
    · rintro ⟨q, hq, hoq, heq⟩
      rw [R.n] at hq
      obtain ⟨q', hq', hne, hoq', hee⟩ := R.back q hq hoq
      rw [hee] at heq
      refine ⟨⟨q', hq', hoq', heq⟩, ?_⟩
      intro hk
      exact hne (h.inv.base.inj q' p hq' hp hoq' ho _ _ heq he hk)
  · rw [R.count]; omega
  · rw [R.count]; omega

/-! ## Iterating -/

theorem skipFree_none {d : Nat → Nat} : ∀ {m s : Nat}, skipFree d s m = none → ∀ i, s ≤ i → i < s + m → d i = FREE
  | 0, _, _ => by intro i h1 h2; omega
  | m + 1, s, h => by
    unfold skipFree at h
    by_cases hf : d s ≠ FREE
    · rw [if_pos hf] at h; cases h
    · rw [if_neg hf] at h
      intro i h1 h2
      by_cases he : i = s
      · rw [he]; exact Classical.byContradiction hf
      · exact skipFree_none h i (by omega) (by omega)

theorem skipFree_some {d : Nat → Nat} : ∀ {m s j : Nat}, skipFree d s m = some j →
    s ≤ j ∧ j < s + m ∧ d j ≠ FREE ∧ ∀ i, s ≤ i → i < j → d i = FREE
  | 0, _, _, h => by cases h
  | m + 1, s, j, h => by
    unfold skipFree at h
    by_cases hf : d s ≠ FREE
    · rw [if_pos hf] at h; cases h
      exact ⟨Nat.le_refl _, by omega, hf, by intro i h1 h2; omega⟩
    · rw [if_neg hf] at h
      obtain ⟨h1, h2, h3, h4⟩ := skipFree_some h
      refine ⟨by omega, by omega, h3, ?_⟩
      intro i h5 h6
      by_cases he : i = s
      · rw [he]; exact Classical.byContradiction hf
      · exact h4 i (by omega) h6

/-- The entries of `m` buckets from `s` on. -/
def collect (t : Table K V) : Nat → Nat → List (K × V)
  | 0, _ => []
  | m + 1, s =>
    if t.dibs s ≠ FREE then
      match t.ents s with
      | some e => e :: collect t m (s + 1)
      | none => collect t m (s + 1)
    else collect t m (s + 1)

theorem mem_collect {t : Table K V} {e : K × V} : ∀ {m s : Nat}, e ∈ collect t m s ↔ ∃ i, s ≤ i ∧ i < s + m ∧ Occ t i ∧ t.ents i = some e
  | 0, s => by
    unfold collect
    constructor
    · intro h; cases h
    · rintro ⟨i, h1, h2, _⟩; omega
  | m + 1, s => by
    unfold collect
    have rest : (∃ i, s + 1 ≤ i ∧ i < s + 1 + m ∧ Occ t i ∧ t.ents i = some e) →
        ∃ i, s ≤ i ∧ i < s + (m + 1) ∧ Occ t i ∧ t.ents i = some e := by
      rintro ⟨i, h1, h2, h3⟩; exact ⟨i, by omega, by omega, h3⟩
    by_cases hf : t.dibs s ≠ FREE
    · rw [if_pos hf]
      cases he : t.ents s with
      | none =>
        simp only
        rw [mem_collect]
        refine ⟨rest, ?_⟩
        rintro ⟨i, h1, h2, h3, h4⟩
        have : i ≠ s := by intro hx; subst hx; rw [he] at h4; cases h4
        exact ⟨i, by omega, by omega, h3, h4⟩
      | some e' =>
        simp only [List.mem_cons]
        rw [mem_collect]
        constructor
        · rintro (h | h)
          · subst h; exact ⟨s, by omega, by omega, hf, he⟩
          · exact rest h
        · rintro ⟨i, h1, h2, h3, h4⟩
          by_cases hx : i = s
          · subst hx; rw [he] at h4; cases h4; exact .inl rfl
          · exact .inr ⟨i, by omega, by omega, h3, h4⟩
    · rw [if_neg hf, mem_collect]
      refine ⟨rest, ?_⟩
      rintro ⟨i, h1, h2, h3, h4⟩
      have : i ≠ s := by intro hx; subst hx; exact hf h3
      exact ⟨i, by omega, by omega, h3, h4⟩

theorem collect_distinct {t : Table K V} (b : Base t) : ∀ {m s : Nat}, s + m ≤ t.n → Distinct (collect t m s)
  | 0, _, _ => List.Pairwise.nil
  | m + 1, s, h => by
    unfold collect
    by_cases hf : t.dibs s ≠ FREE
    · rw [if_pos hf]
      cases he : t.ents s with
      | none => exact collect_distinct b (by omega)
      | some e' =>
        simp only
        rw [Distinct, List.pairwise_cons]
        refine ⟨?_, collect_distinct b (by omega)⟩
        intro x hx hk
        obtain ⟨i, h1, h2, h3, h4⟩ := mem_collect.1 hx
        have := b.inj s i (by omega) (by omega) hf h3 _ _ he h4 hk
        omega
    · rw [if_neg hf]; exact collect_distinct b (by omega)

/-- The iterator that will deliver the first entry from `s` on. -/
def iterAt (t : Table K V) (s : Nat) : Res (Iter K) :=
  match skipFree t.dibs s (t.n - s) with
  | none => .ok .done
  | some j => do
    let e ← entryAt t j
    .ok (.at j e.1)

theorem advance_eq (t : Table K V) (idx : Nat) : advance t idx = (do let it ← iterAt t (idx + 1); .ok (idx, it)) := by
  unfold advance iterAt
  cases skipFree t.dibs (idx + 1) (t.n - (idx + 1)) with
  | none => rfl
  | some j =>
    simp only
    unfold entryAt
    cases t.ents j <;> rfl

theorem foreach_from {t : Table K V} (b : Base t) : ∀ (m : Nat) {s fuel : Nat}, s + m = t.n → 0 < s → m < fuel →
    ∃ it, iterAt t s = .ok it ∧ Hashmap.foreach fuel t it = .ok (t, collect t m s)
  | 0, s, fuel, hs, _, hf => by
    refine ⟨.done, ?_, ?_⟩
    · unfold iterAt; rw [show t.n - s = 0 by omega]; rfl
    · match fuel, hf with
      | fuel + 1, _ => rfl
  | m + 1, s, fuel, hs, h0, hf => by
    by_cases hfr : t.dibs s ≠ FREE
    · obtain ⟨e, he⟩ := b.ent (i := s) (by omega) hfr
      refine ⟨.at s e.1, ?_, ?_⟩
      · unfold iterAt
        rw [show t.n - s = m + 1 by omega]
        unfold skipFree
        rw [if_pos hfr]
        simp only
        unfold entryAt
        rw [he]; rfl
      · match fuel, hf with
        | fuel + 1, hf =>
          obtain ⟨it, h1, h2⟩ := foreach_from b m (s := s + 1) (fuel := fuel) (by omega) (by omega) (by omega)
          unfold Hashmap.foreach iterate
          simp only
          rw [show Res.assert (decide (s > 0)) = .ok () from by rw [decide_eq_true h0]; rfl]
          simp only [Res.bind_ok]
          have hk : Option.map (·.1) (t.ents s) = some e.1 := by rw [he]; rfl
          rw [if_neg (by rw [hk]; exact fun h => h rfl), hk]
          rw [show Res.assert (decide (some e.1 = some e.1)) = .ok () from by rw [decide_eq_true rfl]; rfl]
          simp only [Res.bind_ok]
          rw [advance_eq, h1]
          simp only [Res.bind_ok]
          unfold entryAt
          rw [he]
          simp only [Res.bind_ok]
          rw [h2]
          rw [show collect t (m + 1) s = e :: collect t m (s + 1) from by
            rw [collect, if_pos hfr, he]]
          rfl
    · obtain ⟨it, h1, h2⟩ := foreach_from b m (s := s + 1) (fuel := fuel) (by omega) (by omega) (by omega)
      refine ⟨it, ?_, ?_⟩
      · unfold iterAt at h1 ⊢
        rw [show t.n - s = m + 1 by omega]
        rw [show t.n - (s + 1) = m by omega] at h1
        unfold skipFree
        rw [if_neg hfr]
        exact h1
      · unfold collect; rw [if_neg hfr]; exact h2

/-- The table with another lower bound for its entries. -/
theorem Inv.withLow {t : Table K V} (h : Inv t) {low : Nat} (hl : t.indirect = true → ∀ i, i < t.n → Occ t i → low ≤ i) :
    Inv { t with lowest := low } :=
  ⟨⟨h.base.pos, h.base.le, h.base.slot, h.base.loc, h.base.inj, hl⟩, h.nr, h.count, h.stop, h.direct, h.big⟩

theorem Rep.withLow {t : Table K V} {l : List (K × V)} (h : Rep t l) {low : Nat} (hl : t.indirect = true → ∀ i, i < t.n → Occ t i → low ≤ i) :
    Rep { t with lowest := low } l :=
  ⟨h.inv.withLow hl, h.mem, h.distinct, h.length⟩

/-- The start of an iteration: nothing if the table is empty, otherwise its lowest entry. -/
theorem Rep.iterFirst {t : Table K V} {l : List (K × V)} (h : Rep t l) :
    (l = [] ∧ ∃ t', iterate t .first = .ok (t', none) ∧ Rep t' [] ∧ Kept t t') ∨
    (∃ t' idx it, iterate t .first = .ok (t', some (idx, it)) ∧ Rep t' l ∧ Kept t t' ∧ t'.n = t.n ∧ t'.dibs = t.dibs ∧ t'.ents = t.ents ∧
      idx < t.n ∧ Occ t idx ∧ iterAt t' (idx + 1) = .ok it ∧ ∀ i, i < idx → t.dibs i = FREE) := by
  have b := h.inv.base
  -- everything below the start is free
  have hstart : ∀ i, i < t.n → i < (if t.indirect = true then t.lowest else 0) → t.dibs i = FREE := by
    intro i hi hlt
    apply Classical.byContradiction
    intro ho
    by_cases hin : t.indirect = true
    · rw [if_pos hin] at hlt
      have := b.low hin i hi ho
      omega
    · rw [if_neg hin] at hlt; omega
  unfold iterate
  simp only
  generalize hst : (if t.indirect = true then t.lowest else 0) = start at *
  cases hsk : skipFree t.dibs start (t.n - start) with
  | none =>
    left
    have hfree : ∀ i, i < t.n → t.dibs i = FREE := by
      intro i hi
      by_cases hlt : i < start
      · exact hstart i hi hlt
      · exact skipFree_none hsk i (by omega) (by omega)
    have hl : l = [] := by
      cases l with
      | nil => rfl
      | cons e l' =>
        obtain ⟨i, hi, ho, _⟩ := (h.mem e).1 List.mem_cons_self
        exact absurd (hfree i hi) ho
    refine ⟨hl, ?_⟩
    simp only
    refine ⟨_, rfl, ?_, ?_⟩
    · rw [hl] at h
      by_cases hin : t.indirect = true
      · rw [if_pos hin]
        exact h.withLow (fun _ i hi ho => absurd (hfree i hi) ho)
      · rw [if_neg hin]; exact h
    · split <;> exact ⟨rfl, rfl⟩
  | some idx =>
    right
    obtain ⟨s1, s2, s3, s4⟩ := skipFree_some hsk
    have hi : idx < t.n := by omega
    have hbelow : ∀ i, i < idx → t.dibs i = FREE := by
      intro i hlt
      by_cases hlt2 : i < start
      · exact hstart i (by omega) hlt2
      · exact s4 i (by omega) hlt
    simp only [Option.getD_some]
    generalize ht1 : (if t.indirect = true then ({ t with lowest := idx } : Table K V) else t) = t1
    have hrep : Rep t1 l := by
      rw [← ht1]
      by_cases hin : t.indirect = true
      · rw [if_pos hin]
        refine h.withLow (fun _ i hi ho => ?_)
        apply Classical.byContradiction
        intro hx
        exact ho (hbelow i (by omega))
      · rw [if_neg hin]; exact h
    have hf : t1.n = t.n ∧ t1.dibs = t.dibs ∧ t1.ents = t.ents ∧ t1.kind = t.kind ∧ t1.shared = t.shared := by
      rw [← ht1]; split <;> exact ⟨rfl, rfl, rfl, rfl, rfl⟩
    obtain ⟨it, h1, _⟩ := foreach_from hrep.inv.base (t.n - (idx + 1)) (s := idx + 1) (fuel := t.n + 1) (by rw [hf.1]; omega) (by omega) (by omega)
    rw [advance_eq, h1]
    exact ⟨t1, idx, it, rfl, hrep, ⟨hf.2.2.2.1, hf.2.2.2.2⟩, hf.1, hf.2.1, hf.2.2.1, hi, s3, h1, hbelow⟩

theorem Rep.forall' {t : Table K V} {l : List (K × V)} (h : Rep t l) :
    ∃ t' r, Hashmap.forall' t = .ok (t', r) ∧ Rep t' l ∧ Kept t t' ∧ Distinct r ∧ ∀ e, e ∈ r ↔ e ∈ l := by
  unfold Hashmap.forall' Hashmap.foreach
  rcases h.iterFirst with ⟨hl, t', hrun, hrep, hk⟩ | ⟨t', idx, it, hrun, hrep, hk, hn, hd, hen, hi, ho, hit, hbelow⟩
  · rw [hrun]
    subst hl
    exact ⟨t', [], rfl, hrep, hk, List.Pairwise.nil, fun _ => Iff.rfl⟩
  · rw [hrun]
    simp only [Res.bind_ok]
    obtain ⟨e, he⟩ := h.inv.base.ent hi ho
    have he' : t'.ents idx = some e := by rw [hen]; exact he
    unfold entryAt
    rw [he']
    simp only [Res.bind_ok]
    obtain ⟨it', h1, h2⟩ := foreach_from hrep.inv.base (t.n - (idx + 1)) (s := idx + 1) (fuel := t.n) (by rw [hn]; omega) (by omega) (by omega)
    rw [hit] at h1
    cases h1
    rw [h2]
    have hcol : e :: collect t' (t.n - (idx + 1)) (idx + 1) = collect t' (t.n - (idx + 1) + 1) idx := by
      rw [collect.eq_2, if_pos (show t'.dibs idx ≠ FREE by rw [hd]; exact ho), he']
    refine ⟨t', e :: collect t' (t.n - (idx + 1)) (idx + 1), rfl, hrep, hk, ?_, ?_⟩
    · rw [hcol]; exact collect_distinct hrep.inv.base (by rw [hn]; omega)
    · intro x
      rw [hcol, mem_collect, hrep.mem x]
      constructor
      · rintro ⟨i, h1, h2, h3⟩; exact ⟨i, by rw [hn]; omega, h3⟩
      · rintro ⟨i, h1, h2, h3⟩
        rw [hn] at h1
        refine ⟨i, ?_, by omega, h2, h3⟩
        apply Classical.byContradiction
        intro hx
        exact h2 (by rw [hd]; exact hbelow i (by omega))

theorem Rep.findFirst {t : Table K V} {l : List (K × V)} (h : Rep t l) :
    (l = [] ∧ ∃ t', Hashmap.findFirst t = .ok (t', none) ∧ Rep t' [] ∧ Kept t t') ∨
    (∃ t' idx k v, Hashmap.findFirst t = .ok (t', some idx) ∧ Rep t' l ∧ Kept t t' ∧ idx < t'.n ∧ Occ t' idx ∧ t'.ents idx = some (k, v) ∧ (k, v) ∈ l) := by
  unfold Hashmap.findFirst
  by_cases h0 : t.count = 0
  · rw [if_pos h0]
    left
    have hl : l = [] := List.length_eq_zero_iff.1 (by rw [h.length]; exact h0)
    subst hl
    exact ⟨rfl, t, rfl, h, ⟨rfl, rfl⟩⟩
  · rw [if_neg h0]
    rcases h.iterFirst with ⟨hl, _⟩ | ⟨t', idx, it, hrun, hrep, hk, hn, hd, hen, hi, ho, hit, hbelow⟩
    · exfalso
      rw [hl] at h
      exact h0 h.length.symm
    · right
      rw [hrun]
      obtain ⟨⟨k, v⟩, he⟩ := h.inv.base.ent hi ho
      have ho' : Occ t' idx := by unfold Occ; rw [hd]; exact ho
      have he' : t'.ents idx = some (k, v) := by rw [hen]; exact he
      refine ⟨t', idx, k, v, rfl, hrep, hk, by rw [hn]; exact hi, ho', he', ?_⟩
      exact (hrep.mem _).2 ⟨idx, by rw [hn]; exact hi, ho', he'⟩

end Casync.Hashmap
