import Verif.Lemmas.HashOps
import Verif.Model.HashmapOps
import Verif.Props.Gc
/-! C52: hash tables are finite maps. -/
set_option linter.unusedSectionVars false
namespace Casync.Hashmap
open Casync
open Spec (Op Out Step History Distinct without)
variable {K V : Type} [DecidableEq K] [DecidableEq V]

/-- What an operation needs room for: entries to come. -/
def Room (kind : Kind) (l : List (K × V)) : Op K V → Prop
  | .put _ _ => Fit kind (l.length + 1)
  | .replace _ _ => Fit kind (l.length + 1)
  | .reserve n => n < 2 ^ 32 ∧ Fit kind (l.length + n)
  | _ => True

theorem Rep.setValue {t : Table K V} {l : List (K × V)} (h : Rep t l) {p : Nat} {k : K} {w : V} (v : V) (hp : p < t.n) (ho : Occ t p)
    (he : t.ents p = some (k, w)) : Rep { t with ents := upd t.ents p (some (k, v)) } ((k, v) :: without k l) := by
  have b := h.inv.base
  have hm : (k, w) ∈ l := (h.mem _).2 ⟨p, hp, ho, he⟩
  have hlen := without_length h.distinct hm
  generalize ht : ({ t with ents := upd t.ents p (some (k, v)) } : Table K V) = t'
  have hd : t'.dibs = t.dibs := by rw [← ht]
  have hn : t'.n = t.n := by rw [← ht]
  have hh : ∀ x, home t' x = home t x := by rw [← ht]; intro x; rfl
  have hep : t'.ents p = some (k, v) := by rw [← ht]; exact upd_same _ _ _
  have hen : ∀ i, i ≠ p → t'.ents i = t.ents i := by rw [← ht]; exact fun i hne => upd_ne _ _ hne
  have hkey : ∀ i e, t'.ents i = some e → ∃ e0, t.ents i = some e0 ∧ e0.1 = e.1 := by
    intro i e hx
    by_cases hne : i = p
    · subst hne; rw [hep] at hx; cases hx; exact ⟨_, he, rfl⟩
    · rw [hen i hne] at hx; exact ⟨e, hx, rfl⟩
  have hD : ∀ i, D t' i = D t i := by
    intro i
    unfold D
    by_cases hne : i = p
    · subst hne; rw [hep, he]; simp only [hh, hn]
    · rw [hen i hne]; cases t.ents i with
      | none => rfl
      | some e => simp only [hh, hn]
  have hocc : ∀ i, Occ t' i ↔ Occ t i := by intro i; unfold Occ; rw [hd]
  have hset : ∀ i, Settled t' i ↔ Settled t i := by intro i; unfold Settled; rw [hd]
  have hbase : Base t' := by
    refine ⟨by rw [hn]; exact b.pos, by rw [hn]; exact b.le, ?_, ?_, ?_, ?_⟩
    · intro i hi
      rw [hn] at hi ⊢
      rw [hd]
      by_cases hne : i = p
      · subst hne
        rcases b.slot i hi with h1 | ⟨e, h1, h2⟩
        · exact .inl h1
        · rw [he] at h1; cases h1
          exact .inr ⟨_, hep, by simp only [hh]; exact h2⟩
      · rw [hen i hne]; simp only [hh]; exact b.slot i hi
    · intro i hi hs hDi
      rw [hn] at hi ⊢
      rw [hset] at hs ⊢
      rw [hD] at hDi ⊢
      rw [hD]
      exact b.loc i hi hs hDi
    · intro i j hi hj h1 h2 e e' h3 h4 h5
      rw [hn] at hi hj
      rw [hocc] at h1 h2
      obtain ⟨e0, h6, h7⟩ := hkey i e h3
      obtain ⟨e1, h8, h9⟩ := hkey j e' h4
      exact b.inj i j hi hj h1 h2 e0 e1 h6 h8 (by rw [h7, h9, h5])
    · intro hin i hi h1
      rw [hn] at hi
      rw [hocc] at h1
      have hl : t'.lowest = t.lowest := by rw [← ht]
      rw [hl]
      exact b.low (by rw [← ht] at hin; exact hin) i hi h1
  refine ⟨⟨hbase, ?_, ?_, ?_, ?_, ?_⟩, ?_, ?_, ?_⟩
  · intro i hi; rw [hn] at hi; rw [hd]; exact h.inv.nr i hi
  · have : t'.count = t.count := by rw [← ht]
    rw [this, h.inv.count]
    unfold nOcc
    rw [hn]
    exact cnt_congr (fun i _ => decide_eq_decide.2 (hocc i).symm)
  · obtain ⟨z, hz, sz⟩ := h.inv.stop
    exact ⟨z, by rw [hn]; exact hz, by unfold Stop; rw [hd]; exact sz⟩
  · intro hx; rw [← ht] at hx ⊢; exact h.inv.direct hx
  · intro hx; rw [← ht] at hx ⊢; exact h.inv.big hx
  · intro e
    rw [List.mem_cons, mem_without, h.mem e]
    constructor
    · rintro (hx | ⟨⟨i, hi, hoi, hei⟩, hk⟩)
      · subst hx; exact ⟨p, by rw [hn]; exact hp, (hocc p).2 ho, hep⟩
      · have hne : i ≠ p := by intro hx; subst hx; rw [he] at hei; cases hei; exact hk rfl
        exact ⟨i, by rw [hn]; exact hi, (hocc i).2 hoi, by rw [hen i hne]; exact hei⟩
    · rintro ⟨i, hi, hoi, hei⟩
      rw [hn] at hi
      rw [hocc] at hoi
      by_cases hne : i = p
      · subst hne; rw [hep] at hei; cases hei; exact .inl rfl
      · rw [hen i hne] at hei
        refine .inr ⟨⟨i, hi, hoi, hei⟩, ?_⟩
        intro hk
        exact hne (b.inj i p hi hp hoi ho _ _ hei he hk)
  · refine cons_distinct (without_distinct h.distinct) ?_
    intro x hx
    exact (mem_without.1 hx).2 rfl
  · have : t'.count = t.count := by rw [← ht]
    rw [this, List.length_cons, ← h.length, hlen]

theorem entryAt_ok {t : Table K V} {p : Nat} {e : K × V} (h : t.ents p = some e) : entryAt t p = .ok e := by
  unfold entryAt; rw [h]

/-- One operation on a sound table: it behaves as the same operation on the map, and leaves a sound table. -/
theorem Rep.exec {t : Table K V} {l : List (K × V)} (h : Rep t l) (env : Env K) (op : Op K V) (hr : Room t.kind l op) :
    ∃ t' out l', Hashmap.exec env t op = some (t', out) ∧ Step env.alloc l op out l' ∧ Rep t' l' ∧ t'.kind = t.kind := by
  cases op with
  | put k v =>
    unfold Hashmap.exec Hashmap.put
    simp only
    rcases h.scan k with ⟨p, w, hp, ho, he, hs, hm⟩ | ⟨hn, hs⟩
    · rw [hs]
      simp only [Res.bind_ok]
      rw [entryAt_ok he]
      simp only [Res.bind_ok]
      by_cases hw : w = v
      · subst hw
        rw [if_pos rfl]
        exact ⟨t, _, l, rfl, .putSame hm, h, rfl⟩
      · rw [if_neg hw]
        exact ⟨t, _, l, rfl, .putOther hm hw, h, rfl⟩
    · rw [hs]
      simp only [Res.bind_ok]
      rcases h.putBoldly env (v := v) hn (.inl hr) with ⟨hp, hmem⟩ | ⟨t', hp, R, hk⟩
      · rw [hp]; exact ⟨t, _, l, rfl, .putMem (hmem hr) hn, h, rfl⟩
      · rw [hp]; exact ⟨t', _, _, rfl, .put hn, R, hk.kind⟩
  | replace k v =>
    unfold Hashmap.exec Hashmap.replace
    simp only
    rcases h.scan k with ⟨p, w, hp, ho, he, hs, hm⟩ | ⟨hn, hs⟩
    · rw [hs]
      simp only [Res.bind_ok]
      exact ⟨_, _, _, rfl, .replaceOld hm, h.setValue v hp ho he, rfl⟩
    · rw [hs]
      simp only [Res.bind_ok]
      rcases h.putBoldly env (v := v) hn (.inl hr) with ⟨hp, hmem⟩ | ⟨t', hp, R, hk⟩
      · rw [hp]; exact ⟨t, _, l, rfl, .replaceMem (hmem hr) hn, h, rfl⟩
      · rw [hp]; exact ⟨t', _, _, rfl, .replaceNew hn, R, hk.kind⟩
  | update k v =>
    unfold Hashmap.exec Hashmap.update
    simp only
    rcases h.scan k with ⟨p, w, hp, ho, he, hs, hm⟩ | ⟨hn, hs⟩
    · rw [hs]
      simp only [Res.bind_ok]
      rw [entryAt_ok he]
      exact ⟨_, _, _, rfl, .update hm, h.setValue v hp ho he, rfl⟩
    · rw [hs]
      exact ⟨t, _, l, rfl, .updateNone hn, h, rfl⟩
  | get k =>
    unfold Hashmap.exec Hashmap.get
    simp only
    rcases h.scan k with ⟨p, w, hp, ho, he, hs, hm⟩ | ⟨hn, hs⟩
    · rw [hs]
      simp only [Res.bind_ok]
      rw [entryAt_ok he]
      exact ⟨t, _, l, rfl, .get hm, h, rfl⟩
    · rw [hs]
      exact ⟨t, _, l, rfl, .getNone hn, h, rfl⟩
  | contains k =>
    unfold Hashmap.exec Hashmap.contains
    simp only
    rcases h.scan k with ⟨p, w, hp, ho, he, hs, hm⟩ | ⟨hn, hs⟩
    · rw [hs]
      exact ⟨t, _, l, rfl, .contains hm, h, rfl⟩
    · rw [hs]
      exact ⟨t, _, l, rfl, .containsNot hn, h, rfl⟩
  | remove k =>
    unfold Hashmap.exec Hashmap.remove
    simp only
    rcases h.scan k with ⟨p, w, hp, ho, he, hs, hm⟩ | ⟨hn, hs⟩
    · rw [hs]
      simp only [Res.bind_ok]
      rw [entryAt_ok he]
      simp only [Res.bind_ok]
      obtain ⟨t', hrun, R, hk, _⟩ := h.removeEntry hp ho he
      rw [hrun]
      exact ⟨t', _, _, rfl, .remove hm, R, hk.kind⟩
    · rw [hs]
      exact ⟨t, _, l, rfl, .removeNone hn, h, rfl⟩
  | removeValue k v =>
    unfold Hashmap.exec Hashmap.removeValue
    simp only
    rcases h.scan k with ⟨p, w, hp, ho, he, hs, hm⟩ | ⟨hn, hs⟩
    · rw [hs]
      simp only [Res.bind_ok]
      rw [entryAt_ok he]
      simp only [Res.bind_ok]
      by_cases hw : w = v
      · subst hw
        rw [if_neg (fun x => x rfl)]
        obtain ⟨t', hrun, R, hk, _⟩ := h.removeEntry hp ho he
        rw [hrun]
        exact ⟨t', _, _, rfl, .removeValue hm, R, hk.kind⟩
      · rw [if_pos hw]
        exact ⟨t, _, l, rfl, .removeValueNot (fun hx => hw (h.key hm hx)), h, rfl⟩
    · rw [hs]
      exact ⟨t, _, l, rfl, .removeValueNot (hn v), h, rfl⟩
  | removeAndPut old new v =>
    unfold Hashmap.exec Hashmap.removeAndPut
    simp only
    rcases h.scan old with ⟨p, w, hp, ho, he, hs, hm⟩ | ⟨hn, hs⟩
    · rw [hs]
      simp only [Res.bind_ok]
      rcases h.scan new with ⟨p', w', hp', ho', he', hs', hm'⟩ | ⟨hn', hs'⟩
      · rw [hs']
        exact ⟨t, _, l, rfl, .removeAndPutExists hm hm', h, rfl⟩
      · rw [hs']
        simp only [Res.bind_ok]
        obtain ⟨t1, hrun, R, hk, hnn, hc, _⟩ := h.removeEntry hp ho he
        rw [hrun]
        simp only [Res.bind_ok]
        obtain ⟨t', hput, R', hk'⟩ := R.putBoldlyNoResize env (k := new) (v := v) (fun x hx => hn' x (mem_without.1 hx).1) (by rw [hnn]; exact hc)
        rw [hput]
        exact ⟨t', _, _, rfl, .removeAndPut hm hn', R', hk'.kind.trans hk.kind⟩
    · rw [hs]
      exact ⟨t, _, l, rfl, .removeAndPutNone hn, h, rfl⟩
  | removeAndReplace old new v =>
    unfold Hashmap.exec Hashmap.removeAndReplace
    simp only
    rcases h.scan old with ⟨p, w, hp, ho, he, hs, hm⟩ | ⟨hn, hs⟩
    · rw [hs]
      simp only [Res.bind_ok]
      rw [entryAt_ok he]
      simp only [Res.bind_ok]
      -- the old entry goes
      have finish : ∀ (t1 : Table K V) (l1 : List (K × V)) (q : Nat), Rep t1 l1 → q < t1.n → Occ t1 q → t1.ents q = some (old, w) →
          (∀ x, (new, x) ∉ without old l1) → t1.kind = t.kind → without old l1 = without new (without old l) →
          ∃ t' out l', outcome t (Hashmap.removeEntry t1 q >>= fun t => Hashmap.putBoldly env t (new, v) false) (fun r => (r, Out.unit)) = some (t', out) ∧
            Step env.alloc l (.removeAndReplace old new v) out l' ∧ Rep t' l' ∧ t'.kind = t.kind := by
        intro t1 l1 q R1 hq hoq heq hno hk1 hl
        obtain ⟨t2, hrun, R, hk, hnn, hc, _⟩ := R1.removeEntry hq hoq heq
        rw [hrun]
        simp only [Res.bind_ok]
        obtain ⟨t', hput, R', hk'⟩ := R.putBoldlyNoResize env (k := new) (v := v) hno (by rw [hnn]; exact hc)
        rw [hput]
        refine ⟨t', _, (new, v) :: without new (without old l), rfl, .removeAndReplace hm, ?_, hk'.kind.trans (hk.kind.trans hk1)⟩
        rw [← hl]; exact R'
      rcases h.scan new with ⟨p', w', hp', ho', he', hs', hm'⟩ | ⟨hn', hs'⟩
      · rw [hs']
        simp only [Res.bind_ok]
        unfold makeRoom
        simp only
        by_cases hpp : p = p'
        · rw [if_pos hpp]
          simp only [Res.bind_ok]
          have hon : old = new := by rw [← hpp, he] at he'; cases he'; rfl
          subst hon
          refine finish t l p h hp ho he (fun x hx => (mem_without.1 hx).2 rfl) rfl ?_
          exact (without_none (fun x hx => (mem_without.1 hx).2 rfl)).symm
        · rw [if_neg hpp]
          have hon : old ≠ new := by
            intro hx; subst hx
            exact hpp (h.inv.base.inj p p' hp hp' ho ho' _ _ he he' rfl)
          obtain ⟨t1, hrun, R, hk, hnn, hc, RR⟩ := h.removeEntry hp' ho' he'
          rw [hrun]
          simp only [Res.bind_ok]
          -- where the old entry is now
          have hwhere : ∃ q, (if Option.map (·.1) (t1.ents p) ≠ some old then prev t1.n p else p) = q ∧ q < t1.n ∧ Occ t1 q ∧ t1.ents q = some (old, w) := by
            by_cases hx : Option.map (·.1) (t1.ents p) ≠ some old
            · rw [if_pos hx]
              rcases RR.forth p hp hpp ho with ⟨h1, h2⟩ | ⟨h1, h2⟩
              · rw [hnn]; exact ⟨_, rfl, prev_lt hp, h1, by rw [h2]; exact he⟩
              · exfalso; apply hx; rw [h2, he]; rfl
            · rw [if_neg hx]
              have hx' : Option.map (·.1) (t1.ents p) = some old := Classical.byContradiction hx
              obtain ⟨f, _, hff, hfe, _, hfo⟩ := RR.free
              have hpf : p ≠ f := by intro hy; subst hy; rw [hfe] at hx'; cases hx'
              have ho1 : Occ t1 p := (hfo p hp hpf).2 ho
              refine ⟨p, rfl, by rw [hnn]; exact hp, ho1, ?_⟩
              rcases RR.forth p hp hpp ho with ⟨h1, h2⟩ | ⟨h1, h2⟩
              · -- both places hold the key: they are one and the same
                obtain ⟨e1, he1⟩ := R.inv.base.ent (by rw [hnn]; exact hp) ho1
                have hk1 : e1.1 = old := by rw [he1] at hx'; exact Option.some.inj hx'
                have heq2 : t1.ents (prev t.n p) = some (old, w) := by rw [h2]; exact he
                have := R.inv.base.inj p (prev t.n p) (by rw [hnn]; exact hp) (by rw [hnn]; exact prev_lt hp) ho1 h1 e1 (old, w) he1 heq2 hk1
                rw [← this] at heq2; exact heq2
              · rw [h2]; exact he
          obtain ⟨q, hq, hqn, hqo, hqe⟩ := hwhere
          rw [hq]
          rw [show Res.assert (decide (Option.map (·.1) (t1.ents q) = some old)) = .ok () from by
            rw [decide_eq_true (by rw [hqe]; rfl)]; rfl]
          simp only [Res.bind_ok]
          refine finish t1 (without new l) q R hqn hqo hqe ?_ hk.kind ?_
          · intro x hx; exact (mem_without.1 (mem_without.1 hx).1).2 rfl
          · unfold without
            rw [List.filter_filter, List.filter_filter]
            congr 1; funext e; rw [Bool.and_comm]
      · rw [hs']
        simp only [Res.bind_ok]
        unfold makeRoom
        simp only [Res.bind_ok]
        refine finish t l p h hp ho he (fun x hx => hn' x (mem_without.1 hx).1) rfl ?_
        exact (without_none (fun x hx => hn' x (mem_without.1 hx).1)).symm
    · rw [hs]
      exact ⟨t, _, l, rfl, .removeAndReplaceNone hn, h, rfl⟩
  | first =>
    unfold Hashmap.exec Hashmap.first
    simp only
    rcases h.findFirst with ⟨hl, t', hrun, R, hk⟩ | ⟨t', idx, k, v, hrun, R, hk, hi, ho, he, hm⟩
    · rw [hrun]; subst hl
      exact ⟨t', _, _, rfl, .firstNone, R, hk.kind⟩
    · rw [hrun]
      simp only [Res.bind_ok]
      rw [entryAt_ok he]
      exact ⟨t', _, _, rfl, .first hm, R, hk.kind⟩
  | stealFirst =>
    unfold Hashmap.exec Hashmap.stealFirst
    simp only
    rcases h.findFirst with ⟨hl, t', hrun, R, hk⟩ | ⟨t', idx, k, v, hrun, R, hk, hi, ho, he, hm⟩
    · rw [hrun]; subst hl
      exact ⟨t', _, _, rfl, .stealFirstNone, R, hk.kind⟩
    · rw [hrun]
      simp only [Res.bind_ok]
      rw [entryAt_ok he]
      simp only [Res.bind_ok]
      obtain ⟨t2, hrun2, R2, hk2, _⟩ := R.removeEntry hi ho he
      rw [hrun2]
      exact ⟨t2, _, _, rfl, .stealFirst hm, R2, hk2.kind.trans hk.kind⟩
  | foreach =>
    unfold Hashmap.exec
    simp only
    obtain ⟨t', r, hrun, R, hk, hd, hm⟩ := h.forall'
    rw [hrun]
    exact ⟨t', _, l, rfl, .foreach hd hm, R, hk.kind⟩
  | size =>
    unfold Hashmap.exec
    simp only
    exact ⟨t, _, l, rfl, by rw [← h.length]; exact .size, h, rfl⟩
  | reserve n =>
    unfold Hashmap.exec Hashmap.reserve
    simp only
    rcases h.inv.resize env n hr.1 (.inl (by rw [← h.length]; exact hr.2)) with ⟨he, hmem⟩ | ⟨t', b, he, R, _⟩
    · rw [he]; exact ⟨t, _, l, rfl, .reserveMem (hmem (by rw [← h.length]; exact hr.2)), h, rfl⟩
    · rw [he]; exact ⟨t', _, l, rfl, .reserve, R.rep h, R.kind⟩
  | clear =>
    unfold Hashmap.exec Hashmap.clear
    simp only
    obtain ⟨i, hn⟩ := new_inv (V := V) t.kind t.shared
    refine ⟨_, _, [], rfl, .clear, ⟨i, ?_, List.Pairwise.nil, rfl⟩, rfl⟩
    intro e
    exact ⟨fun x => (by cases x), fun x => absurd x (hn e)⟩

/-! ## Histories -/

/-- The largest number of entries that tables are proved to hold: with one more, enlarging the table to it is undefined behaviour. -/
def limit : Kind → Nat
  | .plain => 101058054
  | .set => 190887435

theorem fit_of_le {kind : Kind} {n : Nat} (h : n ≤ limit kind) : Fit kind n := by
  unfold Fit
  cases kind <;> (unfold limit at h; simp only at h; unfold Kind.entrySize; simp only; omega)

theorem step_length {l l' : List (K × V)} {op : Op K V} {out : Out K V} {mem : Bool} (h : Step mem l op out l') : l'.length ≤ l.length + 1 := by
  have hf : ∀ (k : K) (m : List (K × V)), (without k m).length ≤ m.length := fun k m => List.length_filter_le _ _
  cases h <;> (try simp only [List.length_cons, List.length_nil]) <;> (try omega)
  case replaceOld k _ _ _ => have := hf k l; omega
  case update k _ _ _ => have := hf k l; omega
  case remove k _ _ => have := hf k l; omega
  case removeValue k _ _ => have := hf k l; omega
  case removeAndPut old _ _ _ _ _ => have := hf old l; omega
  case removeAndReplace old new _ _ _ => have := hf old l; have := hf new (without old l); omega
  case stealFirst e _ => have := hf e.1 l; omega

/-- The entries that an operation makes room for. -/
def wants : Op K V → Nat
  | .reserve n => n
  | _ => 1

theorem Rep.run : ∀ (ops : List (Op K V × Env K)) {t : Table K V} {l : List (K × V)}, Rep t l →
    (∀ x, x ∈ ops → l.length + ops.length + wants x.1 ≤ limit t.kind + 1) →
    ∃ t' h l', Hashmap.run t ops = some (t', h) ∧ h.map (fun x => (x.1, x.2.1)) = ops.map (fun x => (x.1, x.2.alloc)) ∧ History l h l' ∧ Rep t' l' ∧ t'.kind = t.kind
  | [], t, l, hrep, _ => ⟨t, [], l, rfl, rfl, .nil, hrep, rfl⟩
  | (op, env) :: ops, t, l, hrep, hw => by
    have h1 := hw (op, env) List.mem_cons_self
    simp only [List.length_cons] at h1
    have hlim : limit t.kind < 2 ^ 31 := by cases t.kind <;> decide
    have room : Room t.kind l op := by
      cases op with
      | put k v => exact fit_of_le (by simp only [wants] at h1; omega)
      | replace k v => exact fit_of_le (by simp only [wants] at h1; omega)
      | reserve n => simp only [wants] at h1; exact ⟨by omega, fit_of_le (by omega)⟩
      | _ => exact trivial
    obtain ⟨t1, out, l1, he, hs, R, hk⟩ := hrep.exec env op room
    have hlen := step_length hs
    obtain ⟨t', h, l', hrun, hmap, hist, R', hk'⟩ := Rep.run ops R (by
      intro x hx
      have := hw x (List.mem_cons_of_mem _ hx)
      simp only [List.length_cons] at this
      rw [hk]; omega)
    refine ⟨t', (op, env.alloc, out) :: h, l', ?_, ?_, .cons hs hist, R', hk'.trans hk⟩
    · unfold Hashmap.run
      rw [he]
      simp only
      rw [hrun]
    · simp only [List.map_cons, hmap]

theorem new_rep (kind : Kind) (shared : K → Nat) : Rep (new kind shared : Table K V) [] := by
  obtain ⟨i, hn⟩ := new_inv (V := V) kind shared
  exact ⟨i, fun e => ⟨fun x => (by cases x), fun x => absurd x (hn e)⟩, List.Pairwise.nil, rfl⟩

/-- **C52.** A hash table is a finite map: whatever sequence of operations is applied to a new table, with whatever hash functions and
whichever allocations fail, no operation fails an assertion, loops forever or leaves the table's memory, and each returns what it
returns for the finite map that the operations before have built. The number of operations plus the number of entries that any one
of them asks room for is limited by 101 million for tables of values and 190 million for sets. -/
theorem C52_map (kind : Kind) (shared : K → Nat) (ops : List (Op K V × Env K)) (hlim : ∀ x, x ∈ ops → ops.length + wants x.1 ≤ limit kind + 1) :
    ∃ t h l, run (new kind shared) ops = some (t, h) ∧ h.map (fun x => (x.1, x.2.1)) = ops.map (fun x => (x.1, x.2.alloc)) ∧ History [] h l := by
  obtain ⟨t, h, l, h1, h2, h3, _, _⟩ := Rep.run ops (new_rep kind shared) (by
    intro x hx; have := hlim x hx; simp only [List.length_nil, Nat.zero_add]; exact this)
  exact ⟨t, h, l, h1, h2, h3⟩

/-- **C52**, the size that a table cannot be given: asking a new table for one entry more than the limit is undefined behaviour, a shift of a
32-bit number by 32 bits. -/
theorem C52_shift_violated (kind : Kind) (shared : K → Nat) (env : Env K) :
    exec env (new kind shared : Table K V) (.reserve (limit kind + 1)) = none := by
  obtain ⟨i, _⟩ := new_inv (V := V) kind shared
  unfold exec reserve
  simp only
  rw [i.resize_ub env (limit kind + 1) ?_ ?_]
  · rfl
  · show ¬ Sized kind (0 + (limit kind + 1))
    unfold Sized UINT_MAX
    cases kind <;> decide
  · show kind.direct < 0 + (limit kind + 1) + (0 + (limit kind + 1)) / 4
    cases kind <;> decide

/-! ## Sets, and the chunk ids of garbage collection -/

/-- **C52**, sets: adding to a set is putting a key with nothing attached. -/
theorem C52_set_put (env : Env K) (t : Table K Unit) (k : K) (h : ∃ l, Rep t l) : setPut env t k = put env t k () := by
  obtain ⟨l, h⟩ := h
  unfold setPut put
  rcases h.scan k with ⟨p, w, hp, ho, he, hs, hm⟩ | ⟨hn, hs⟩
  · rw [hs]
    simp only [Res.bind_ok]
    rw [entryAt_ok he]
    simp only [Res.bind_ok]
    rfl
  · rw [hs]; rfl

theorem addIds_rep : ∀ (ids : List (K × Bool × Env K)) {t : Table K Unit} {l : List (K × Unit)}, Rep t l → t.kind = .set →
    l.length + ids.length ≤ limit .set →
    (addIds t ids = .err .ENOMEM ∧ ∃ x, x ∈ ids ∧ (x.2.1 = false ∨ x.2.2.alloc = false)) ∨
    ∃ t' l', addIds t ids = .ok t' ∧ Rep t' l' ∧ ∀ k, (k, ()) ∈ l' ↔ ((k, ()) ∈ l ∨ k ∈ ids.map (·.1))
  | [], t, l, h, _, _ => .inr ⟨t, l, rfl, h, fun k => by simp⟩
  | (id, dup, env) :: ids, t, l, h, hk, hlim => by
    simp only [List.length_cons] at hlim
    unfold addIds
    by_cases hd : dup = true
    · rw [if_neg (by rw [hd]; simp)]
      unfold setPut
      rcases h.scan id with ⟨p, w, hp, ho, he, hs, hm⟩ | ⟨hn, hs⟩
      · rw [hs]
        simp only [Res.bind_ok]
        rcases addIds_rep ids h hk (by omega) with ⟨he, x, hx, hf⟩ | ⟨t', l', h1, h2, h3⟩
        · exact .inl ⟨he, x, List.mem_cons_of_mem _ hx, hf⟩
        · refine .inr ⟨t', l', h1, h2, ?_⟩
          intro k
          rw [h3 k, List.map_cons, List.mem_cons]
          constructor
          · rintro (hx | hx)
            · exact .inl hx
            · exact .inr (.inr hx)
          · rintro (hx | hx | hx)
            · exact .inl hx
            · subst hx; exact .inl hm
            · exact .inr hx
      · rw [hs]
        simp only [Res.bind_ok]
        have hfit : Fit t.kind (l.length + 1) := by rw [hk]; exact fit_of_le (by omega)
        rcases h.putBoldly env (v := ()) hn (.inl hfit) with ⟨hp, hmem⟩ | ⟨t1, hp, R, hk1⟩
        · rw [hp]; exact .inl ⟨rfl, _, List.mem_cons_self, .inr (hmem hfit)⟩
        · rw [hp]
          simp only [Res.bind_ok]
          rcases addIds_rep ids R (hk1.kind.trans hk) (by simp only [List.length_cons]; omega) with ⟨he, x, hx, hf⟩ | ⟨t', l', h1, h2, h3⟩
          · exact .inl ⟨he, x, List.mem_cons_of_mem _ hx, hf⟩
          · refine .inr ⟨t', l', h1, h2, ?_⟩
            intro k
            rw [h3 k, List.map_cons, List.mem_cons, List.mem_cons]
            constructor
            · rintro ((hx | hx) | hx)
              · exact .inr (.inl (congrArg Prod.fst hx))
              · exact .inl hx
              · exact .inr (.inr hx)
            · rintro (hx | hx | hx)
              · exact .inl (.inr hx)
              · subst hx; exact .inl (.inl rfl)
              · exact .inr hx
    · rw [if_pos hd]; exact .inl ⟨rfl, _, List.mem_cons_self, .inl (by simpa using hd)⟩

/-- **C52** for garbage collection: the ids of all chunks in the indexes (`c.used`, C16) are put one after another into a set. Unless an
allocation fails, asking it for an id says whether the id is in one of the indexes. -/
theorem C52_gc (shared : Bytes → Nat) (indexes : List Bytes) (c : Gc.Coll) (hc : Gc.addIndexes {} indexes = .ok c)
    (ids : List (Bytes × Bool × Env Bytes)) (hids : ids.map (·.1) = c.used) (hlim : ids.length ≤ limit .set) :
    (addIds (new .set shared) ids = .err .ENOMEM ∧ ∃ x, x ∈ ids ∧ (x.2.1 = false ∨ x.2.2.alloc = false)) ∨
    ∃ t, addIds (new .set shared) ids = .ok t ∧
      ∀ id, (Gc.Referenced indexes id → contains t id = .ok true) ∧ (¬ Gc.Referenced indexes id → contains t id = .ok false) := by
  have hu := (Gc.addIndexes_used indexes {} c hc).2
  rcases addIds_rep ids (new_rep .set shared) rfl (by simpa using hlim) with he | ⟨t, l, h1, h2, h3⟩
  · exact .inl he
  · refine .inr ⟨t, h1, ?_⟩
    intro id
    unfold contains
    have h4 := h3 id
    rw [hids, hu id] at h4
    rcases h2.scan id with ⟨p, w, hp, ho, he, hs, hm⟩ | ⟨hn, hs⟩
    · rw [hs]
      refine ⟨fun _ => rfl, fun hx => absurd ?_ hx⟩
      rcases h4.1 hm with h | h | h
      · cases h
      · cases h
      · exact h
    · rw [hs]
      exact ⟨fun hx => absurd (h4.2 (.inr (.inr hx))) (hn ()), fun _ => rfl⟩

/-! ## Removing while iterating -/

/-- **C52**, where it fails: the comment in the code allows removing the current entry while iterating, but then an entry can be met
twice. Three keys with home 2 in the four buckets of a small set lie in the buckets 2, 3 and 0. The loop meets the last of them in
bucket 0, then the first in bucket 2; removing that moves the last one back to bucket 3, where it is met again. -/
theorem C52_removing_violated :
    (do
      let t ← addIds (new .set (fun _ => 2)) [(0, true, ⟨true, id⟩), (1, true, ⟨true, id⟩), (2, true, ⟨true, id⟩)]
      let (_, l) ← foreachRemoving (fun k => decide (k = 0)) 9 t .first
      .ok (l.map (·.1))) = (.ok [2, 0, 1, 2] : Res (List Nat)) := by decide +kernel

/-! ## Examples -/

/-- A session with collisions, growth from the two buckets of a small table to indirect storage, a failed allocation, replacements
and removals. -/
def session : List (Op Nat Nat × Env Nat) :=
  let ok : Env Nat := ⟨true, fun k => 3 * k⟩
  let no : Env Nat := ⟨false, fun k => k⟩
  [(.put 5 50, ok), (.put 7 70, ok), (.put 9 90, no), (.put 9 90, ok), (.put 5 51, ok), (.put 12 120, ok), (.get 9, ok), (.removeAndReplace 5 7 71, ok),
   (.remove 12, ok), (.foreach, ok), (.removeAndPut 9 5 52, ok), (.size, ok), (.get 9, ok), (.stealFirst, ok)]

/-- No repo lines: the outputs only, for comparison. -/
def Spec.Out.code : Out Nat Nat → List Nat
  | .unit => [0]
  | .error .ENOMEM => [1, 0]
  | .error .EEXIST => [1, 1]
  | .error _ => [1, 2]
  | .bool b => [2, if b then 1 else 0]
  | .value v => 3 :: v.toList
  | .entry e => 4 :: (e.toList.map fun x => [x.1, x.2]).flatten
  | .entries l => 5 :: (l.map fun x => [x.1, x.2]).flatten
  | .number n => [6, n]

example : ∀ x, x ∈ session → session.length + wants x.1 ≤ limit .plain + 1 := by decide +kernel

example : (run (new .plain (fun k => k)) session).map (fun r => r.2.map (fun x => x.2.2.code)) =
    some [[2, 1], [2, 1], [1, 0], [2, 1], [1, 1], [2, 1], [3, 90], [0], [3, 120], [5, 7, 71, 9, 90], [0], [6, 2], [3], [4, 7, 71]] := by decide +kernel

/-- The hypotheses of `C52_gc`: an index of two chunks. -/
example : ∃ (c : Gc.Coll) (ids : List (Bytes × Bool × Env Bytes)),
    Gc.addIndexes {} [Index.Spec.encode ⟨0x1#64, 1, 16, 64⟩ [(List.replicate 32 7, 10), (List.replicate 32 9, 64)]] = .ok c ∧
    ids.map (·.1) = c.used ∧ ids.length = 2 ∧ ids.length ≤ limit .set := by
  generalize hcs : ([(List.replicate 32 7, 10), (List.replicate 32 9, 64)] : List (Bytes × Nat)) = cs
  have hl : cs.length = 2 := by rw [← hcs]; rfl
  have hc : Index.Spec.ChunksValid ⟨0x1#64, 1, 16, 64⟩ cs := by rw [← hcs]; decide
  obtain ⟨i, hi, _⟩ := Index.readAll_encode (hd := ⟨0x1#64, 1, 16, 64⟩) (cs := cs) (by decide) hc (by rw [hl]; decide)
  generalize Index.Spec.encode ⟨0x1#64, 1, 16, 64⟩ cs = f at *
  have hd : (Index.Spec.deliver 0 cs).length = 2 := by rw [← hcs]; rfl
  refine ⟨⟨(Index.Spec.deliver 0 cs).length, (Index.Spec.deliver 0 cs).map (·.id)⟩, (Index.Spec.deliver 0 cs).map fun x => (x.id, true, ⟨true, fun _ => 0⟩), ?_, ?_, ?_, ?_⟩
  · show (Gc.addIndex {} f >>= fun c => Gc.addIndexes c []) = _
    unfold Gc.addIndex
    cases ho : Index.openIndex (Index.newRead f) with
    | ok x => simp only [hi, Res.bind_ok]; unfold Gc.addIndexes; simp
    | err e => simp only [Index.readAll, Index.readLoop, Index.readChunk, ho] at hi; cases hi
    | ub => simp only [Index.readAll, Index.readLoop, Index.readChunk, ho] at hi; cases hi
  · simp
  · rw [List.length_map, hd]
  · rw [List.length_map, hd]; decide

end Casync.Hashmap
