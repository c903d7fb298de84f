import Verif.Lemmas.CacheDriver
/-!
Every step keeps the invariant of a session.
-/
namespace Casync.CacheMake
open Resume
open Location (Location)
open Origin (Known Inv)

/-- Success with `P`, or the cache itself failed, or `X`. -/
def Goes {α : Type} (X : Prop) (look : Look) (P : α → Prop) : Res α → Prop
  | .ok a => P a
  | .err e => X ∨ (e ≠ .ENOENT ∧ ∃ l, look l = .err e)
  | .ub => X ∨ ∃ l, look l = .ub

section
variable {cfg : Cfg} {R : Obj} {K : Look → Prop} {X : Prop}

/-- Advancing within the first location. -/
theorem first_adv {o : Origin.Origin} {a : Location} {r : List Location} {n : Nat} (ho : Inv o) (he : o.items = a :: r) (hv : a.designator ≠ Location.void) (hn : n ≤ a.size) :
    ∃ o', Origin.advanceBytes o n = .ok o' ∧ Inv o' ∧ o'.nBytes = o.nBytes - n ∧ ∀ j, (locOf o'.items j).map key = (locOf o.items (n + j)).map key := by
  have hc := count_tot ho
  rw [he, tot_cons] at hc
  have ha := ho.known a (by rw [he]; simp)
  by_cases h0 : n = 0
  · subst h0
    exact ⟨o, by unfold Origin.advanceBytes; rw [if_pos rfl], ho, by omega, by intro j; rw [Nat.zero_add]⟩
  by_cases hlt : n < o.nBytes
  · obtain ⟨pre, l, r', l', h1, h2, h3, h4, h5, h6⟩ := advance_list o n ho hlt
    refine ⟨_, h5, h6, rfl, ?_⟩
    intro j
    have hstep : key (byteLoc l' 0) = key (byteLoc l (n - tot pre)) ∧ l'.size = l.size - (n - tot pre) := by
      cases pre with
      | nil =>
        have : l = a := by rw [he] at h1; injection h1 with h1; exact h1.symm
        subst this
        obtain ⟨g1, g2, _⟩ := advance_key ha hv h3 h4
        exact ⟨g2, g1⟩
      | cons b pre =>
        have hb : b = a := by rw [he] at h1; injection h1 with h1; exact h1.symm
        subst hb
        rw [tot_cons] at h2 h3 h4 ⊢
        have hz : n - (b.size + tot pre) = 0 := by omega
        rw [hz] at h4 ⊢
        unfold Location.advance at h4
        rw [if_pos rfl] at h4
        injection h4 with h4
        subst h4
        exact ⟨rfl, rfl⟩
    rw [h1, locOf_append, if_neg (by omega)]
    have e : n + j - tot pre = (n - tot pre) + j := by omega
    rw [e]
    unfold locOf
    rw [hstep.2]
    by_cases hj : j < l.size - (n - tot pre)
    · rw [if_pos hj, if_pos (by omega), Option.map_some, Option.map_some, advance_all hstep.1 j]
    · rw [if_neg hj, if_neg (by omega)]
      congr 2
      omega
  · have he' : n = o.nBytes := by omega
    refine ⟨Origin.empty, by unfold Origin.advanceBytes; rw [if_neg h0, if_neg (by omega), if_pos he'], Origin.inv_empty, by show 0 = _; omega, ?_⟩
    intro j
    have : locOf o.items (n + j) = none := by
      have := locOf_append o.items [] (n + j)
      rw [List.append_nil, if_neg (by rw [he, tot_cons]; omega)] at this
      rw [this]; rfl
    rw [this]; rfl

/-- Some bytes of the entry fit. -/
theorem HitAt.advance {h : Hit} {done c n : Nat} {O : Origin.Origin} {a l : Location} {r : List Location} (hh : HitAt cfg R K h done c O) (he : h.origin.items = a :: r)
    (hv : a.designator ≠ Location.void) (hn : n ≤ a.size) (hk : key l = key a) (hl : ∀ j, j < n → LocAt cfg.env R (done + c + j) (byteLoc l j)) :
    ∃ o', Origin.advanceBytes h.origin n = .ok o' ∧ HitAt cfg R K { h with origin := o' } done (c + n) O := by
  obtain ⟨o', h1, h2, h3, h4⟩ := first_adv hh.now he hv hn
  have hc := count_tot hh.now
  rw [he, tot_cons] at hc
  have hleft := hh.left
  refine ⟨o', h1, ⟨hh.start, hh.size, hh.truth, h2, by show c + n + o'.nBytes = _; omega, ?_, ?_, hh.from_⟩⟩
  · intro j
    show (locOf o'.items j).map key = _
    rw [h4, hh.same]
    congr 2
    omega
  · intro j hj
    by_cases hjc : j < c
    · exact hh.seen j hjc
    · have e : j = c + (j - c) := by omega
      refine ⟨byteLoc l (j - c), ?_, ?_⟩
      · have := hl (j - c) (by omega)
        rwa [show done + c + (j - c) = done + j by omega] at this
      · rw [e, ← hh.same, he]
        unfold locOf
        rw [if_pos (by omega), Option.map_some, Nat.add_sub_cancel_left]
        congr 1
        exact (key_byteLoc hk _).symm

/-- The whole entry fits: its chunk is the next one. -/
theorem HitAt.finish {d : Drv} {h : Hit} {done c : Nat} {O : Origin.Origin} (hf : Fine cfg.env R) (hq : Goodbye.Sorts cfg.env.qsort) (hh : HitAt cfg R K h done c O) (hc : c = O.nBytes)
    (hd : Done cfg R K d done) {d' : Drv} (h1 : d'.index = d.index ++ [(h.id, h.size)]) (h2 : d'.chunker = d.chunker) (h3 : d'.stored = d.stored) (h4 : d'.puts = d.puts) :
    Done cfg R K d' (done + O.nBytes) := by
  subst hc
  have hle : done + O.nBytes ≤ (archiveOf cfg.env R).length := by
    by_cases hz : O.nBytes = 0
    · rw [hz]; exact hd.le
    · obtain ⟨l, g1, _⟩ := hh.seen (O.nBytes - 1) (by omega)
      have := (g1.std hf hq).2
      omega
  have hid : cfg.digest (slice (archiveOf cfg.env R) done O.nBytes) = h.id := by
    apply hh.truth
    intro j hj
    obtain ⟨l, g1, g2⟩ := hh.seen j hj
    obtain ⟨q, q1, q2⟩ := is_same.2 g2
    exact ⟨l, q, g1, q1, q2⟩
  obtain ⟨ps, p1, p2, p3, p4⟩ := hd.parts
  refine ⟨hle, by rw [h2]; exact hd.reach, ⟨ps ++ [slice (archiveOf cfg.env R) done O.nBytes], ?_, ?_, ?_, ?_⟩, by rw [h4, h3]; exact hd.puts⟩
  · rw [List.flatten_append, p1]
    show _ ++ (slice (archiveOf cfg.env R) done O.nBytes ++ []) = _
    rw [List.append_nil, take_slice]
  · rw [h1, p2, List.map_append, hh.size, ← hid]
    show _ ++ [_] = _ ++ [(_, (slice (archiveOf cfg.env R) done O.nBytes).length)]
    rw [slice_length hle]
  · intro p hp
    rw [h3]
    rcases List.mem_append.1 hp with hp | hp
    · exact p3 p hp
    · rw [List.mem_singleton.1 hp, hid]
      obtain ⟨look, l, g1, g2⟩ := hh.from_
      exact .inr ⟨look, l, O, g1, g2⟩
  · intro x hx
    rw [h3] at hx
    exact List.mem_append_left _ (p4 x hx)

/-- Asking the cache. -/
theorem cacheGet_ok {look : Look} {d : Drv} {l l0 : Location} {done : Nat} (hK : K look) (hH : Honest cfg R look) (hh : d.hit = none) (hl : LocAt cfg.env R done l0) (hs : SamePlace l0 l) :
    Goes X look (fun v => v = none ∨ ∃ h, v = some { d with hit := some h } ∧ HitAt cfg R K h done 0 h.origin ∧ ∃ f r, h.origin.items = f :: r ∧ key l = key f) (cacheGet look d l) := by
  unfold cacheGet
  rw [hh]
  simp only [Option.isSome_none, Bool.false_eq_true, if_false]
  cases hlook : look l with
  | ub => exact .inr ⟨l, hlook⟩
  | err e =>
    cases e
    case ENOENT => exact .inl rfl
    all_goals exact .inr ⟨by simp, l, hlook⟩
  | ok v =>
    obtain ⟨id, o⟩ := v
    obtain ⟨⟨f, r, q1, q2⟩, q3, q4, q5, q6⟩ := hH l id o hlook
    refine .inr ⟨_, rfl, ⟨⟨l0, hl, hs⟩, rfl, q6, ⟨q3, by rw [tot_bytes]; exact q4, q5⟩, Nat.zero_add _, ?_, ?_, ⟨look, l, hK, hlook⟩⟩, f, r, q1, (same_key _ _).1 q2⟩
    · intro j; simp only [Nat.zero_add]
    · intro j hj; cases hj

/-- What the loop over the pieces of one buffer leads to. -/
structure PostP (cfg : Cfg) (R : Obj) (K : Look → Prop) (d : Drv) (l : Location) (p n used : Nat) (r : Drv × Option (Location × Nat)) : Prop where
  enc : r.1.enc = d.enc
  buffer : r.1.buffer = d.buffer
  origin : r.1.origin = d.origin
  eof : r.1.eof = d.eof
  sought : r.1.sought = d.sought
  chunker : r.1.chunker = d.chunker
  cases_ : (r.2 = none ∧ r.1.again = d.again ∧ r.1.cst = .verify ∧ ∃ done c h O, r.1.hit = some h ∧ HitAt cfg R K h done c O ∧ Done cfg R K r.1 done ∧ done + c = p + n) ∨
    (r.2 = none ∧ r.1.again = d.again ∧ r.1.cst = .failed ∧ ∃ done h, r.1.hit = some h ∧ Begun cfg R K h done ∧ Done cfg R K r.1 done) ∨
    (∃ l' extra, r.2 = some (l', extra) ∧ r.1.cst = .idle ∧ ((r.1.again ≠ 0 ∧ extra < n ∧ ∃ i, LocAt cfg.env R i l') ∨ (used = 0 ∧ r.1.again = d.again ∧ r.1.hit = none ∧ extra < n ∧ l' = byteLoc l extra ∧ Done cfg R K r.1 (p + extra))))

theorem reported_advance (hf : Fine cfg.env R) (hq : Goodbye.Sorts cfg.env.qsort) {l : Location} {p n : Nat} (h0 : LocAt cfg.env R p (byteLoc l 0)) (hl : LocAt cfg.env R (p + n) (byteLoc l n))
    (hs : l.size = u64max) : Location.advance l n = .ok (byteLoc l n) := by
  have hu : u64max = 2 ^ 64 - 1 := by decide
  have hA := hf.size
  obtain ⟨s0, _⟩ := h0.std hf hq
  obtain ⟨s1, s2⟩ := hl.std hf hq
  unfold Location.advance
  by_cases hn : n = 0
  · rw [if_pos hn]
    subst hn
    unfold byteLoc
    rw [Nat.add_zero, Nat.add_zero, ← hs]
  · rw [if_neg hn, if_neg (fun hh => hh.1 hs)]
    have h1 : l.offset + n ≤ p + n := s1.le
    have h2 : l.archiveOffset + n = p + n := s1.off
    have h3 : l.designator ≠ Location.void := s1.designator
    unfold byteLoc
    rw [if_pos h3, Nat.mod_eq_of_lt (by omega), if_neg (by rw [hs]; simp), if_pos (by omega), Nat.mod_eq_of_lt (by omega), hs]

theorem pieces_ok (hf : Fine cfg.env R) (hq : Goodbye.Sorts cfg.env.qsort) {look : Look} (hK : K look) (hH : Honest cfg R look) : ∀ (fuel : Nat) (d : Drv) (l : Location) (n used done c : Nat) (h : Hit)
    (O : Origin.Origin) (cached : Location) (more : List Location), n < fuel → 0 < n → d.hit = some h → HitAt cfg R K h done c O → Done cfg R K d done → d.cst = .verify →
    h.origin.items = cached :: more → key l = key cached → l.size = u64max → (∀ j, j < n → LocAt cfg.env R (done + c + j) (byteLoc l j)) →
    Goes X look (PostP cfg R K d l (done + c) n used) (pieces look fuel d l n used) := by
  intro fuel
  induction fuel with
  | zero => intro d l n used done c h O cached more hfu; omega
  | succ fuel ih =>
    intro d l n used done c h O cached more hfu hn hhit hh hd hcst hit hkey hsz hl
    have hv : cached.designator ≠ Location.void := by
      have := ((hl 0 hn).std hf hq).1.designator
      have e : (key l).2.1 = (key cached).2.1 := by rw [hkey]
      intro hc
      exact this (Eq.trans e hc)
    have hkc := hh.now.known cached (by rw [hit]; simp)
    unfold pieces
    rw [hhit]
    simp only
    rw [hit]
    simp only
    by_cases hle : n ≤ cached.size
    · rw [if_pos hle]
      obtain ⟨o', a1, a2⟩ := hh.advance hit hv hle hkey hl
      rw [a1]
      exact ⟨rfl, rfl, rfl, rfl, rfl, rfl, .inl ⟨rfl, rfl, hcst, done, c + n, _, O, rfl, a2, hd.congr rfl rfl rfl rfl, by omega⟩⟩
    · rw [if_neg hle]
      by_cases hmore : more ≠ []
      · rw [if_pos hmore]
        exact ⟨rfl, rfl, rfl, rfl, rfl, rfl, .inr (.inl ⟨rfl, rfl, rfl, done, h, rfl, hh.begun, hd.congr rfl rfl rfl rfl⟩)⟩
      · rw [if_neg hmore]
        have hm : more = [] := Classical.not_not.1 hmore
        subst hm
        rw [reported_advance hf hq (p := done + c) (n := cached.size) (hl 0 hn) (hl _ (by omega)) hsz]
        simp only
        obtain ⟨o', a1, a2⟩ := hh.advance (n := cached.size) hit hv (Nat.le_refl _) hkey (fun j hj => hl j (by omega))
        have hcO : c + cached.size = O.nBytes := by
          have h1 := count_tot hh.now
          rw [hit, tot_cons] at h1
          have h2 : tot [] = 0 := rfl
          have := hh.left
          omega
        have hdone : ∀ d' : Drv, d'.index = d.index ++ [(h.id, h.size)] → d'.chunker = d.chunker → d'.stored = d.stored → d'.puts = d.puts → Done cfg R K d' (done + c + cached.size) := by
          intro d' e1 e2 e3 e4
          have := a2.finish hf hq hcO hd (d' := d') e1 e2 e3 e4
          rwa [← hcO, ← Nat.add_assoc] at this
        have hstd := ((hl cached.size (by omega)).std hf hq).1
        have hget := cacheGet_ok (X := X) (cfg := cfg) (R := R) (K := K) (look := look) (d := { d with index := d.index ++ [(h.id, h.size)], hit := none }) (l := byteLoc l cached.size) (l0 := byteLoc l cached.size)
          (done := done + c + cached.size) hK hH rfl (hl _ (by omega)) ⟨rfl, rfl, rfl, rfl, rfl, by rw [hstd.size]; decide⟩
        cases hcg : cacheGet look { d with index := d.index ++ [(h.id, h.size)], hit := none } (byteLoc l cached.size) with
        | ub => rw [hcg] at hget; exact hget
        | err e => rw [hcg] at hget; exact hget
        | ok v =>
          rw [hcg] at hget
          rcases hget with rfl | ⟨h', rfl, g1, f, r, g2, g3⟩
          · simp only
            refine ⟨rfl, rfl, rfl, rfl, rfl, rfl, .inr (.inr ⟨_, _, rfl, rfl, ?_⟩)⟩
            by_cases hu0 : used = 0
            · right
              exact ⟨hu0, by show d.again + used = _; omega, rfl, by omega, rfl, hdone _ rfl rfl rfl rfl⟩
            · left
              exact ⟨by show d.again + used ≠ 0; omega, by omega, _, hl cached.size (by omega)⟩
          · simp only
            have hsize := hkc.1
            have hrec := ih { d with index := d.index ++ [(h.id, h.size)], hit := some h' } (byteLoc l cached.size) (n - cached.size) (used + cached.size) (done + c + cached.size) 0 h' h'.origin f r
              (by omega) (by omega) rfl g1 (hdone _ rfl rfl rfl rfl) hcst g2 g3 rfl (by
                intro j hj
                rw [byteLoc_byteLoc, Nat.add_zero]
                have := hl (cached.size + j) (by omega)
                rwa [← Nat.add_assoc] at this)
            cases hp : pieces look fuel { d with index := d.index ++ [(h.id, h.size)], hit := some h' } (byteLoc l cached.size) (n - cached.size) (used + cached.size) with
            | ub => rw [hp] at hrec; exact hrec
            | err e => rw [hp] at hrec; exact hrec
            | ok v =>
              rw [hp] at hrec
              obtain ⟨e1, e2, e3, e4, e5, e7, e6⟩ := hrec
              refine ⟨e1, e2, e3, e4, e5, e7, ?_⟩
              rcases e6 with ⟨b1, b2, b3, done', c', h2, O', b4, b5, b6, b7⟩ | e6 | ⟨l', extra, b1, b2, b3⟩
              · exact .inl ⟨b1, b2, b3, done', c', h2, O', b4, b5, b6, by omega⟩
              · exact .inr (.inl e6)
              · refine .inr (.inr ⟨l', extra, b1, b2, .inl ?_⟩)
                rcases b3 with b3 | b3
                · exact ⟨b3.1, by omega, b3.2.2⟩
                · omega

end

end Casync.CacheMake
