import Verif.Lemmas.CacheStep
/-!
Every step keeps the invariant of a session, continued: the data of the encoder.
-/
namespace Casync.CacheMake
open Resume
open Location (Location)
open Origin (Known Inv)

section
variable {cfg : Cfg} {R : Obj} {K : Look → Prop} {X : Prop}

theorem no_items {o : Origin.Origin} (h : Inv o) (h0 : o.nBytes = 0) : o.items = [] := by
  cases hi : o.items with
  | nil => rfl
  | cons a r =>
    have hc := count_tot h
    rw [hi, tot_cons] at hc
    have := (h.known a (by rw [hi]; simp)).1
    omega

theorem items_of {o : Origin.Origin} (h : Inv o) (h0 : o.nBytes ≠ 0) : ∃ a r, o.items = a :: r := by
  cases hi : o.items with
  | nil =>
    have hc := count_tot h
    rw [hi] at hc
    exact absurd hc h0
  | cons a r => exact ⟨a, r, rfl⟩

/-- The bytes between `p` and `pos` are in the buffer, and there is new data to come. -/
structure BufD (cfg : Cfg) (R : Obj) (d : Drv) (p pos : Nat) : Prop where
  eq : d.buffer = slice (archiveOf cfg.env R) p d.buffer.length
  pos : pos = p + d.buffer.length
  placed : Placed cfg.env R d.origin p
  count : d.origin.nBytes = d.buffer.length
  tail : ∀ last ∈ d.origin.items.getLast?, d.enc.payloadOff = 0 ∨ (d.enc.state = .inPayload ∧ last.nameTable = upTable d.enc)

theorem Buf.after {d : Drv} {p pos : Nat} {s' : REnc} {ev : Archive.EEv} (h : Buf cfg R d p pos) (hs : step cfg.env d.enc = (s', .ok ev)) (he : ev ≠ .finished) {d' : Drv}
    (h1 : d'.enc = s') (h2 : d'.buffer = d.buffer) (h3 : d'.origin = d.origin) : BufD cfg R d' p pos := by
  refine ⟨by rw [h2]; exact h.eq, by rw [h2]; exact h.pos, by rw [h3]; exact h.placed, by rw [h2, h3]; exact h.count, ?_⟩
  rw [h1, h3]
  intro last hl
  rcases step_offset hs he with g | ⟨g1, g2, g3⟩
  · exact .inl g
  · refine .inr ⟨g2, ?_⟩
    rw [g3]
    exact h.tail last hl g1

theorem Buf.empty {d : Drv} {p : Nat} (h1 : d.buffer = []) (h2 : Inv d.origin) (h3 : d.origin.nBytes = 0) : Buf cfg R d p p := by
  refine ⟨by rw [h1]; unfold slice; simp, by rw [h1]; rfl, ⟨h2, by intro j hj; omega⟩, by rw [h1, h3]; rfl, ?_⟩
  rw [no_items h2 h3]
  intro l hl
  cases hl

theorem BufD.empty {d : Drv} {p : Nat} (h1 : d.buffer = []) (h2 : Inv d.origin) (h3 : d.origin.nBytes = 0) : BufD cfg R d p p := by
  refine ⟨by rw [h1]; unfold slice; simp, by rw [h1]; rfl, ⟨h2, by intro j hj; omega⟩, by rw [h1, h3]; rfl, ?_⟩
  rw [no_items h2 h3]
  intro l hl
  cases hl

/-- New data is written. -/
theorem fresh_ok (hf : Fine cfg.env R) (hq : Goodbye.Sorts cfg.env.qsort) (hfr : Chunker.Spec.Fresh cfg.chunker) {d : Drv} {done pos : Nat} {l : Option Location} (hd : Done cfg R K d done)
    (hr : Rest d.cst) (hh : d.hit = none) (hist : HistAt cfg R d pos true) (hb : BufD cfg R d done pos)
    (hl : l = none ∨ ∃ l', l = some l' ∧ currentLocation cfg.env d.enc 0 = .ok l') :
    ∃ d', fresh cfg d l 0 false = .ok d' ∧ Good cfg R K d' ∧ d'.eof = d.eof ∧ d'.again = d.again := by
  obtain ⟨m, m1, m2⟩ := hist
  obtain ⟨hbuf, x, hx, g1, g2⟩ := enc_data hf hq m1 (k := none) (by intro n hn; cases hn)
  obtain ⟨lc, c1, c2, c3, c4, c5, c6, c7, c8⟩ := fetched hf hq g2 hx
  have hw := write_ok (K := K) hf hq hfr (d := { d with enc := { d.enc with buf := x } }) (done := done) (p := pos) (y := x) (l := lc) (hd.congr rfl rfl rfl rfl) hr hh
    ⟨m, g2, m2⟩ hx c7 c8 c6 hb.eq hb.pos hb.placed hb.count (by
      intro last hlast
      rcases hb.tail last hlast with g | ⟨g3, g4⟩
      · left; rw [c3]; exact g
      · right; rw [g4]; exact (c5 g3).symm) c5
  unfold fresh
  rw [if_neg (by simp), g1]
  rcases hl with rfl | ⟨l', rfl, hl'⟩
  · simp only
    rw [c2]
    simp only [List.drop_zero]
    exact hw
  · simp only [List.drop_zero]
    rw [c1] at hl'
    injection hl' with hl'
    subst hl'
    exact hw

/-- A write of anything succeeds. -/
theorem writeLoop_runs (hfr : Chunker.Spec.Fresh cfg.chunker) : ∀ (fuel : Nat) (d : Drv) (p : Bytes), p.length ≤ fuel → Chunker.Reach cfg.chunker d.chunker → Inv d.origin →
    d.origin.nBytes = d.buffer.length + p.length → ∃ d', writeLoop cfg fuel d p = .ok d' ∧ d'.again = d.again := by
  intro fuel
  induction fuel with
  | zero =>
    intro d p hp hr ho hc
    have : p = [] := List.length_eq_zero_iff.1 (by omega)
    subst this
    exact ⟨d, rfl, rfl⟩
  | succ fuel ih =>
    intro d p hp hr ho hc
    cases p with
    | nil => exact ⟨d, rfl, rfl⟩
    | cons b p =>
      obtain ⟨⟨r, c⟩, s1, s2, _⟩ := Chunker.C01_scan_split cfg.chunker d.chunker hfr hr (b :: p) []
      have hreach : Chunker.Reach cfg.chunker c := .scan hr s1
      unfold writeLoop
      rw [s1]
      cases r with
      | none => exact ⟨_, rfl, rfl⟩
      | some k =>
        simp only
        obtain ⟨k1, k2⟩ := s2 k rfl
        generalize b :: p = q at *
        have hlen : (d.buffer ++ q.take k).length = d.buffer.length + k := by rw [List.length_append, List.length_take]; omega
        have hdl : (q.drop k).length = q.length - k := List.length_drop
        have main : ∀ (o rest : Origin.Origin), Inv o → o.nBytes = d.buffer.length + k → Inv rest → rest.nBytes = q.length - k →
            ∃ d', (match writeOne cfg { d with chunker := c, origin := rest } (d.buffer ++ q.take k) o with
              | .ok d => writeLoop cfg fuel { d with buffer := [] } (q.drop k)
              | .err e => .err e
              | .ub => .ub) = .ok d' ∧ d'.again = d.again := by
          intro o rest i1 i2 i3 i4
          have hw : writeOne cfg { d with chunker := c, origin := rest } (d.buffer ++ q.take k) o = .ok { d with
              chunker := c, origin := rest, index := d.index ++ [(cfg.digest (d.buffer ++ q.take k), (d.buffer ++ q.take k).length)], stored := d.stored ++ [d.buffer ++ q.take k],
              puts := d.puts ++ [(o, cfg.digest (d.buffer ++ q.take k))], cst := if d.cst = .off then .off else .check } := by
            unfold writeOne
            rw [show decide (o.nBytes = (d.buffer ++ q.take k).length) = true by rw [hlen, i2]; simp]
            simp only [Res.assert_true, Res.bind_ok]
            obtain ⟨a, r, hi⟩ := items_of i1 (by omega)
            rw [if_neg (by rw [hi]; simp)]
          rw [hw]
          simp only
          refine ih { d with chunker := c, origin := rest, index := _, stored := _, puts := _, cst := _, buffer := [] } (q.drop k) (by omega) hreach i3 ?_
          rw [hdl]
          show rest.nBytes = 0 + _
          omega
        by_cases heq : (d.buffer ++ q.take k).length = d.origin.nBytes
        · rw [if_pos heq]
          exact main d.origin Origin.empty ho (by omega) Origin.inv_empty (by show 0 = _; omega)
        · rw [if_neg heq, hlen]
          obtain ⟨o, e1, e2, _, e3⟩ := (Origin.C19_extract d.origin (d.buffer.length + k) ho).1 (by omega)
          obtain ⟨rest, a1, a2, _, a3⟩ := (Origin.C19_advance_bytes d.origin (d.buffer.length + k) ho).1 (by omega)
          rw [e1, a1]
          simp only
          exact main o rest e2 e3 a2 (by omega)

/-! ### Bytes that are emitted twice -/

theorem writeOne_again {d d' : Drv} {c : Bytes} {o : Origin.Origin} (h : writeOne cfg d c o = .ok d') : d'.again = d.again := by
  unfold writeOne at h
  obtain ⟨_, _, h⟩ := Res.bind_eq_ok.1 h
  split at h
  · cases h
  · injection h with h; subst h; rfl

theorem writeLoop_again : ∀ (fuel : Nat) {d d' : Drv} {p : Bytes}, writeLoop cfg fuel d p = .ok d' → d'.again = d.again := by
  intro fuel
  induction fuel with
  | zero =>
    intro d d' p h
    cases p with
    | nil => injection h with h; rw [h]
    | cons b p => cases h
  | succ fuel ih =>
    intro d d' p h
    cases p with
    | nil => injection h with h; rw [h]
    | cons b p =>
      have main : ∀ (o rest : Origin.Origin) (c : Chunker.Chunker) (k : Nat), (match writeOne cfg { d with chunker := c, origin := rest } (d.buffer ++ (b :: p).take k) o with
              | .ok d => writeLoop cfg fuel { d with buffer := [] } ((b :: p).drop k)
              | .err e => .err e
              | .ub => .ub) = .ok d' → d'.again = d.again := by
        intro o rest c k h
        cases hw : writeOne cfg { d with chunker := c, origin := rest } (d.buffer ++ (b :: p).take k) o with
        | ok d1 =>
          rw [hw] at h
          have h1 := ih h
          have h2 := writeOne_again hw
          simp only at h1 h2
          omega
        | err e => rw [hw] at h; cases h
        | ub => rw [hw] at h; cases h
      unfold writeLoop at h
      split at h
      · cases h
      · cases h
      · injection h with h; subst h; rfl
      · simp only at h
        split at h
        · exact main _ _ _ _ h
        · split at h
          · exact main _ _ _ _ h
          all_goals cases h

theorem write_again {d d' : Drv} {p : Bytes} {l : Location} (h : writeChunks cfg d p l = .ok d') : d'.again = d.again := by
  unfold writeChunks at h
  split at h
  · have := writeLoop_again _ h
    exact this
  · cases h
  · cases h

theorem fresh_again {d d' : Drv} {l : Option Location} {extra : Nat} {b : Bool} (h : fresh cfg d l extra b = .ok d') : d'.again = d.again := by
  unfold fresh at h
  split at h
  · cases h
  · split at h
    · cases h
    · cases h
    · split at h
      · cases h
      · cases h
      · have := write_again h
        exact this

theorem cacheGet_again {look : Look} {d : Drv} {l : Location} {v : Option Drv} (h : cacheGet look d l = .ok v) : ∀ d', v = some d' → d'.again = d.again := by
  unfold cacheGet at h
  split at h
  · cases h
  · split at h
    · injection h with h; subst h; intro d' hd; injection hd with hd; subst hd; rfl
    · injection h with h; subst h; intro d' hd; cases hd
    · cases h
    · cases h

theorem pieces_again {look : Look} : ∀ (fuel : Nat) {d : Drv} {l : Location} {n used : Nat} {r : Drv × Option (Location × Nat)}, pieces look fuel d l n used = .ok r → d.again ≤ r.1.again := by
  intro fuel
  induction fuel with
  | zero => intro d l n used r h; cases h
  | succ fuel ih =>
    intro d l n used r h
    unfold pieces at h
    split at h
    · cases h
    · split at h
      · cases h
      · split at h
        · split at h
          · injection h with h; subst h; exact Nat.le_refl _
          · cases h
          · cases h
        · split at h
          · injection h with h; subst h; exact Nat.le_refl _
          · split at h
            · cases h
            · cases h
            · split at h
              · cases h
              · cases h
              · injection h with h; subst h; exact Nat.le_add_right _ _
              · rename_i hg
                have h1 := ih h
                have h2 := cacheGet_again hg _ rfl
                rw [h2] at h1
                exact h1

theorem verifyData_again {look : Look} {d : Drv} {l : Location} {ev : Archive.EEv} {r : Drv × SEv} (h : verifyData cfg look d l ev = .ok r) : d.again ≤ r.1.again := by
  unfold verifyData at h
  split at h
  · cases h
  · split at h
    · cases h
    · split at h
      · cases h
      · split at h
        · injection h with h; subst h; exact Nat.le_refl _
        · split at h
          · cases h
          · split at h
            · cases h
            · cases h
            · split at h
              · cases h
              · cases h
              · rename_i hp
                injection h with h
                subst h
                exact pieces_again _ hp
              · rename_i hp
                split at h
                · rename_i hfr
                  injection h with h
                  subst h
                  have := pieces_again _ hp
                  have h2 := fresh_again hfr
                  simp only at this ⊢
                  omega
                · cases h
                · cases h

theorem gotData_again {look : Look} {d : Drv} {ev : Archive.EEv} {r : Drv × SEv} (h : gotData cfg look d ev = .ok r) : d.again ≤ r.1.again := by
  unfold gotData at h
  split at h
  · cases h
  · cases h
  · split at h
    · cases h
    · split at h
      · cases h
      · cases h
      · split at h
        · cases h
        · cases h
        · split at h
          · rename_i hfr
            injection h with h
            subst h
            have := fresh_again hfr
            simp only at this ⊢
            omega
          · cases h
          · cases h
        · rename_i hg
          have h1 := verifyData_again h
          have h2 := cacheGet_again hg _ rfl
          simp only at h1
          omega
  · split at h
    · cases h
    · cases h
    · exact verifyData_again h
  · split at h
    · rename_i hfr
      injection h with h
      subst h
      have := fresh_again hfr
      simp only at this ⊢
      omega
    · cases h
    · cases h

theorem arrived_again {look : Look} {d : Drv} {ev : Archive.EEv} {r : Drv × SEv} (h : arrived cfg look d ev = .ok r) : d.again ≤ r.1.again := by
  unfold arrived at h
  split at h
  · split at h
    · injection h with h; subst h; exact Nat.le_refl _
    · split at h
      · cases h
      · unfold finish at h
        split at h
        · injection h with h; subst h; exact Nat.le_refl _
        · split at h
          · rename_i hw
            injection h with h
            subst h
            have := writeOne_again hw
            simp only at this ⊢
            omega
          · cases h
          · cases h
  · injection h with h; subst h; exact Nat.le_refl _
  · exact gotData_again h
  · exact gotData_again h
  · exact gotData_again h

theorem proceed_again {look : Look} {d : Drv} {r : Drv × SEv} (h : proceed cfg look d = .ok r) : d.again ≤ r.1.again := by
  unfold proceed at h
  split at h
  · cases h
  · cases h
  · have := arrived_again h
    exact this

theorem dStep_again {look : Look} {d : Drv} {r : Drv × SEv} (h : dStep cfg look d = .ok r) : d.again ≤ r.1.again := by
  unfold dStep at h
  split at h
  · injection h with h; subst h; exact Nat.le_refl _
  · split at h
    · exact proceed_again h
    · exact proceed_again h
    · split at h
      · exact proceed_again h
      · split at h
        · cases h
        · split at h
          · cases h
          · cases h
          · have := proceed_again h
            exact this
          · rename_i hg
            injection h with h
            subst h
            exact Nat.le_of_eq (cacheGet_again hg _ rfl).symm
    · split at h
      · cases h
      · split at h
        · injection h with h; subst h; exact Nat.le_refl _
        · split at h
          · exact proceed_again h
          · unfold verifyBuffer at h
            split at h
            · split at h
              · injection h with h; subst h; exact Nat.le_refl _
              · split at h
                · cases h
                · simp only at h
                  split at h
                  · split at h
                    · cases h
                    · injection h with h; subst h; exact Nat.le_refl _
                  all_goals cases h
            · cases h
    · split at h
      · cases h
      · injection h with h; subst h; exact Nat.le_refl _
    · split at h
      · cases h
      · split at h
        · cases h
        · cases h
        · have := arrived_again h
          exact this

end

end Casync.CacheMake
