import Verif.Lemmas.CacheInv
import Verif.Props.Cache
/-!
Every step keeps the invariant of a session, concluded.
-/
namespace Casync.CacheMake
open Resume
open Location (Location)
open Origin (Known Inv)

section
variable {cfg : Cfg} {R : Obj} {K : Look → Prop}

/-- Not more data than the location of the entry is for: nothing is written. -/
theorem pieces_few {look : Look} {fuel : Nat} {d : Drv} {l : Location} {n used : Nat} {h : Hit} {cached : Location} {more : List Location} {r : Drv × Option (Location × Nat)}
    (hhit : d.hit = some h) (hit : h.origin.items = cached :: more) (hn : n ≤ cached.size) (hr : pieces look (fuel + 1) d l n used = .ok r) : r.2 = none := by
  unfold pieces at hr
  rw [hhit] at hr
  simp only at hr
  rw [hit] at hr
  simp only at hr
  rw [if_pos hn] at hr
  split at hr
  · injection hr with hr; subst hr; rfl
  · cases hr
  · cases hr

theorem with_hit {d : Drv} {h : Hit} (hhit : d.hit = some h) : d = { d with hit := some h } := by
  obtain ⟨_, _, _, _, _, hi, _⟩ := d
  simp only at hhit
  rw [hhit]

theorem verifyData_hit (hf : Fine cfg.env R) (hq : Goodbye.Sorts cfg.env.qsort) (hfr : Chunker.Spec.Fresh cfg.chunker) {look : Look} (hK : K look) (hH : Honest cfg R look)
    {d : Drv} {l : Location} {done c : Nat} {h : Hit} {O : Origin.Origin} {ev : Archive.EEv} (hd : Done cfg R K d done) (hcst : d.cst = .verify)
    (hh : HitAt cfg R K h done c O) (hne : h.origin.nBytes ≠ 0) (hist : HistAt cfg R d (done + c) true) (hb : d.buffer = []) (hi : Inv d.origin) (h0 : d.origin.nBytes = 0)
    (he : d.eof = false) (hl : currentLocation cfg.env d.enc 0 = .ok l) :
    Goes (2 ^ 63 ≤ (archiveOf cfg.env R).length) look (fun r => DInv cfg R K r.1) (verifyData cfg look { d with hit := some h } l ev) := by
  have hu : u64max = 2 ^ 64 - 1 := by decide
  unfold verifyData
  simp only
  rw [if_neg (by rw [hb, h0]; simp)]
  obtain ⟨cached, more, hit⟩ := items_of hh.now hne
  rw [hit]
  simp only
  by_cases heq : Location.equal l cached Cache.withState = true
  case neg =>
    rw [if_pos (by simp [heq])]
    exact .inr (.inr ⟨he, done, hd.congr rfl rfl rfl rfl, .inr (.inr (.inr ⟨rfl, h, _, true, rfl, hh.begun, hist⟩))⟩)
  rw [if_neg (by simp [heq])]
  have hkey : key l = key cached := (same_key _ _).1 ((Cache.equal_same _ _).1 heq)
  have hkn := hh.now.known cached (by rw [hit]; simp)
  rw [if_neg (by rintro (hc | hc); exact absurd hkn.2.1 (by omega); exact hkn.1 hc)]
  obtain ⟨m, m1, m2⟩ := hist
  obtain ⟨x, hx, g1, g2, g3⟩ := enc_skip hf hq m1 (k := some cached.size) (by intro n hn; injection hn with hn; have := hkn.1; omega)
  obtain ⟨lc, c1, c2, c3, c4, c5, c6, c7, c8⟩ := fetched hf hq g2 hx
  rw [c1] at hl
  injection hl with hl
  subst hl
  have hlen : 0 < x.length := by cases x with | nil => exact absurd rfl hx | cons => simp
  rw [g1]
  simp only
  have hp := pieces_ok (X := 2 ^ 63 ≤ (archiveOf cfg.env R).length) hf hq hK hH (x.length + 1) { d with hit := some h, enc := { d.enc with buf := x } } lc x.length 0 done c h O cached more (by omega) hlen rfl hh
    (hd.congr rfl rfl rfl rfl) hcst hit hkey c4 c6
  cases hres : pieces look (x.length + 1) { d with hit := some h, enc := { d.enc with buf := x } } lc x.length 0 with
  | err e => rw [hres] at hp; exact hp
  | ub => rw [hres] at hp; exact hp
  | ok r =>
    rw [hres] at hp
    obtain ⟨d1, v⟩ := r
    have p1 : d1.enc = { d.enc with buf := x } := hp.enc
    have p2 : d1.buffer = [] := hp.buffer.trans hb
    have p3 : d1.origin = d.origin := hp.origin
    have p4 : d1.eof = false := hp.eof.trans he
    have p5 : d1.sought = d.sought := hp.sought
    have p6 : d1.chunker = d.chunker := hp.chunker
    have hist1 : HistAt cfg R d1 (done + c + x.length) false := ⟨m, by rw [p1]; exact g2, by rw [p5]; exact m2⟩
    cases v with
    | none =>
      refine .inr (.inr ⟨p4, ?_⟩)
      rcases hp.cases_ with ⟨_, _, b3, done', c', h2, O', b4, b5, b6, b7⟩ | ⟨_, _, b3, done', h2, b4, b5, b6⟩ | ⟨_, _, b1, _⟩
      · refine ⟨done', b6, .inr (.inl ⟨b3, h2, c', O', done + c + x.length, b4, b5, hist1, ?_⟩)⟩
        rw [b7]
        exact Buf.empty p2 (by rw [p3]; exact hi) (by rw [p3]; exact h0)
      · exact ⟨done', b6, .inr (.inr (.inr ⟨b3, h2, _, false, b4, b5, hist1⟩))⟩
      · cases b1
    | some v =>
      obtain ⟨l', extra⟩ := v
      have hst : d1.enc.state ≠ .inPayload := by
        intro hst
        rw [p1] at hst
        have := pieces_few (d := { d with hit := some h, enc := { d.enc with buf := x } }) rfl hit (g3 hst _ rfl) hres
        cases this
      simp only
      rw [show decide (d1.enc.state = .inPayload) = false by simp [hst]]
      have hfresh : fresh cfg d1 (some l') extra false = writeChunks cfg { d1 with enc := d1.enc } (x.drop extra) (Location.patchSize l' (x.drop extra).length) := by
        unfold fresh
        rw [if_neg (by simp)]
        have : getData cfg.env d1.enc none = (d1.enc, .ok x) := by
          unfold getData
          rw [p1]
          rw [if_pos hx]
        rw [this]
      rcases hp.cases_ with ⟨b1, _⟩ | ⟨b1, _⟩ | ⟨l2, ex2, b1, b2, b3⟩
      · cases b1
      · cases b1
      · simp only [Option.some.injEq, Prod.mk.injEq] at b1
        obtain ⟨rfl, rfl⟩ := b1
        simp only at b2 b3
        rcases b3 with ⟨q1, q2, i, q3⟩ | ⟨_, q1, q2, q3, q4, q5⟩
        · -- bytes are emitted twice
          have runs : ¬ 2 ^ 63 ≤ (archiveOf cfg.env R).length → ∃ d2, writeChunks cfg { d1 with enc := d1.enc } (x.drop extra) (Location.patchSize l' (x.drop extra).length) = .ok d2 := by
            intro hsm
            obtain ⟨s1, s2⟩ := q3.std hf hq
            have hdl : (x.drop extra).length = x.length - extra := List.length_drop
            have s3 := s1.le
            obtain ⟨o, o1, o2, _, o3⟩ := Origin.C19_put d1.origin (Location.patchSize l' (x.drop extra).length) (by rw [p3]; exact hi)
              ⟨by show (x.drop extra).length ≠ 0; omega, by show (x.drop extra).length < _; omega, fun _ => by show l'.offset + (x.drop extra).length < _; omega⟩
              (by show _ + (x.drop extra).length < _; rw [p3, h0]; omega)
            unfold writeChunks
            rw [o1]
            simp only
            obtain ⟨d2, r1, _⟩ := writeLoop_runs hfr (x.drop extra).length { d1 with enc := d1.enc, origin := o } (x.drop extra) (Nat.le_refl _) (by show Chunker.Reach _ d1.chunker; rw [p6]; exact hd.reach) o2
              (by show o.nBytes = d1.buffer.length + _; rw [o3, p3, h0, p2]; rfl)
            exact ⟨d2, r1⟩
          cases hfr' : fresh cfg d1 (some l') extra false with
          | ok d2 =>
            left
            show d2.again ≠ 0
            rw [fresh_again hfr']
            exact q1
          | err e =>
            left
            apply Classical.byContradiction
            intro hsm
            rw [hfresh] at hfr'
            obtain ⟨d2, r2⟩ := runs hsm
            rw [hfr'] at r2
            cases r2
          | ub =>
            left
            apply Classical.byContradiction
            intro hsm
            rw [hfresh] at hfr'
            obtain ⟨d2, r2⟩ := runs hsm
            rw [hfr'] at r2
            cases r2
        · subst q4
          have hdl : (x.drop extra).length = x.length - extra := List.length_drop
          obtain ⟨d2, w1, w2, w3, w4⟩ := write_ok (K := K) hf hq hfr (d := { d1 with enc := d1.enc }) (done := done + c + extra) (p := done + c + extra) (y := x.drop extra) (l := byteLoc lc extra)
            (q5.congr rfl rfl rfl rfl) (.inr (.inl b2)) q2 (by rw [hdl, show done + c + extra + (x.length - extra) = done + c + x.length by omega]; exact hist1)
            (by intro hh; have := congrArg List.length hh; rw [hdl, List.length_nil] at this; omega)
            (by rw [hdl]; have := congrArg (List.drop extra) c7; rw [slice_drop] at this; exact this) (by rw [hdl]; omega)
            (by intro j hj; rw [byteLoc_byteLoc]; have := c6 (extra + j) (by omega); rwa [← Nat.add_assoc] at this)
            (by show d1.buffer = _; rw [p2]; unfold slice; simp) (by show _ = _ + d1.buffer.length; rw [p2]; rfl)
            (by show Placed _ _ d1.origin _; rw [p3]; exact ⟨hi, by intro j hj; omega⟩) (by show d1.origin.nBytes = d1.buffer.length; rw [p2, p3, h0]; rfl)
            (by show ∀ last ∈ d1.origin.items.getLast?, _; rw [p3, no_items hi h0]; intro last hlast; cases hlast) (fun hh => absurd hh hst)
          rw [hfresh, w1]
          exact .inr (.inr ⟨w3.trans p4, w2⟩)

theorem verifyData_ok (hf : Fine cfg.env R) (hq : Goodbye.Sorts cfg.env.qsort) (hfr : Chunker.Spec.Fresh cfg.chunker) {look : Look} (hK : K look) (hH : Honest cfg R look)
    {d : Drv} {l : Location} {done c : Nat} {h : Hit} {O : Origin.Origin} {ev : Archive.EEv} (hd : Done cfg R K d done) (hcst : d.cst = .verify) (hhit : d.hit = some h)
    (hh : HitAt cfg R K h done c O) (hne : h.origin.nBytes ≠ 0) (hist : HistAt cfg R d (done + c) true) (hb : d.buffer = []) (hi : Inv d.origin) (h0 : d.origin.nBytes = 0)
    (he : d.eof = false) (hl : currentLocation cfg.env d.enc 0 = .ok l) :
    Goes (2 ^ 63 ≤ (archiveOf cfg.env R).length) look (fun r => DInv cfg R K r.1) (verifyData cfg look d l ev) := by
  rw [with_hit hhit]
  exact verifyData_hit hf hq hfr hK hH hd hcst hh hne hist hb hi h0 he hl

/-- The state before data of the encoder is looked at. -/
inductive Ready (cfg : Cfg) (R : Obj) (K : Look → Prop) (d : Drv) : Prop
  | rest (done pos : Nat) : Done cfg R K d done → (d.cst = .off ∨ d.cst = .idle ∨ (d.cst = .check ∧ d.buffer = [])) → d.hit = none → HistAt cfg R d pos true →
      BufD cfg R d done pos → Ready cfg R K d
  | verify (done c : Nat) (h : Hit) (O : Origin.Origin) : Done cfg R K d done → d.cst = .verify → d.hit = some h → HitAt cfg R K h done c O → h.origin.nBytes ≠ 0 →
      HistAt cfg R d (done + c) true → d.buffer = [] → Inv d.origin → d.origin.nBytes = 0 → Ready cfg R K d

/-- The location for new data. -/
theorem here (hf : Fine cfg.env R) (hq : Goodbye.Sorts cfg.env.qsort) {d : Drv} {pos : Nat} (hist : HistAt cfg R d pos true) :
    ∃ l, currentLocation cfg.env d.enc 0 = .ok l ∧ LocAt cfg.env R pos l ∧ l.size = u64max := by
  obtain ⟨m, m1, m2⟩ := hist
  obtain ⟨hbuf, x, hx, g1, g2⟩ := enc_data hf hq m1 (k := none) (by intro n hn; cases hn)
  obtain ⟨lc, c1, c2, c3, c4, c5, c6, c7, c8⟩ := fetched hf hq g2 hx
  have hlen : 0 < x.length := by cases x with | nil => exact absurd rfl hx | cons => simp
  refine ⟨lc, c1, ?_, c4⟩
  have := c6 0 hlen
  rw [Nat.add_zero] at this
  have e : byteLoc lc 0 = lc := by unfold byteLoc; rw [Nat.add_zero, Nat.add_zero, ← c4]
  rwa [e] at this

theorem gotData_ok (hf : Fine cfg.env R) (hq : Goodbye.Sorts cfg.env.qsort) (hfr : Chunker.Spec.Fresh cfg.chunker) {look : Look} (hK : K look) (hH : Honest cfg R look)
    {d : Drv} {ev : Archive.EEv} (hd : Ready cfg R K d) (he : d.eof = false) :
    Goes (2 ^ 63 ≤ (archiveOf cfg.env R).length) look (fun r => DInv cfg R K r.1) (gotData cfg look d ev) := by
  cases hd with
  | verify done c h O h1 h2 h3 h4 h5 h6 h7 h8 h9 =>
    obtain ⟨l, l1, _, _⟩ := here hf hq h6
    unfold gotData
    rw [h2]
    simp only
    rw [l1]
    exact verifyData_ok hf hq hfr hK hH h1 h2 h3 h4 h5 h6 h7 h8 h9 he l1
  | rest done pos h1 h2 h3 h4 h5 =>
    have plain : ∀ (d' : Drv) (l : Option Location), Done cfg R K d' done → Rest d'.cst → d'.hit = none → HistAt cfg R d' pos true → BufD cfg R d' done pos → d'.eof = false →
        (l = none ∨ ∃ l', l = some l' ∧ currentLocation cfg.env d'.enc 0 = .ok l') →
        Goes (2 ^ 63 ≤ (archiveOf cfg.env R).length) look (fun r => DInv cfg R K r.1) (match fresh cfg d' l 0 false with
          | .ok d => .ok (d, seenAs ev)
          | .err e => .err e
          | .ub => .ub) := by
      intro d' l k1 k2 k3 k4 k5 k6 k7
      obtain ⟨d2, w1, w2, w3, w4⟩ := fresh_ok hf hq hfr k1 k2 k3 k4 k5 k7
      rw [w1]
      exact .inr (.inr ⟨w3.trans k6, w2⟩)
    unfold gotData
    rcases h2 with h2 | h2 | ⟨h2, hb⟩
    · rw [h2]
      exact plain d none h1 (.inl h2) h3 h4 h5 he (.inl rfl)
    · rw [h2]
      exact plain d none h1 (.inr (.inl h2)) h3 h4 h5 he (.inl rfl)
    · rw [h2]
      simp only
      have h0 : d.origin.nBytes = 0 := by rw [h5.count, hb]; rfl
      rw [if_neg (by rw [hb, h0]; simp)]
      obtain ⟨l, l1, l2, l3⟩ := here hf hq h4
      rw [l1]
      simp only
      have hpos : pos = done := by rw [h5.pos, hb]; rfl
      subst hpos
      have hget := cacheGet_ok (X := 2 ^ 63 ≤ (archiveOf cfg.env R).length) (cfg := cfg) (R := R) (K := K) (look := look) (d := d) (l := l) (l0 := l) hK hH h3 l2
        ⟨rfl, rfl, rfl, rfl, rfl, by rw [l3]; decide⟩
      cases hcg : cacheGet look d l with
      | ub => rw [hcg] at hget; exact hget
      | err e => rw [hcg] at hget; exact hget
      | ok v =>
        rw [hcg] at hget
        rcases hget with rfl | ⟨h', rfl, g1, f, r, g2, g3⟩
        · simp only
          exact plain { d with cst := .idle } (some l) (h1.congr rfl rfl rfl rfl) (.inr (.inl rfl)) h3 h4 ⟨h5.eq, h5.pos, h5.placed, h5.count, h5.tail⟩ he (.inr ⟨l, rfl, l1⟩)
        · simp only
          refine verifyData_ok (done := pos) (c := 0) (h := h') (O := h'.origin) hf hq hfr hK hH (h1.congr rfl rfl rfl rfl) rfl rfl g1 ?_ h4 hb h5.placed.inv h0 he l1
          have hc := count_tot g1.now
          rw [g2, tot_cons] at hc
          have := (g1.now.known f (by rw [g2]; simp)).1
          omega

theorem arrived_ok (hf : Fine cfg.env R) (hq : Goodbye.Sorts cfg.env.qsort) (hfr : Chunker.Spec.Fresh cfg.chunker) {look : Look} (hK : K look) (hH : Honest cfg R look)
    {d : Drv} {ev : Archive.EEv} (hd : Ready cfg R K d) (he : d.eof = false) (hev : hasData ev = true) :
    Goes (2 ^ 63 ≤ (archiveOf cfg.env R).length) look (fun r => DInv cfg R K r.1) (arrived cfg look d ev) := by
  cases ev with
  | finished => cases hev
  | doneFile => cases hev
  | nextFile => exact gotData_ok hf hq hfr hK hH hd he
  | payload => exact gotData_ok hf hq hfr hK hH hd he
  | data => exact gotData_ok hf hq hfr hK hH hd he

/-- The state before the encoder goes on. -/
inductive Before (cfg : Cfg) (R : Obj) (K : Look → Prop) (d : Drv) : Prop
  | rest (done pos : Nat) : Done cfg R K d done → (d.cst = .off ∨ d.cst = .idle ∨ (d.cst = .check ∧ d.buffer = [])) → d.hit = none → HistAt cfg R d pos false →
      Buf cfg R d done pos → Before cfg R K d
  | verify (done c : Nat) (h : Hit) (O : Origin.Origin) : Done cfg R K d done → d.cst = .verify → d.hit = some h → HitAt cfg R K h done c O → h.origin.nBytes ≠ 0 →
      HistAt cfg R d (done + c) false → d.buffer = [] → Inv d.origin → d.origin.nBytes = 0 → Before cfg R K d

theorem proceed_ok (hf : Fine cfg.env R) (hq : Goodbye.Sorts cfg.env.qsort) (hfr : Chunker.Spec.Fresh cfg.chunker) {look : Look} (hK : K look) (hH : Honest cfg R look)
    {d : Drv} (hd : Before cfg R K d) (he : d.eof = false) :
    Goes (2 ^ 63 ≤ (archiveOf cfg.env R).length) look (fun r => DInv cfg R K r.1) (proceed cfg look d) := by
  have hpos : ∃ pos, HistAt cfg R d pos false := by
    cases hd with
    | rest done pos _ _ _ h => exact ⟨pos, h⟩
    | verify done c _ _ _ _ _ _ _ h => exact ⟨_, h⟩
  obtain ⟨pos0, m, m1, m2⟩ := hpos
  obtain ⟨s', ev, e1, e2⟩ := enc_step hf hq m1
  unfold proceed
  rw [e1]
  simp only
  by_cases hev : hasData ev = true
  · have hne : ev ≠ .finished := by intro hh; rw [hh] at hev; cases hev
    refine arrived_ok (d := { d with enc := s', sought := false }) hf hq hfr hK hH ?_ he hev
    cases hd with
    | rest done pos h1 h2 h3 h4 h5 =>
      obtain ⟨m', k1, k2⟩ := h4
      refine .rest done pos (h1.congr rfl rfl rfl rfl) h2 h3 ⟨true, ?_, fun _ => rfl⟩ (h5.after e1 hne rfl rfl rfl)
      have := Hist.more k1 e1 hne
      rw [hev] at this
      exact this
    | verify done c h O h1 h2 h3 h4 h5 h6 h7 h8 h9 =>
      obtain ⟨m', k1, k2⟩ := h6
      refine .verify done c h O (h1.congr rfl rfl rfl rfl) h2 h3 h4 h5 ⟨true, ?_, fun _ => rfl⟩ h7 h8 h9
      have := Hist.more k1 e1 hne
      rw [hev] at this
      exact this
  · have hd0 : hasData ev = false := by simpa using hev
    cases ev with
    | nextFile => cases hd0
    | payload => cases hd0
    | data => cases hd0
    | doneFile =>
      refine .inr (.inr ⟨he, ?_⟩)
      cases hd with
      | rest done pos h1 h2 h3 h4 h5 =>
        obtain ⟨m', k1, k2⟩ := h4
        refine ⟨done, h1.congr rfl rfl rfl rfl, .inl ⟨?_, h3, pos, ⟨true, .more k1 e1 (by simp), fun _ => rfl⟩, h5.eq, h5.pos, h5.placed, h5.count, ?_⟩⟩
        · rcases h2 with h2 | h2 | h2
          · exact .inl h2
          · exact .inr (.inl h2)
          · exact .inr (.inr h2.1)
        · intro l hl hst
          rcases step_offset e1 (by simp) with g | ⟨g1, g2, g3⟩
          · rw [show s'.state = .finalize from done_state e1] at hst; cases hst
          · rw [g3]; exact h5.tail l hl g1
      | verify done c h O h1 h2 h3 h4 h5 h6 h7 h8 h9 =>
        obtain ⟨m', k1, k2⟩ := h6
        exact ⟨done, h1.congr rfl rfl rfl rfl, .inr (.inl ⟨h2, h, c, O, done + c, h3, h4, ⟨true, .more k1 e1 (by simp), fun _ => rfl⟩, Buf.empty h7 h8 h9⟩)⟩
    | finished =>
      unfold arrived
      simp only
      cases hd with
      | rest done pos h1 h2 h3 h4 h5 =>
        obtain ⟨m', k1, k2⟩ := h4
        obtain ⟨_, _, e3, e4⟩ := enc_step hf hq k1
        rw [e1] at e3
        injection e3 with _ e3
        injection e3 with e3
        have hend := e4 e3.symm
        have hc : d.cst ≠ .verify ∧ ¬ (d.cst = .failed ∨ d.cst = .succeeded) := by
          rcases h2 with h2 | h2 | h2
          · rw [h2]; simp
          · rw [h2]; simp
          · rw [h2.1]; simp
        rw [if_neg hc.1, if_neg hc.2]
        unfold finish
        simp only
        have hp := h5.pos
        by_cases hb : d.buffer = []
        · rw [if_pos hb]
          refine .inr (.inl ⟨rfl, ?_⟩)
          rw [hb, List.length_nil] at hp
          rw [← hend, hp]
          exact h1.congr rfl rfl rfl rfl
        · rw [if_neg hb]
          have hlen : 0 < d.buffer.length := by cases hd : d.buffer with | nil => exact absurd hd hb | cons => simp
          obtain ⟨d2, w1, w2, _⟩ := writeOne_ok (K := K) (d := { d with enc := s', sought := false }) (done := done) (n := d.buffer.length) (o := d.origin) (h1.congr rfl rfl rfl rfl) hlen (by omega)
            h5.placed.inv h5.count h5.placed.covers
          rw [← h5.eq] at w1
          rw [w1]
          refine .inr (.inl ⟨rfl, ?_⟩)
          rw [← hend, hp]
          exact w2.congr rfl rfl rfl rfl
      | verify done c h O h1 h2 h3 h4 h5 h6 h7 h8 h9 =>
        obtain ⟨m', k1, k2⟩ := h6
        rw [if_pos h2]
        exact .inr (.inr ⟨he, done, h1.congr rfl rfl rfl rfl, .inr (.inr (.inr ⟨rfl, h, _, false, h3, h4.begun, ⟨true, .finish k1 e1, fun _ => rfl⟩⟩))⟩)

theorem verifyBuffer_ok (hf : Fine cfg.env R) (hq : Goodbye.Sorts cfg.env.qsort) {look : Look} {d : Drv} {h : Hit} {done c pos : Nat} {O : Origin.Origin} {X : Prop}
    (hd : Done cfg R K d done) (hcst : d.cst = .verify) (hhit : d.hit = some h) (hh : HitAt cfg R K h done c O) (hne : h.origin.nBytes ≠ 0) (hist : HistAt cfg R d pos false)
    (hb : Buf cfg R d (done + c) pos) (hbn : d.buffer ≠ []) (he : d.eof = false) : Goes X look (fun r => DInv cfg R K r.1) (verifyBuffer d h) := by
  have hlen : 0 < d.buffer.length := by cases hd : d.buffer with | nil => exact absurd hd hbn | cons => simp
  have hcnt := hb.count
  obtain ⟨a, ra, ha⟩ := items_of hh.now hne
  obtain ⟨b, rb, hbi⟩ := items_of hb.placed.inv (by omega)
  unfold verifyBuffer
  rw [ha, hbi]
  simp only
  by_cases heq : Location.equal a b Cache.withState = true
  case neg =>
    rw [if_pos (by simp [heq])]
    exact .inr (.inr ⟨he, done, hd.congr rfl rfl rfl rfl, .inr (.inr (.inr ⟨rfl, h, _, false, hhit, hh.begun, hist⟩))⟩)
  rw [if_neg (by simp [heq])]
  have hkey : key a = key b := (same_key _ _).1 ((Cache.equal_same _ _).1 heq)
  have hka := hh.now.known a (by rw [ha]; simp)
  obtain ⟨hstd, _, hkb⟩ := hb.placed.items hf hq (pre := []) hbi
  have ka := hka.2.1
  have kb := hkb.2.1
  rw [if_neg (by
    rintro (hc | hc | hc | hc)
    · omega
    · exact hka.1 hc
    · omega
    · exact hkb.1 hc)]
  have hvb : b.designator ≠ Location.void := hstd.designator
  have hva : a.designator ≠ Location.void := by
    have e : (key a).2.1 = (key b).2.1 := by rw [hkey]
    intro hc
    exact hvb (Eq.trans e.symm hc)
  have hbn2 : b.size ≤ d.origin.nBytes := by
    have := count_tot hb.placed.inv
    rw [hbi, tot_cons] at this
    omega
  have hsz : min a.size b.size ≤ a.size ∧ min a.size b.size ≤ b.size := ⟨Nat.min_le_left _ _, Nat.min_le_right _ _⟩
  generalize min a.size b.size = sz at hsz ⊢
  obtain ⟨o', a1, a2⟩ := hh.advance (l := b) ha hva hsz.1 hkey.symm (by
    intro j hj
    have := hb.placed.item (pre := []) hbi (j := j) (by omega)
    rwa [show done + c + tot [] + j = done + c + j from rfl] at this)
  obtain ⟨rest, r1, r2, r3, r4⟩ := hb.placed.advance hf hq (n := sz) (by omega)
  rw [a1, r1]
  simp only
  rw [if_neg (by omega)]
  have hp := hb.pos
  have hdl : (d.buffer.drop sz).length = d.buffer.length - sz := List.length_drop
  refine .inr (.inr ⟨he, done, hd.congr rfl rfl rfl rfl, .inr (.inl ⟨hcst, _, c + sz, O, pos, rfl, a2, hist, ?_, ?_, ?_, ?_, ?_⟩)⟩)
  · show d.buffer.drop sz = slice _ _ (d.buffer.drop sz).length
    have := congrArg (List.drop sz) hb.eq
    rw [slice_drop] at this
    rw [hdl, ← Nat.add_assoc]
    exact this
  · show pos = done + (c + sz) + (d.buffer.drop sz).length
    omega
  · show Placed _ _ rest _
    rw [← Nat.add_assoc]
    exact r2
  · show rest.nBytes = (d.buffer.drop sz).length
    omega
  · intro l hl hst
    obtain ⟨l0, g1, g2⟩ := r4 l hl
    rw [g2]
    exact hb.tail l0 g1 hst

/-- Every step of a session keeps the invariant, unless the cache itself fails. -/
theorem dStep_ok (hf : Fine cfg.env R) (hq : Goodbye.Sorts cfg.env.qsort) (hfr : Chunker.Spec.Fresh cfg.chunker) {look : Look} (hK : K look) (hH : Honest cfg R look)
    {d : Drv} (hd : DInv cfg R K d) (h0 : d.again = 0) (hs : SafeSeek d) :
    Goes (2 ^ 63 ≤ (archiveOf cfg.env R).length) look (fun r => DInv cfg R K r.1) (dStep cfg look d) := by
  rcases hd with hd | ⟨he, hd⟩ | ⟨he, done, hdn, hg⟩
  · exact absurd h0 hd
  · unfold dStep
    rw [if_pos he]
    exact .inr (.inl ⟨he, hd⟩)
  unfold dStep
  rw [if_neg (by rw [he]; simp)]
  rcases hg with ⟨hr, hh, pos, hist, hb⟩ | ⟨hc, h, c, O, pos, hhit, hh, hist, hb⟩ | ⟨hc, h, O, pos, hhit, hh, hist, hb⟩ | ⟨hc, h, pos, due, hhit, ⟨⟨l, l1, l2⟩, _⟩, hist⟩
  · rcases hr with hr | hr | hr
    · rw [hr]
      exact proceed_ok hf hq hfr hK hH (.rest done pos hdn (.inl hr) hh hist hb) he
    · rw [hr]
      exact proceed_ok hf hq hfr hK hH (.rest done pos hdn (.inr (.inl hr)) hh hist hb) he
    · rw [hr]
      simp only
      by_cases hbe : d.buffer = []
      · rw [if_pos hbe]
        exact proceed_ok hf hq hfr hK hH (.rest done pos hdn (.inr (.inr ⟨hr, hbe⟩)) hh hist hb) he
      · rw [if_neg hbe]
        have hlen : 0 < d.buffer.length := by cases hd : d.buffer with | nil => exact absurd hd hbe | cons => simp
        have hcnt := hb.count
        obtain ⟨b, rb, hbi⟩ := items_of hb.placed.inv (by omega)
        rw [hbi]
        simp only
        obtain ⟨_, _, hkb⟩ := hb.placed.items hf hq (pre := []) hbi
        have hbs := hkb.1
        have hloc := hb.placed.item (pre := []) hbi (j := 0) (by omega)
        have hget := cacheGet_ok (X := 2 ^ 63 ≤ (archiveOf cfg.env R).length) (cfg := cfg) (R := R) (K := K) (look := look) (d := d) (l := b) (l0 := byteLoc b 0) (done := done) hK hH hh hloc
          ⟨rfl, rfl, rfl, rfl, rfl, hkb.1⟩
        cases hcg : cacheGet look d b with
        | ub => rw [hcg] at hget; exact hget
        | err e => rw [hcg] at hget; exact hget
        | ok v =>
          rw [hcg] at hget
          rcases hget with rfl | ⟨h', rfl, g1, f, r, g2, g3⟩
          · exact proceed_ok (d := { d with cst := .idle }) hf hq hfr hK hH (.rest done pos (hdn.congr rfl rfl rfl rfl) (.inr (.inl rfl)) hh hist ⟨hb.eq, hb.pos, hb.placed, hb.count, hb.tail⟩) he
          · exact .inr (.inr ⟨he, done, hdn.congr rfl rfl rfl rfl, .inr (.inl ⟨rfl, h', 0, _, pos, rfl, g1, hist, hb.eq, hb.pos, hb.placed, hb.count, hb.tail⟩)⟩)
  · rw [hc]
    simp only
    have hleft := hh.left
    cases hhd : d.hit with
    | none => rw [hhit] at hhd; cases hhd
    | some h2 =>
      rw [hhit] at hhd
      injection hhd with hhd
      subst hhd
      simp only
      by_cases hz : h.origin.nBytes = 0
      · rw [if_pos hz]
        have : c = O.nBytes := by omega
        subst this
        exact .inr (.inr ⟨he, done, hdn.congr rfl rfl rfl rfl, .inr (.inr (.inl ⟨rfl, h, O, pos, rfl, hh, hist, hb.eq, hb.pos, hb.placed, hb.count, hb.tail⟩))⟩)
      · rw [if_neg hz]
        by_cases hbe : d.buffer = []
        · rw [if_pos hbe]
          have hp : pos = done + c := by rw [hb.pos, hbe]; rfl
          rw [hp] at hist
          exact proceed_ok hf hq hfr hK hH (.verify done c h O hdn hc hhit hh hz hist hbe hb.placed.inv (by rw [hb.count, hbe]; rfl)) he
        · rw [if_neg hbe]
          exact verifyBuffer_ok hf hq hdn hc hhit hh hz hist hb hbe he
  · rw [hc]
    simp only
    cases hhd : d.hit with
    | none => rw [hhit] at hhd; cases hhd
    | some h2 =>
      rw [hhit] at hhd
      injection hhd with hhd
      subst hhd
      exact .inr (.inr ⟨he, done + O.nBytes, hh.finish hf hq rfl hdn rfl rfl rfl rfl, .inl ⟨.inr (.inr rfl), rfl, pos, hist, hb.eq, hb.pos, hb.placed, hb.count, hb.tail⟩⟩)
  · rw [hc]
    simp only
    cases hhd : d.hit with
    | none => rw [hhit] at hhd; cases hhd
    | some h2 =>
      rw [hhit] at hhd
      injection hhd with hhd
      subst hhd
      simp only
      obtain ⟨s1, s2⟩ := hs h hhit hc
      obtain ⟨m, m1, m2⟩ := hist
      have hm := m2 s1
      subst hm
      obtain ⟨t, ev, t1, t2, t3⟩ := enc_seek hf hq l1 l2 m1 (by rw [← l2.designator, ← l2.path]; exact s2)
      rw [t1]
      simp only
      refine arrived_ok (d := { d with enc := t, hit := none, cst := .idle, buffer := [], origin := Origin.empty, chunker := cfg.chunker, removed := d.removed ++ [h.start], sought := true }) hf hq hfr hK hH ?_ he t2
      exact .rest done done ⟨hdn.le, .fresh, hdn.parts, hdn.puts⟩ (.inr (.inl rfl)) rfl ⟨false, t3, fun hh => by cases hh⟩ (BufD.empty rfl Origin.inv_empty rfl)

/-- The invariant holds in every session. -/
theorem Session.inv (hf : Fine cfg.env R) (hq : Goodbye.Sorts cfg.env.qsort) (hfr : Chunker.Spec.Fresh cfg.chunker) {use : Bool} (hH : ∀ look, K look → Honest cfg R look)
    {d : Drv} (h : Session cfg R use K d) : DInv cfg R K d := by
  induction h with
  | start =>
    refine .inr (.inr ⟨rfl, 0, ⟨Nat.zero_le _, .fresh, ⟨[], by simp, rfl, by simp, by intro c hc; cases hc⟩, by intro e he; cases he⟩, .inl ⟨?_, rfl, 0, ⟨true, .start, fun _ => rfl⟩, ?_⟩⟩)
    · unfold dStart Rest
      cases use
      · exact .inl rfl
      · exact .inr (.inr rfl)
    · exact Buf.empty rfl Origin.inv_empty rfl
  | step hses hK hs hd ih =>
    rename_i look d d' ev
    by_cases h0 : d.again = 0
    · have := dStep_ok hf hq hfr hK (hH look hK) ih h0 hs
      rw [hd] at this
      exact this
    · left
      have := dStep_again hd
      simp only at this
      omega

end

end Casync.CacheMake
