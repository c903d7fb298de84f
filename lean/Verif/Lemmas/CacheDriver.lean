import Verif.Lemmas.CacheMake
/-!
The invariant of a session, and that writing chunks keeps it.
-/
namespace Casync.CacheMake
open Resume
open Location (Location)
open Origin (Known Inv)

/-- What was written so far: `done` bytes of the archive are in the index. -/
structure Done (cfg : Cfg) (R : Obj) (K : Look → Prop) (d : Drv) (done : Nat) : Prop where
  le : done ≤ (archiveOf cfg.env R).length
  reach : Chunker.Reach cfg.chunker d.chunker
  parts : ∃ ps : List Bytes, ps.flatten = (archiveOf cfg.env R).take done ∧ d.index = ps.map (fun p => (cfg.digest p, p.length)) ∧
    (∀ p ∈ ps, p ∈ d.stored ∨ ∃ look l o, K look ∧ look l = .ok (cfg.digest p, o)) ∧ ∀ c ∈ d.stored, c ∈ ps
  puts : ∀ e ∈ d.puts, Inv e.1 ∧ e.1.nBytes ≠ 0 ∧ ∃ a, Covers cfg.env R e.1 a ∧ a + e.1.nBytes ≤ (archiveOf cfg.env R).length ∧ e.2 = cfg.digest (slice (archiveOf cfg.env R) a e.1.nBytes) ∧
    slice (archiveOf cfg.env R) a e.1.nBytes ∈ d.stored

/-- The bytes between `p` and `pos` are in the buffer. -/
structure Buf (cfg : Cfg) (R : Obj) (d : Drv) (p pos : Nat) : Prop where
  eq : d.buffer = slice (archiveOf cfg.env R) p d.buffer.length
  pos : pos = p + d.buffer.length
  placed : Placed cfg.env R d.origin p
  count : d.origin.nBytes = d.buffer.length
  tail : ∀ l ∈ d.origin.items.getLast?, d.enc.state = .inPayload → l.nameTable = upTable d.enc

/-- Where the encoder is. -/
def HistAt (cfg : Cfg) (R : Obj) (d : Drv) (pos : Nat) (due : Bool) : Prop := ∃ m, Hist cfg.env R pos m due d.enc ∧ (d.sought = false → m = true)

/-- A cache entry of which the first `c` bytes fit the archive from `done` on. -/
structure HitAt (cfg : Cfg) (R : Obj) (K : Look → Prop) (h : Hit) (done c : Nat) (O : Origin.Origin) : Prop where
  start : ∃ l, LocAt cfg.env R done l ∧ SamePlace l h.start
  size : h.size = O.nBytes
  truth : Truthful cfg R h.id O
  now : Inv h.origin
  left : c + h.origin.nBytes = O.nBytes
  same : ∀ j, (locOf h.origin.items j).map key = (locOf O.items (c + j)).map key
  seen : ∀ j, j < c → ∃ l, LocAt cfg.env R (done + j) l ∧ (locOf O.items j).map key = some (key l)
  from_ : ∃ look l, K look ∧ look l = .ok (h.id, O)

/-- A cache entry was found for the place at `done`. -/
def Begun (cfg : Cfg) (R : Obj) (K : Look → Prop) (h : Hit) (done : Nat) : Prop :=
  (∃ l, LocAt cfg.env R done l ∧ SamePlace l h.start) ∧ ∃ look l o, K look ∧ look l = .ok (h.id, o)

theorem HitAt.begun {cfg : Cfg} {R : Obj} {K : Look → Prop} {h : Hit} {done c : Nat} {O : Origin.Origin} (hh : HitAt cfg R K h done c O) : Begun cfg R K h done := by
  obtain ⟨look, l, h1, h2⟩ := hh.from_
  exact ⟨hh.start, look, l, O, h1, h2⟩

def Rest (c : CState) : Prop := c = .off ∨ c = .idle ∨ c = .check

/-- Between two steps, not at the end. -/
def Good (cfg : Cfg) (R : Obj) (K : Look → Prop) (d : Drv) : Prop :=
  ∃ done, Done cfg R K d done ∧
    ((Rest d.cst ∧ d.hit = none ∧ ∃ pos, HistAt cfg R d pos false ∧ Buf cfg R d done pos) ∨
     (d.cst = .verify ∧ ∃ h c O pos, d.hit = some h ∧ HitAt cfg R K h done c O ∧ HistAt cfg R d pos false ∧ Buf cfg R d (done + c) pos) ∨
     (d.cst = .succeeded ∧ ∃ h O pos, d.hit = some h ∧ HitAt cfg R K h done O.nBytes O ∧ HistAt cfg R d pos false ∧ Buf cfg R d (done + O.nBytes) pos) ∨
     (d.cst = .failed ∧ ∃ h pos due, d.hit = some h ∧ Begun cfg R K h done ∧ HistAt cfg R d pos due))

/-- The invariant.  Once bytes were emitted twice nothing is claimed. -/
def DInv (cfg : Cfg) (R : Obj) (K : Look → Prop) (d : Drv) : Prop :=
  d.again ≠ 0 ∨ (d.eof = true ∧ Done cfg R K d (archiveOf cfg.env R).length) ∨ (d.eof = false ∧ Good cfg R K d)

section
variable {cfg : Cfg} {R : Obj} {K : Look → Prop}

theorem Done.congr {d d' : Drv} {done : Nat} (h : Done cfg R K d done) (h1 : d'.chunker = d.chunker) (h2 : d'.index = d.index) (h3 : d'.stored = d.stored) (h4 : d'.puts = d.puts) :
    Done cfg R K d' done := by
  refine ⟨h.le, by rw [h1]; exact h.reach, ?_, by rw [h4, h3]; exact h.puts⟩
  rw [h2, h3]
  exact h.parts

/-- A chunk that was made. -/
theorem writeOne_ok {d : Drv} {done n : Nat} {o : Origin.Origin} (hd : Done cfg R K d done) (h0 : 0 < n) (hle : done + n ≤ (archiveOf cfg.env R).length) (ho : Inv o) (hn : o.nBytes = n)
    (hc : Covers cfg.env R o done) :
    ∃ d', writeOne cfg d (slice (archiveOf cfg.env R) done n) o = .ok d' ∧ Done cfg R K d' (done + n) ∧ d'.cst = (if d.cst = .off then .off else .check) ∧
      d'.enc = d.enc ∧ d'.chunker = d.chunker ∧ d'.buffer = d.buffer ∧ d'.origin = d.origin ∧ d'.hit = d.hit ∧ d'.eof = d.eof ∧ d'.sought = d.sought ∧ d'.again = d.again := by
  have hlen := slice_length hle
  unfold writeOne
  have e1 : decide (o.nBytes = (slice (archiveOf cfg.env R) done n).length) = true := by rw [hlen, hn]; simp
  rw [e1]
  simp only [Res.assert_true, Res.bind_ok]
  have hne : o.items ≠ [] := by
    intro hh
    have := count_tot ho
    rw [hh] at this
    have hz : tot [] = 0 := rfl
    omega
  rw [if_neg hne]
  refine ⟨_, rfl, ?_, rfl, rfl, rfl, rfl, rfl, rfl, rfl, rfl, rfl⟩
  obtain ⟨ps, p1, p2, p3, p4⟩ := hd.parts
  refine ⟨hle, hd.reach, ⟨ps ++ [slice (archiveOf cfg.env R) done n], ?_, ?_, ?_, ?_⟩, ?_⟩
  · rw [List.flatten_append, p1]
    show _ ++ (slice (archiveOf cfg.env R) done n ++ []) = _
    rw [List.append_nil, take_slice]
  · show d.index ++ _ = _
    rw [p2, List.map_append]
    rfl
  · intro p hp
    rcases List.mem_append.1 hp with hp | hp
    · rcases p3 p hp with g | g
      · left; exact List.mem_append_left _ g
      · exact .inr g
    · left; exact List.mem_append_right _ hp
  · intro c hcm
    rcases List.mem_append.1 hcm with hcm | hcm
    · exact List.mem_append_left _ (p4 c hcm)
    · exact List.mem_append_right _ hcm
  · intro e he
    rcases List.mem_append.1 he with he | he
    · obtain ⟨q1, q2, a, q3, q4, q5, q6⟩ := hd.puts e he
      exact ⟨q1, q2, a, q3, q4, q5, List.mem_append_left _ q6⟩
    · rw [List.mem_singleton.1 he]
      exact ⟨ho, by show o.nBytes ≠ 0; omega, done, hc, by rw [hn]; exact hle, by rw [hn], by rw [hn]; exact List.mem_append_right _ (List.mem_singleton.2 rfl)⟩

/-- What a write keeps. -/
structure Kept (d d' : Drv) : Prop where
  enc : d'.enc = d.enc
  hit : d'.hit = d.hit
  eof : d'.eof = d.eof
  sought : d'.sought = d.sought
  again : d'.again = d.again

theorem Kept.trans {a b c : Drv} (h : Kept a b) (h' : Kept b c) : Kept a c :=
  ⟨h'.enc.trans h.enc, h'.hit.trans h.hit, h'.eof.trans h.eof, h'.sought.trans h.sought, h'.again.trans h.again⟩

theorem writeLoop_ok (hf : Fine cfg.env R) (hq : Goodbye.Sorts cfg.env.qsort) (hfr : Chunker.Spec.Fresh cfg.chunker) : ∀ (fuel : Nat) (d : Drv) (p : Bytes) (done : Nat), p.length ≤ fuel →
    Done cfg R K d done → Rest d.cst → d.buffer ++ p = slice (archiveOf cfg.env R) done (d.buffer.length + p.length) → Placed cfg.env R d.origin done →
    d.origin.nBytes = d.buffer.length + p.length → (∀ l ∈ d.origin.items.getLast?, d.enc.state = .inPayload → l.nameTable = upTable d.enc) →
    done + d.buffer.length + p.length ≤ (archiveOf cfg.env R).length →
    ∃ d' done', writeLoop cfg fuel d p = .ok d' ∧ Done cfg R K d' done' ∧ Rest d'.cst ∧ Kept d d' ∧ Buf cfg R d' done' (done + d.buffer.length + p.length) := by
  intro fuel
  induction fuel with
  | zero =>
    intro d p done hp hd hr hb hpl hcnt ht hle
    have : p = [] := List.length_eq_zero_iff.1 (by omega)
    subst this
    refine ⟨d, done, rfl, hd, hr, ⟨rfl, rfl, rfl, rfl, rfl⟩, ?_, rfl, hpl, hcnt, ht⟩
    rw [List.append_nil] at hb
    exact hb
  | succ fuel ih =>
    intro d p done hp hd hr hb hpl hcnt ht hle
    cases p with
    | nil =>
      refine ⟨d, done, rfl, hd, hr, ⟨rfl, rfl, rfl, rfl, rfl⟩, ?_, rfl, hpl, hcnt, ht⟩
      rw [List.append_nil] at hb
      exact hb
    | cons b p =>
      obtain ⟨⟨r, c⟩, s1, s2, _⟩ := Chunker.C01_scan_split cfg.chunker d.chunker hfr hd.reach (b :: p) []
      have hreach : Chunker.Reach cfg.chunker c := .scan hd.reach s1
      unfold writeLoop
      rw [s1]
      cases r with
      | none =>
        simp only
        refine ⟨_, done, rfl, ⟨hd.le, hreach, hd.parts, hd.puts⟩, hr, ⟨rfl, rfl, rfl, rfl, rfl⟩, ?_, ?_, hpl, ?_, ht⟩
        · show d.buffer ++ b :: p = slice _ _ (d.buffer ++ b :: p).length
          rw [List.length_append]
          exact hb
        · show _ = done + (d.buffer ++ b :: p).length
          rw [List.length_append]
          omega
        · show _ = (d.buffer ++ b :: p).length
          rw [List.length_append]
          exact hcnt
      | some k =>
        simp only
        obtain ⟨k1, k2⟩ := s2 k rfl
        generalize hq' : b :: p = q at *
        have hchunk : d.buffer ++ q.take k = slice (archiveOf cfg.env R) done (d.buffer.length + k) := by
          have h1 := congrArg (List.take (d.buffer.length + k)) hb
          rw [slice_take (by omega), List.take_append] at h1
          rw [← h1, List.take_of_length_le (l := d.buffer) (by omega), Nat.add_sub_cancel_left]
        have hrest : q.drop k = slice (archiveOf cfg.env R) (done + (d.buffer.length + k)) (q.length - k) := by
          have h1 := congrArg (List.drop (d.buffer.length + k)) hb
          rw [slice_drop, List.drop_append, Nat.add_sub_cancel_left, List.drop_of_length_le (l := d.buffer) (by omega)] at h1
          rw [List.nil_append] at h1
          rw [h1]
          congr 1
          omega
        have hclen : (d.buffer ++ q.take k).length = d.buffer.length + k := by rw [hchunk]; exact slice_length (by omega)
        have hdl : (q.drop k).length = q.length - k := List.length_drop
        rw [hclen]
        -- the step after the chunk is written
        have main : ∀ (o rest : Origin.Origin), Inv o → o.nBytes = d.buffer.length + k → Covers cfg.env R o done → Placed cfg.env R rest (done + (d.buffer.length + k)) →
            rest.nBytes = q.length - k → (∀ l ∈ rest.items.getLast?, d.enc.state = .inPayload → l.nameTable = upTable d.enc) →
            ∃ d' done', (match writeOne cfg { d with chunker := c, origin := rest } (d.buffer ++ q.take k) o with
              | .ok d => writeLoop cfg fuel { d with buffer := [] } (q.drop k)
              | .err e => .err e
              | .ub => .ub) = .ok d' ∧ Done cfg R K d' done' ∧ Rest d'.cst ∧ Kept d d' ∧ Buf cfg R d' done' (done + d.buffer.length + q.length) := by
          intro o rest i1 i2 i3 i4 i5 i6
          obtain ⟨d1, w1, w2, w3, w4, w5, w6, w7, w8, w9, w10, w11⟩ := writeOne_ok (K := K) (d := { d with chunker := c, origin := rest }) (done := done) (n := d.buffer.length + k) (o := o)
            ⟨hd.le, hreach, hd.parts, hd.puts⟩ (by omega) (by omega) i1 i2 i3
          rw [hchunk, w1]
          simp only
          obtain ⟨d2, done', v1, v2, v3, v4, v5⟩ := ih { d1 with buffer := [] } (q.drop k) (done + (d.buffer.length + k)) (by omega) (w2.congr rfl rfl rfl rfl)
            (by show Rest d1.cst; rw [w3]; simp only; split; exact .inl rfl; exact .inr (.inr rfl))
            (by rw [List.nil_append, hdl]; show _ = slice _ _ (0 + (q.length - k)); rw [Nat.zero_add]; exact hrest)
            (by show Placed _ _ d1.origin _; rw [w7]; exact i4) (by show d1.origin.nBytes = 0 + _; rw [w7, hdl, Nat.zero_add]; exact i5)
            (by show ∀ l ∈ d1.origin.items.getLast?, d1.enc.state = .inPayload → l.nameTable = upTable d1.enc; rw [w4, w7]; exact i6)
            (by rw [hdl]; show _ + 0 + _ ≤ _; omega)
          have k1' : Kept d { d1 with buffer := [] } := ⟨w4, w8, w9, w10, w11⟩
          refine ⟨d2, done', v1, v2, v3, k1'.trans v4, ?_⟩
          rw [hdl] at v5
          have e : done + (d.buffer.length + k) + ({ d1 with buffer := [] } : Drv).buffer.length + (q.length - k) = done + d.buffer.length + q.length := by
            show done + (d.buffer.length + k) + 0 + (q.length - k) = _
            omega
          rw [e] at v5
          exact v5
        by_cases heq : d.buffer.length + k = d.origin.nBytes
        · rw [if_pos heq]
          exact main d.origin Origin.empty hpl.inv heq.symm hpl.covers (Placed.empty _) (by show 0 = _; omega) (by intro l hl; cases hl)
        · rw [if_neg heq]
          obtain ⟨o, e1, e2, e3, e4⟩ := hpl.extract hf hq (n := d.buffer.length + k) (by omega) (by omega)
          obtain ⟨rest, a1, a2, a3, a4⟩ := hpl.advance hf hq (n := d.buffer.length + k) (by omega)
          rw [e1, a1]
          simp only
          refine main o rest e2 e3 e4 a2 (by omega) ?_
          intro l hl hst
          obtain ⟨l0, g1, g2⟩ := a4 l hl
          rw [g2]
          exact ht l0 g1 hst

/-- New data goes to the chunks. -/
theorem write_ok (hf : Fine cfg.env R) (hq : Goodbye.Sorts cfg.env.qsort) (hfr : Chunker.Spec.Fresh cfg.chunker) {d : Drv} {done p : Nat} {y : Bytes} {l : Location} (hd : Done cfg R K d done)
    (hr : Rest d.cst) (hh : d.hit = none) (he : HistAt cfg R d (p + y.length) false) (hy : y ≠ []) (hys : y = slice (archiveOf cfg.env R) p y.length) (hyl : p + y.length ≤ (archiveOf cfg.env R).length)
    (hl : ∀ j, j < y.length → LocAt cfg.env R (p + j) (byteLoc l j)) (hb : d.buffer = slice (archiveOf cfg.env R) done d.buffer.length) (hp : p = done + d.buffer.length)
    (hpl : Placed cfg.env R d.origin done) (hcnt : d.origin.nBytes = d.buffer.length) (ht : ∀ last ∈ d.origin.items.getLast?, l.offset = 0 ∨ last.nameTable = l.nameTable)
    (ht2 : d.enc.state = .inPayload → l.nameTable = upTable d.enc) :
    ∃ d', writeChunks cfg d y (Location.patchSize l y.length) = .ok d' ∧ Good cfg R K d' ∧ d'.eof = d.eof ∧ d'.again = d.again := by
  have hlen : 0 < y.length := by cases y with | nil => exact absurd rfl hy | cons => simp
  obtain ⟨o, p1, p2, p3, p4⟩ := hpl.put hf hq (n := y.length) (l := l) hlen (by rw [hcnt, ← hp]; exact hl) ht
  unfold writeChunks
  rw [p1]
  simp only
  obtain ⟨d', done', w1, w2, w3, w4, w5⟩ := writeLoop_ok (K := K) hf hq hfr y.length { d with origin := o } y done (Nat.le_refl _) (hd.congr rfl rfl rfl rfl) hr
    (by show d.buffer ++ y = slice _ _ (d.buffer.length + y.length); rw [← slice_append, ← hb, ← hp, ← hys]) p2 (by show o.nBytes = d.buffer.length + _; rw [p3, hcnt])
    (by show ∀ q ∈ o.items.getLast?, _; intro q hq' hst; rw [p4 q hq']; exact ht2 hst) (by show done + d.buffer.length + _ ≤ _; omega)
  refine ⟨d', w1, ⟨done', w2, .inl ⟨w3, ?_, _, ?_, w5⟩⟩, w4.eof, w4.again⟩
  · rw [w4.hit]; exact hh
  · obtain ⟨m, m1, m2⟩ := he
    refine ⟨m, ?_, ?_⟩
    · rw [w4.enc]
      show Hist _ _ (done + d.buffer.length + y.length) _ _ d.enc
      rw [← hp]
      exact m1
    · rw [w4.sought]; exact m2

end

end Casync.CacheMake
