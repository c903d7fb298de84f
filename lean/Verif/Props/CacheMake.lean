import Verif.Lemmas.CacheSession
/-!
C50: making an index with the chunk cache.
-/
namespace Casync.CacheMake
open Resume
open Location (Location)

section
variable {cfg : Cfg} {R : Obj} {K : Look → Prop} {use : Bool} {d : Drv}

/-- **C50, partial**: an index that was made with a cache describes the archive of the tree: the concatenation of the chunks it lists, which have the
ids and sizes it says, is the archive.  Each chunk was put into the store in this session, or its id was delivered by the cache.

What is missing, because the code does not have it: bytes of one record can be emitted twice (`again`, see `C50_again_violated`); and a session that
moves the encoder back to the name of an open directory or moves it twice in a row is not covered (`SafeSeek`, see `C41_filename_violated` and
`C41_twice_violated`). -/
theorem C50_index_partial (hf : Fine cfg.env R) (hq : Goodbye.Sorts cfg.env.qsort) (hfr : Chunker.Spec.Fresh cfg.chunker) (hH : ∀ look, K look → Honest cfg R look)
    (h : Session cfg R use K d) (he : d.eof = true) (ha : d.again = 0) :
    ∃ chunks : List Bytes, chunks.flatten = archiveOf cfg.env R ∧ d.index = chunks.map (fun c => (cfg.digest c, c.length)) ∧
      (∀ c ∈ chunks, c ∈ d.stored ∨ ∃ look l o, K look ∧ look l = .ok (cfg.digest c, o)) ∧ ∀ c ∈ d.stored, c ∈ chunks := by
  rcases h.inv hf hq hfr hH with hd | ⟨_, hd⟩ | ⟨hd, _⟩
  · exact absurd ha hd
  · obtain ⟨ps, p1, p2, p3, p4⟩ := hd.parts
    rw [List.take_length] at p1
    exact ⟨ps, p1, p2, p3, p4⟩
  · rw [he] at hd; cases hd

/-- **C50, partial**: at any time, what was put into the cache is true: the origin says where the bytes of the chunk are in the tree, and the id is the
one of these bytes. -/
theorem C50_entries_partial (hf : Fine cfg.env R) (hq : Goodbye.Sorts cfg.env.qsort) (hfr : Chunker.Spec.Fresh cfg.chunker) (hH : ∀ look, K look → Honest cfg R look)
    (h : Session cfg R use K d) (ha : d.again = 0) {o : Origin.Origin} {id : Bytes} (hp : (o, id) ∈ d.puts) :
    o.nBytes ≠ 0 ∧ ∃ a, a + o.nBytes ≤ (archiveOf cfg.env R).length ∧ Covers cfg.env R o a ∧ id = cfg.digest (slice (archiveOf cfg.env R) a o.nBytes) := by
  have main : ∀ done, Done cfg R K d done → o.nBytes ≠ 0 ∧ ∃ a, a + o.nBytes ≤ (archiveOf cfg.env R).length ∧ Covers cfg.env R o a ∧ id = cfg.digest (slice (archiveOf cfg.env R) a o.nBytes) := by
    intro done hd
    obtain ⟨_, h2, a, h3, h4, h5, _⟩ := hd.puts _ hp
    exact ⟨h2, a, h4, h3, h5⟩
  rcases h.inv hf hq hfr hH with hd | ⟨_, hd⟩ | ⟨_, done, hd, _⟩
  · exact absurd ha hd
  · exact main _ hd
  · exact main _ hd

/-- **C50, partial**: at any time the index describes a prefix of the archive. -/
theorem C50_prefix_partial (hf : Fine cfg.env R) (hq : Goodbye.Sorts cfg.env.qsort) (hfr : Chunker.Spec.Fresh cfg.chunker) (hH : ∀ look, K look → Honest cfg R look)
    (h : Session cfg R use K d) (ha : d.again = 0) :
    ∃ chunks : List Bytes, chunks.flatten <+: archiveOf cfg.env R ∧ d.index = chunks.map (fun c => (cfg.digest c, c.length)) := by
  have main : ∀ done, Done cfg R K d done → ∃ chunks : List Bytes, chunks.flatten <+: archiveOf cfg.env R ∧ d.index = chunks.map (fun c => (cfg.digest c, c.length)) := by
    intro done hd
    obtain ⟨ps, p1, p2, _⟩ := hd.parts
    exact ⟨ps, by rw [p1]; exact List.take_prefix _ _, p2⟩
  rcases h.inv hf hq hfr hH with hd | ⟨_, hd⟩ | ⟨_, done, hd, _⟩
  · exact absurd ha hd
  · exact main _ hd
  · exact main _ hd

/-- **C50, partial**: a step succeeds, whatever an honest cache answers, unless reading the cache failed. -/
theorem C50_progress_partial (hf : Fine cfg.env R) (hq : Goodbye.Sorts cfg.env.qsort) (hfr : Chunker.Spec.Fresh cfg.chunker) (hH : ∀ look, K look → Honest cfg R look)
    (hA : (archiveOf cfg.env R).length < 2 ^ 63) (h : Session cfg R use K d) (ha : d.again = 0) (hs : SafeSeek d) {look : Look} (hK : K look) :
    (∃ d' ev, dStep cfg look d = .ok (d', ev)) ∨ (∃ l e, e ≠ .ENOENT ∧ look l = .err e ∧ dStep cfg look d = .err e) ∨ (∃ l, look l = .ub ∧ dStep cfg look d = .ub) := by
  have := dStep_ok hf hq hfr hK (hH look hK) (h.inv hf hq hfr hH) ha hs
  cases hd : dStep cfg look d with
  | ok r => exact .inl ⟨r.1, r.2, rfl⟩
  | err e =>
    rw [hd] at this
    rcases this with hx | ⟨h1, l, h2⟩
    · omega
    · exact .inr (.inl ⟨l, e, h1, h2, rfl⟩)
  | ub =>
    rw [hd] at this
    rcases this with hx | ⟨l, h2⟩
    · omega
    · exact .inr (.inr ⟨l, h2, rfl⟩)

end

/-! ### Entries that an earlier session made -/

theorem slice_get {A : Bytes} {a n j : Nat} (hj : j < n) : (slice A a n)[j]? = A[a + j]? := by
  unfold slice
  rw [List.getElem?_take_of_lt hj, List.getElem?_drop]

/-- **C50**: an entry that is true of one tree is true of another one, or of another state of the tree, if the places with the same path, designator,
offset, time stamps and feature flags have the same bytes. -/
theorem C50_kept {cfg cfg' : Cfg} {R R' : Obj} (hdig : cfg'.digest = cfg.digest) (hf' : Fine cfg'.env R') (hq' : Goodbye.Sorts cfg'.env.qsort) {o : Origin.Origin} {a : Nat}
    (hc : Covers cfg.env R o a) (hle : a + o.nBytes ≤ (archiveOf cfg.env R).length)
    (hsame : ∀ i i' l l', LocAt cfg.env R i l → LocAt cfg'.env R' i' l' → CacheSpec.Same l l' → (archiveOf cfg.env R)[i]? = (archiveOf cfg'.env R')[i']?) :
    Truthful cfg' R' (cfg.digest (slice (archiveOf cfg.env R) a o.nBytes)) o := by
  intro a' hc'
  rw [hdig]
  congr 1
  apply List.ext_getElem?
  intro j
  by_cases hj : j < o.nBytes
  · rw [slice_get hj, slice_get hj]
    obtain ⟨l, q, h1, h2, h3⟩ := hc j hj
    obtain ⟨l', q', h1', h2', h3'⟩ := hc' j hj
    rw [h2] at h2'
    injection h2' with h2'
    subst h2'
    exact (hsame _ _ _ _ h1 h1' ((same_key _ _).2 (((same_key _ _).1 h3).trans ((same_key _ _).1 h3').symm))).symm
  · have hz : o.nBytes = 0 ∨ a' + o.nBytes ≤ (archiveOf cfg'.env R').length := by
      by_cases h0 : o.nBytes = 0
      · exact .inl h0
      · obtain ⟨l, q, h1, _⟩ := hc' (o.nBytes - 1) (by omega)
        have := (h1.std hf' hq').2
        exact .inr (by omega)
    have hl : (slice (archiveOf cfg'.env R') a' o.nBytes).length = o.nBytes := by
      rcases hz with h0 | h0
      · rw [h0]; unfold slice; simp
      · exact slice_length h0
    rw [List.getElem?_eq_none (by rw [hl]; omega), List.getElem?_eq_none (by rw [slice_length hle]; omega)]

/-! ### Without hits -/

theorem gotData_miss {cfg : Cfg} {look : Look} (hm : ∀ l, look l = .err .ENOENT) {d : Drv} {ev : Archive.EEv} {r : Drv × SEv} (hc : d.cst ≠ .verify)
    (h : gotData cfg look d ev = .ok r) : r.1.again = d.again := by
  unfold gotData at h
  split at h
  · cases h
  · cases h
  · split at h
    · cases h
    · split at h
      · cases h
      · cases h
      · split at h
        · cases h
        · cases h
        · split at h
          · rename_i hfr
            injection h with h
            subst h
            have := fresh_again hfr
            exact this
          · cases h
          · cases h
        · rename_i hg
          unfold cacheGet at hg
          split at hg
          · cases hg
          · rw [hm] at hg
            cases hg
  · rename_i hv
    exact absurd hv hc
  · split at h
    · rename_i hfr
      injection h with h
      subst h
      have := fresh_again hfr
      exact this
    · cases h
    · cases h

theorem dStep_miss {cfg : Cfg} {look : Look} (hm : ∀ l, look l = .err .ENOENT) {d : Drv} {r : Drv × SEv} (hc : Rest d.cst) (h : dStep cfg look d = .ok r) : r.1.again = d.again := by
  have hpro : ∀ d' : Drv, Rest d'.cst → d'.again = d.again → proceed cfg look d' = .ok r → r.1.again = d.again := by
    intro d' hr ha h
    have hv : d'.cst ≠ .verify := by rcases hr with hr | hr | hr <;> rw [hr] <;> simp
    unfold proceed at h
    split at h
    · cases h
    · cases h
    · unfold arrived at h
      split at h
      · split at h
        · rename_i hv'; exact absurd hv' hv
        · split at h
          · cases h
          · unfold finish at h
            split at h
            · injection h with h; subst h; exact ha
            · split at h
              · rename_i hw
                injection h with h
                subst h
                have := writeOne_again hw
                exact Eq.trans this ha
              · cases h
              · cases h
      · injection h with h; subst h; exact ha
      all_goals
        have := gotData_miss (d := { d' with enc := _, sought := false }) hm hv h
        exact Eq.trans this ha
  unfold dStep at h
  split at h
  · injection h with h; subst h; rfl
  · rcases hc with hc | hc | hc
    · rw [hc] at h; exact hpro d (.inl hc) rfl h
    · rw [hc] at h; exact hpro d (.inr (.inl hc)) rfl h
    · rw [hc] at h
      simp only at h
      split at h
      · exact hpro d (.inr (.inr hc)) rfl h
      · split at h
        · cases h
        · split at h
          · cases h
          · cases h
          · exact hpro { d with cst := .idle } (.inr (.inl rfl)) rfl h
          · rename_i hg
            unfold cacheGet at hg
            split at hg
            · cases hg
            · rw [hm] at hg
              cases hg

/-- With an empty cache no byte is emitted twice. -/
theorem Session.once {cfg : Cfg} {R : Obj} {use : Bool} {d : Drv} (hf : Fine cfg.env R) (hq : Goodbye.Sorts cfg.env.qsort) (hfr : Chunker.Spec.Fresh cfg.chunker)
    (h : Session cfg R use (fun look => ∀ l, look l = .err .ENOENT) d) : d.again = 0 := by
  have hH : ∀ look, (∀ l, look l = .err .ENOENT) → Honest cfg R look := by
    intro look hl l id o hh
    rw [hl] at hh
    cases hh
  induction h with
  | start => rfl
  | step hses hK hs hd ih =>
    rename_i look d d' ev
    have hinv := hses.inv hf hq hfr hH
    by_cases heof : d.eof = true
    · unfold dStep at hd
      rw [if_pos heof] at hd
      injection hd with hd
      injection hd with hd _
      subst hd
      exact ih
    · have hr : Rest d.cst := by
        rcases hinv with hi | ⟨hi, _⟩ | ⟨_, done, hdn, hg⟩
        · exact absurd ih hi
        · exact absurd hi heof
        · rcases hg with ⟨hr, _⟩ | ⟨_, h, c, O, pos, _, hh, _⟩ | ⟨_, h, O, pos, _, hh, _⟩ | ⟨_, h, pos, due, _, ⟨_, look', l, o, k1, k2⟩, _⟩
          · exact hr
          · obtain ⟨look', l, k1, k2⟩ := hh.from_
            rw [k1 l] at k2
            cases k2
          · obtain ⟨look', l, k1, k2⟩ := hh.from_
            rw [k1 l] at k2
            cases k2
          · rw [k1 l] at k2
            cases k2
      have := dStep_miss hK hr hd
      exact Eq.trans this ih

/-- **C50**: without a cache, or with an empty one that is only filled, the index describes the archive, all of its chunks are in the store, and what is
put into the cache is true. -/
theorem C50_filling {cfg : Cfg} {R : Obj} {use : Bool} {d : Drv} (hf : Fine cfg.env R) (hq : Goodbye.Sorts cfg.env.qsort) (hfr : Chunker.Spec.Fresh cfg.chunker)
    (h : Session cfg R use (fun look => ∀ l, look l = .err .ENOENT) d) :
    (d.eof = true → ∃ chunks : List Bytes, chunks.flatten = archiveOf cfg.env R ∧ d.index = chunks.map (fun c => (cfg.digest c, c.length)) ∧ (∀ c, c ∈ chunks ↔ c ∈ d.stored)) ∧
    ∀ o id, (o, id) ∈ d.puts → o.nBytes ≠ 0 ∧ ∃ a, a + o.nBytes ≤ (archiveOf cfg.env R).length ∧ Covers cfg.env R o a ∧ id = cfg.digest (slice (archiveOf cfg.env R) a o.nBytes) := by
  have hH : ∀ look, (∀ l, look l = .err .ENOENT) → Honest cfg R look := by
    intro look hl l id o hh
    rw [hl] at hh
    cases hh
  have hrest : d.again = 0 := h.once hf hq hfr
  constructor
  · intro he
    obtain ⟨cs, c1, c2, c3, c4⟩ := C50_index_partial hf hq hfr hH h he hrest
    refine ⟨cs, c1, c2, fun c => ⟨fun hc => ?_, c4 c⟩⟩
    rcases c3 c hc with g | ⟨look, l, o, g1, g2⟩
    · exact g
    · rw [g1 l] at g2; cases g2
  · intro o id hp
    exact C50_entries_partial hf hq hfr hH h hrest hp

end Casync.CacheMake
