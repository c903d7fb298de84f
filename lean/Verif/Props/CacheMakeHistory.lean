import Verif.Props.CacheMakeExamples
import Verif.Lemmas.LocUnique
/-!
C50: many sessions with one cache.
-/
namespace Casync.CacheMake
open Resume
open Location (Location)
open Origin (Known Inv)

set_option maxRecDepth 4000

/-- In one tree a place has only one byte. -/
theorem C50_place {env : Env} {R : Obj} (hf : Fine env R) (hq : Goodbye.Sorts env.qsort) : Agree env R env R := by
  intro i i' l l' h h' hs
  rw [h.unique hf hq h' hs.1 hs.2.1 hs.2.2.1]

/-- What is known of the entries. -/
def Made (digest : Bytes → Bytes) (V : Env → Obj → Prop) (S : List Bytes) (e : Origin.Origin × Bytes) : Prop :=
  Inv e.1 ∧ ∃ env R a, V env R ∧ Covers env R e.1 a ∧ a + e.1.nBytes ≤ (archiveOf env R).length ∧ e.2 = digest (slice (archiveOf env R) a e.1.nBytes) ∧
    slice (archiveOf env R) a e.1.nBytes ∈ S

theorem Made.more {digest : Bytes → Bytes} {V : Env → Obj → Prop} {S S' : List Bytes} {e : Origin.Origin × Bytes} (h : Made digest V S e) (hs : ∀ c ∈ S, c ∈ S') : Made digest V S' e := by
  obtain ⟨h1, env, R, a, h2, h3, h4, h5, h6⟩ := h
  exact ⟨h1, env, R, a, h2, h3, h4, h5, hs _ h6⟩

theorem Answers.honest {digest : Bytes → Bytes} {V : Env → Obj → Prop} {E : List (Origin.Origin × Bytes)} {S : List Bytes} (hm : ∀ e ∈ E, Made digest V S e) {cfg : Cfg} {R : Obj}
    (hd : cfg.digest = digest) (hf : Fine cfg.env R) (hq : Goodbye.Sorts cfg.env.qsort) (hA : ∀ env' R', V env' R' → Agree env' R' cfg.env R) {look : Look} (h : Answers E look) : Honest cfg R look := by
  intro l id o hl
  obtain ⟨h1, h2⟩ := h l id o hl
  obtain ⟨h3, env, R', a, h4, h5, h6, h7, _⟩ := hm _ h1
  refine ⟨h2, h3.known, count_tot h3, h3.small, ?_⟩
  have := C50_kept (cfg := ⟨env, digest, cfg.chunker⟩) (cfg' := cfg) hd hf hq h5 h6 (hA env R' h4)
  have h7' : id = digest (slice (archiveOf env R') a o.nBytes) := h7
  rw [h7']
  exact this

theorem Session.made {digest : Bytes → Bytes} {V : Env → Obj → Prop} {S : List Bytes} {cfg : Cfg} {R : Obj} {use : Bool} {K : Look → Prop} {d : Drv} (hV : V cfg.env R) (hdig : cfg.digest = digest)
    (hf : Fine cfg.env R) (hq : Goodbye.Sorts cfg.env.qsort) (hfr : Chunker.Spec.Fresh cfg.chunker) (hH : ∀ look, K look → Honest cfg R look) (h : Session cfg R use K d) (ha : d.again = 0) :
    ∀ e ∈ d.puts, Made digest V (S ++ d.stored) e := by
  have main : ∀ done, Done cfg R K d done → ∀ e ∈ d.puts, Made digest V (S ++ d.stored) e := by
    intro done hd e he
    obtain ⟨h1, _, a, h2, h3, h4, h5⟩ := hd.puts e he
    exact ⟨h1, cfg.env, R, a, hV, h2, h3, by rw [← hdig]; exact h4, List.mem_append_right _ h5⟩
  rcases h.inv hf hq hfr hH with hd | ⟨_, hd⟩ | ⟨_, done, hd, _⟩
  · exact absurd ha hd
  · exact main _ hd
  · exact main _ hd

theorem Sessions.made {digest : Bytes → Bytes} {V : Env → Obj → Prop} (hV : ∀ env R, V env R → Fine env R ∧ Goodbye.Sorts env.qsort)
    (hA : ∀ env R env' R', V env R → V env' R' → Agree env R env' R') {E : List (Origin.Origin × Bytes)} {S : List Bytes} (h : Sessions digest V E S) : ∀ e ∈ E, Made digest V S e := by
  induction h with
  | none => intro e he; cases he
  | @session E S cfg R use d h h1 h2 h3 h4 h5 ih =>
    obtain ⟨hf, hq⟩ := hV _ _ h1
    intro e he
    rcases List.mem_append.1 he with he | he
    · exact (ih e he).more fun c hc => List.mem_append_left _ hc
    · exact h4.made h1 h2 hf hq h3 (fun look hl => hl.honest ih h2 hf hq fun env' R' hv => hA _ _ _ _ hv h1) h5 e he

/-- **C50, partial**: many sessions with one cache and one store.  If the same place in the same state of a file always has the same bytes, then every
session that ends made an index for the archive of its tree, and a chunk for each of the ids is in the store. -/
theorem C50_sessions_partial {digest : Bytes → Bytes} {V : Env → Obj → Prop} (hV : ∀ env R, V env R → Fine env R ∧ Goodbye.Sorts env.qsort)
    (hA : ∀ env R env' R', V env R → V env' R' → Agree env R env' R') {E : List (Origin.Origin × Bytes)} {S : List Bytes} (hp : Sessions digest V E S)
    {cfg : Cfg} {R : Obj} {use : Bool} {d : Drv} (hR : V cfg.env R) (hd : cfg.digest = digest) (hfr : Chunker.Spec.Fresh cfg.chunker) (h : Session cfg R use (Answers E) d)
    (he : d.eof = true) (ha : d.again = 0) :
    ∃ chunks : List Bytes, chunks.flatten = archiveOf cfg.env R ∧ d.index = chunks.map (fun c => (digest c, c.length)) ∧ ∀ c ∈ chunks, ∃ c' ∈ S ++ d.stored, digest c' = digest c := by
  have hm := hp.made hV hA
  obtain ⟨hf, hq⟩ := hV _ _ hR
  obtain ⟨cs, h1, h2, h3, _⟩ := C50_index_partial hf hq hfr (fun look hl => hl.honest hm hd hf hq fun env' R' hv => hA _ _ _ _ hv hR) h he ha
  rw [hd] at h2 h3
  refine ⟨cs, h1, h2, fun c hc => ?_⟩
  rcases h3 c hc with g | ⟨look, l, o, g1, g2⟩
  · exact ⟨c, List.mem_append_right _ g, rfl⟩
  · obtain ⟨g3, _⟩ := g1 _ _ _ g2
    obtain ⟨_, env, R', a, _, _, _, g4, g5⟩ := hm _ g3
    exact ⟨_, List.mem_append_left _ g5, g4.symm⟩

/-- **C50, partial**: as long as the tree does not change, nothing has to be assumed of the cache but that its entries were made by sessions before. -/
theorem C50_unchanged_partial {digest : Bytes → Bytes} {env : Env} {R : Obj} (hf : Fine env R) (hq : Goodbye.Sorts env.qsort) {E : List (Origin.Origin × Bytes)} {S : List Bytes}
    (hp : Sessions digest (fun e r => e = env ∧ r = R) E S) {chunker : Chunker.Chunker} {use : Bool} {d : Drv} (hfr : Chunker.Spec.Fresh chunker)
    (h : Session ⟨env, digest, chunker⟩ R use (Answers E) d) (he : d.eof = true) (ha : d.again = 0) :
    ∃ chunks : List Bytes, chunks.flatten = archiveOf env R ∧ d.index = chunks.map (fun c => (digest c, c.length)) ∧ ∀ c ∈ chunks, ∃ c' ∈ S ++ d.stored, digest c' = digest c :=
  C50_sessions_partial (V := fun e r => e = env ∧ r = R) (cfg := ⟨env, digest, chunker⟩) (fun _ _ hv => by rw [hv.1, hv.2]; exact ⟨hf, hq⟩)
    (fun _ _ _ _ hv hv' => by rw [hv.1, hv.2, hv'.1, hv'.2]; exact C50_place hf hq) hp ⟨rfl, rfl⟩ rfl hfr h he ha

/-! ### An example -/

theorem Session.mono {cfg : Cfg} {R : Obj} {use : Bool} {K K' : Look → Prop} (hK : ∀ look, K look → K' look) {d : Drv} (h : Session cfg R use K d) : Session cfg R use K' d := by
  induction h with
  | start => exact .start
  | step _ h1 h2 h3 ih => exact .step ih (hK _ h1) h2 h3

theorem fromPuts_answers {E ps : List (Origin.Origin × Bytes)} (hs : ∀ e ∈ ps, e ∈ E) : Answers E (fromPuts ps) := by
  intro l id o hl
  unfold fromPuts at hl
  cases hx : ps.find? (startsAt l) with
  | none => rw [hx] at hl; cases hl
  | some p =>
    rw [hx] at hl
    simp only at hl
    injection hl with hl
    injection hl with hl1 hl2
    subst hl1 hl2
    refine ⟨hs _ (List.mem_of_find?_eq_some hx), ?_⟩
    have hs := List.find?_some hx
    unfold startsAt at hs
    cases hi : p.1.items with
    | nil => rw [hi] at hs; cases hs
    | cons f r =>
      rw [hi] at hs
      exact ⟨f, r, rfl, (Cache.equal_same _ _).1 hs⟩

theorem firstLen_session : Session lenCfg exOld true (fun look => ∀ l, look l = .err .ENOENT) firstLen := by
  have h := factsLen_hold
  unfold factsLen at h
  cases h1 : run lenCfg noHit 100 (dStart lenCfg exOld true) with
  | none => rw [h1] at h; cases h
  | some d =>
    rw [firstLen_some h1]
    exact (run_session (K := fun look => ∀ l, look l = .err .ENOENT) (fun _ => rfl) .start h1).1

theorem kept_sub : ∀ e ∈ kept, e ∈ [] ++ firstLen.puts := by
  intro e he
  unfold kept at he
  rw [List.nil_append]
  generalize firstLen.puts = ps at he ⊢
  rcases List.mem_append.1 he with he | he
  · exact List.mem_of_mem_take he
  · exact List.mem_of_mem_drop he

attribute [local irreducible] firstLen secondLen kept

theorem firstLen_sessions : Sessions lenCfg.digest (fun e r => e = exEnv ∧ r = exOld) ([] ++ firstLen.puts) ([] ++ firstLen.stored) :=
  .session (cfg := lenCfg) (R := exOld) .none ⟨rfl, rfl⟩ rfl exChunker_fresh (firstLen_session.mono fun look hl l id o hh => by rw [hl] at hh; cases hh) (firstLen_session.once exOld_fine sortItems_sorts exChunker_fresh)

theorem secondLen_answers : Session lenCfg exOld true (Answers ([] ++ firstLen.puts)) secondLen :=
  secondLen_session.1.mono fun look hl => by rw [hl]; exact fromPuts_answers kept_sub

/-- The hypotheses of `C50_unchanged_partial` are met: the second session finds four of its seven chunks in what is left of the cache of the first one. -/
example : secondLen.index.length = 7 ∧ secondLen.stored.length = 3 ∧
    ∃ chunks : List Bytes, chunks.flatten = archiveOf exEnv exOld ∧ secondLen.index = chunks.map (fun c => (le64 c.length, c.length)) ∧
      ∀ c ∈ chunks, ∃ c' ∈ [] ++ firstLen.stored ++ secondLen.stored, le64 c'.length = le64 c.length :=
  ⟨secondLen_facts.2.1, secondLen_facts.2.2,
    C50_unchanged_partial (digest := lenCfg.digest) (env := exEnv) (R := exOld) exOld_fine sortItems_sorts firstLen_sessions (chunker := exChunker) exChunker_fresh secondLen_answers secondLen_session.2 secondLen_facts.1⟩

end Casync.CacheMake
