import Verif.Props.MakeOk
import Verif.Props.Truncated
import Verif.Props.ResumeFindings
import Verif.Props.CacheMakeHistory
/-!
C51: from a directory tree to an index with its store, and back.
-/
namespace Casync.EndToEnd
open Flags (Word areNormalized none64)
open Os (FS exec Choice)
open Store (NoFaults FullReads PutCall afterPuts)
open Make (Cfg Maker make chunks answers delivered Fits Ready roots Apart)
open Index (newRead newWrite)
open Sync (Op Sources)
open Archive (Tree Storable ERun EOutcome eStart Positive DCfg Run start Obs Outcome atoms events encTree)

variable {q : List Goodbye.NameItem → List Goodbye.NameItem}

/-- What any part of the archive of a tree gives: the beginning of the tree, and the end only with all of it. -/
theorem decode_prefix (hq : Goodbye.Sorts q) {ff : Word} (hff : areNormalized ff = .ok true) {t : Tree} (ht : Storable ff t) (hd : t.isDir = true) (hh : t.height ≤ 64)
    (hl : (encTree q 0 t).length < 2 ^ 62) {cfg : DCfg} (hn : cfg.naked = false) (hw : cfg.wantPayload = true) {e m : Word} (he : e = none64 ∨ e = ff)
    {ps : List Bytes} (hps : ps.flatten <+: encTree q 0 t) {obs : List Obs} {o : Outcome} (hr : Run (start cfg e m) ps obs o) :
    atoms obs <+: events [] t ∧ (o = .finished → atoms obs = events [] t) ∧ (ps.flatten = encTree q 0 t → o = .finished) := by
  obtain ⟨missing, hps⟩ := hps
  by_cases hm : missing = []
  · subst hm
    rw [List.append_nil] at hps
    obtain ⟨_, h1, h2⟩ := Archive.C25_round_trip hq ff hff t ht hd hh (fun _ => none) (fun _ n hn => by cases hn) _ _
      (Archive.C25_session_exists hq t hd hh (fun _ => none) (fun _ n hn => by cases hn)) hl cfg hn hw e m he ps hps obs o hr
    exact ⟨by rw [h1]; exact List.prefix_refl _, fun _ => h1, fun _ => h2⟩
  · obtain ⟨h1, more, h2⟩ := Archive.C37_truncated_never_success_partial ff hff t ht hd hh hl cfg hn hw e m he ps missing hm hps obs o hr
    refine ⟨⟨more, h2.symm⟩, ?_, ?_⟩
    · rintro rfl
      rcases h1 with h1 | h1 <;> cases h1
    · intro hx
      rw [hx] at hps
      have := congrArg List.length hps
      rw [List.length_append] at this
      exact absurd (List.length_eq_zero_iff.1 (by omega)) hm

/-- **C51** (nothing but the tree).  A directory tree is encoded, in pieces of any size, and cut into chunks; the make succeeds.  Later an extraction asks
for the chunks, one after the other.  Whatever happened to the stores in between, as long as the sources only hand out what has the digest that was asked
for (stores: `C13`, seeds: `C31`, remotes: `C34`): what the decoder reports is the beginning of what is in the tree, and it finishes only if it has reported all of it. -/
theorem C51_nothing_else (hq : Goodbye.Sorts q) (ff : Word) (hff : areNormalized ff = .ok true) (t : Tree) (ht : Storable ff t) (hd : t.isDir = true) (hh : t.height ≤ 64)
    (sizes : Nat → Option Nat) (hs : Positive sizes) (blocks : List Bytes) (eo : EOutcome) (henc : ERun q sizes (eStart t) blocks.flatten eo) (hl : blocks.flatten.length < 2 ^ 62)
    (c : Cfg) (ch : Chunker.Chunker) (hch : Chunker.Spec.Fresh ch) (mk : Maker) (flags : Word) (cmin cavg cmax : Nat) (i0 : Index.Index) (hi : newWrite flags cmin cavg cmax = .ok i0)
    (hm : mk.index = some i0) (hlen : ∀ x ∈ chunks ch blocks, (c.digest x).length = 32) (hinj : ∀ x ∈ chunks ch blocks, ∀ y, c.digest y = c.digest x → y = x)
    (fs : FS) (env : Nat → Choice) (mk' : Maker) (g : FS) (hmake : exec env 0 fs (make c ch mk blocks) = (.ok mk', g)) :
    ∃ i, mk'.index = some i ∧ (i.file.length < 2 ^ 63 →
      ∀ (clients : List (Bool × Sources)), (∀ S ∈ clients, ∀ src ∈ S.2.all, ∀ id, src.2 id ≠ .ub ∧ ∀ y, src.2 id = .ok y → c.digest y = id) →
      ∀ l, l = answers (Sync.run { index := newRead i.file } (clients.map fun S => Op.request S.1 (Sync.get S.2))) →
      ∀ (cfg : DCfg) (e m : Word), cfg.naked = false → cfg.wantPayload = true → (e = none64 ∨ e = ff) →
      ∀ (ps : List Bytes), ps.flatten = delivered l → ∀ (obs : List Obs) (o : Outcome), Run (start cfg e m) ps obs o →
      atoms obs <+: events [] t ∧ (o = .finished → atoms obs = events [] t) ∧ (Res.ok .eof ∈ l → o = .finished)) := by
  obtain ⟨i, h1, h2⟩ := Make.C38_no_other_bytes c ch hch mk blocks flags cmin cavg cmax i0 hi hm hlen hinj fs env mk' g hmake
  have hb : blocks.flatten = encTree q 0 t := (henc.det (Archive.C25_session_exists hq t hd hh sizes hs)).1
  refine ⟨i, h1, ?_⟩
  intro hlf clients hS l hl' cfg e m hn hw he ps hps obs o hr
  obtain ⟨h3, h4⟩ := h2 hlf clients hS l hl'
  rw [← hps, hb] at h3 h4
  rw [hb] at hl
  obtain ⟨g1, g2, g3⟩ := decode_prefix hq hff ht hd hh hl hn hw he h3 hr
  exact ⟨g1, g2, fun hx => g3 (h4 hx)⟩

/-- **C51** (round trip).  With the assumptions of `C38_round_trip` on the disk, the sizes and the digests: the extraction reports the tree, and finishes. -/
theorem C51_round_trip (hq : Goodbye.Sorts q) (ff : Word) (hff : areNormalized ff = .ok true) (t : Tree) (ht : Storable ff t) (hd : t.isDir = true) (hh : t.height ≤ 64)
    (sizes : Nat → Option Nat) (hs : Positive sizes) (blocks : List Bytes) (eo : EOutcome) (henc : ERun q sizes (eStart t) blocks.flatten eo) (hl : blocks.flatten.length < 2 ^ 62)
    (c : Cfg) (dg : Store.Digest) (ch : Chunker.Chunker) (hch : Chunker.Spec.Fresh ch) (mk : Maker) (flags : Word) (cmin cavg cmax : Nat) (i0 : Index.Index)
    (hi : newWrite flags cmin cavg cmax = .ok i0) (hm : mk.index = some i0) (hfit : Fits c mk (chunks ch blocks)) (hap : ∀ r ∈ roots c mk, ∀ r' ∈ roots c mk, r = r' ∨ Apart r r')
    (fs : FS) (hr : Ready c (roots c mk) (chunks ch blocks) fs) (env : Nat → Choice) (mk' : Maker) (g : FS) (hmake : exec env 0 fs (make c ch mk blocks) = (.ok mk', g)) :
    ∃ i, mk'.index = some i ∧
      ∀ (root : Bytes), root ∈ roots c mk → i.file.length < 2 ^ 63 →
      ∀ (later : List PutCall), (∀ p ∈ later, p.Valid ∧ p.eff ≠ .asIs ∧ (p.root = root ∨ Apart root p.root)) →
      ∀ (s : Store.Store), Store.Reachable c.cd dg s → s.root = some root →
        (∀ x ∈ chunks ch blocks, Store.Matches dg s.digestType (c.digest x) x ∧ (c.cd.enc s.compressionType x).length < ChunkFile.MAX) →
      ∀ (clients : List (Sources × (Nat → Choice))), clients.length = (chunks ch blocks).length + 1 →
        (∀ S ∈ clients, NoFaults S.2 ∧ FullReads S.2 ∧ (Sync.Kind.store, Make.fromStore c.cd dg s (afterPuts c.cd g later) S.2) ∈ S.1.all ∧
          ∀ src ∈ S.1.all, ∀ x ∈ chunks ch blocks, src = (Sync.Kind.store, Make.fromStore c.cd dg s (afterPuts c.cd g later) S.2) ∨ Make.Honest src (c.digest x) x) →
      ∀ (cfg : DCfg) (e m : Word), cfg.naked = false → cfg.wantPayload = true → (e = none64 ∨ e = ff) →
      ∀ (ps : List Bytes), ps.flatten = delivered (answers (Sync.run { index := newRead i.file } (clients.map fun S => Op.request true (Sync.get S.1)))) →
      ∀ (obs : List Obs) (o : Outcome), Run (start cfg e m) ps obs o → eo = .finished ∧ atoms obs = events [] t ∧ o = .finished := by
  obtain ⟨i, h1, _, h2⟩ := Make.C38_round_trip c dg ch hch mk blocks flags cmin cavg cmax i0 hi hm hfit hap fs hr env mk' g hmake
  refine ⟨i, h1, ?_⟩
  intro root hroot hlf later hlt s hsr hsro hx clients hcl hcs cfg e m hn hw he ps hps obs o hrun
  have h3 := (h2 root hroot hlf later hlt s hsr hsro hx clients hcl hcs).2
  exact Archive.C25_round_trip hq ff hff t ht hd hh sizes hs blocks.flatten eo henc hl cfg hn hw e m he ps (hps.trans h3) obs o hrun

/-- Reading an index from its beginning. -/
theorem read_prefix {H : Bytes → Bytes} {xs : List Bytes} {hd : Index.Spec.Header} (hv : hd.Valid) (hc : Index.Spec.ChunksValid hd (Sync.chunksOf H xs))
    (hl : (Index.Spec.encode hd (Sync.chunksOf H xs)).length < 2 ^ 63) (hinj : ∀ x ∈ xs, ∀ y, H y = H x → y = x) (clients : List (Bool × Sources))
    (hS : ∀ S ∈ clients, ∀ src ∈ S.2.all, ∀ id, src.2 id ≠ .ub ∧ ∀ y, src.2 id = .ok y → H y = id) {l : List (Res Sync.Out)}
    (hl' : l = answers (Sync.run { index := newRead (Index.Spec.encode hd (Sync.chunksOf H xs)) } (clients.map fun S => Op.request S.1 (Sync.get S.2)))) :
    delivered l <+: xs.flatten ∧ (Res.ok .eof ∈ l → delivered l = xs.flatten) := by
  have hgen : ∀ op ∈ clients.map (fun S => Op.request S.1 (Sync.get S.2)), op.Genuine H xs := by
    intro op hop
    obtain ⟨S, hS', rfl⟩ := List.mem_map.1 hop
    refine ⟨?_, ?_⟩
    · intro x hx y hy
      obtain ⟨k, hk⟩ := Make.getChain_from _ hy
      obtain ⟨src, hsrc, h⟩ := List.mem_map.1 hk
      injection h with _ h
      exact hinj x hx y ((hS S hS' src hsrc _).2 y h)
    · intro id
      refine Make.getChain_ub _ ?_
      intro x hx
      obtain ⟨src, hsrc, rfl⟩ := List.mem_map.1 hx
      exact (hS S hS' src hsrc id).1
  have harr : ∀ (l : List (Bool × Sources)), Sync.Arrives [] (l.map fun S => Op.request S.1 (Sync.get S.2)) := by
    intro l
    induction l with
    | nil => exact trivial
    | cons S l ih => exact ih
  have hright := Sync.C39_random_access H xs hd hv hc hl _ hgen (harr clients)
  have := Make.right_requests _ _ 0 hright (Make.run_stops _ _) (by
    intro x hx
    obtain ⟨S, _, h⟩ := List.mem_map.1 (Make.run_ops _ _ _ hx)
    exact ⟨_, _, h.symm⟩)
  rw [List.drop_zero] at this
  rw [hl']
  exact this

/-- **C51, partial** (with the cache).  The index was made with the chunk cache, by the last one of many sessions with one cache over a tree that did not change
(`C50_unchanged_partial`, where it also says what is missing).  What an extraction reports is the beginning of what is in the tree, and it finishes only if it has reported all of it. -/
theorem C51_cached_partial {digest : Bytes → Bytes} {env : Resume.Env} {R : Resume.Obj} (hf : Resume.Fine env R) (hq : Goodbye.Sorts env.qsort) {E : List (Origin.Origin × Bytes)} {S : List Bytes}
    (hp : CacheMake.Sessions digest (fun e r => e = env ∧ r = R) E S) {chunker : Chunker.Chunker} {use : Bool} {d : CacheMake.Drv} (hfr : Chunker.Spec.Fresh chunker)
    (h : CacheMake.Session ⟨env, digest, chunker⟩ R use (CacheMake.Answers E) d) (he : d.eof = true) (ha : d.again = 0)
    (ff : Word) (hff : areNormalized ff = .ok true) (ht : Storable ff (Resume.view env [] R)) (hR : R.isDir = true) (hl : (Resume.archiveOf env R).length < 2 ^ 62)
    (hinj : ∀ x y, (digest x, x.length) ∈ d.index → digest y = digest x → y = x)
    (hd : Index.Spec.Header) (hv : hd.Valid) (hc : Index.Spec.ChunksValid hd d.index) (hlf : (Index.Spec.encode hd d.index).length < 2 ^ 63)
    (clients : List (Bool × Sources)) (hS : ∀ S ∈ clients, ∀ src ∈ S.2.all, ∀ id, src.2 id ≠ .ub ∧ ∀ y, src.2 id = .ok y → digest y = id)
    (l : List (Res Sync.Out)) (hl' : l = answers (Sync.run { index := newRead (Index.Spec.encode hd d.index) } (clients.map fun S => Op.request S.1 (Sync.get S.2))))
    (cfg : DCfg) (e m : Word) (hn : cfg.naked = false) (hw : cfg.wantPayload = true) (he' : e = none64 ∨ e = ff)
    (ps : List Bytes) (hps : ps.flatten = delivered l) (obs : List Obs) (o : Outcome) (hr : Run (start cfg e m) ps obs o) :
    atoms obs <+: events [] (Resume.view env [] R) ∧ (o = .finished → atoms obs = events [] (Resume.view env [] R)) ∧ (Res.ok .eof ∈ l → o = .finished) := by
  obtain ⟨xs, h1, h2, _⟩ := CacheMake.C50_unchanged_partial hf hq hp hfr h he ha
  have hx : d.index = Sync.chunksOf digest xs := h2
  have hA : Resume.archiveOf env R = encTree env.qsort 0 (Resume.view env [] R) := by
    cases R with
    | leaf t => cases hR
    | dir => rfl
  have hvd : (Resume.view env [] R).isDir = true := by
    cases R with
    | leaf t => cases hR
    | dir => rfl
  rw [hx] at hc hlf hl'
  have hinj' : ∀ x ∈ xs, ∀ y, digest y = digest x → y = x := fun x hx' y hy => hinj x y (by rw [hx]; exact List.mem_map.2 ⟨x, hx', rfl⟩) hy
  obtain ⟨h3, h4⟩ := read_prefix hv hc hlf hinj' clients hS hl'
  rw [← hps, h1, hA] at h3 h4
  rw [hA] at hl
  obtain ⟨g1, g2, g3⟩ := decode_prefix hq hff ht hvd hf.depth hl hn hw he' h3 hr
  exact ⟨g1, g2, fun hx => g3 (h4 hx)⟩

/-! ### An example -/

def exBytes : Bytes := encTree Resume.sortItems 0 Archive.exTree

/-- The chunks are larger than the archive. -/
def exChunker : Chunker.Chunker := { h := 0, wsize := 0, csize := 0, window := List.replicate 48 0, min := 2000, max := 4000, avg := 3000, discr := 2000 }

def exDigest (x : Bytes) : Bytes := if x = exBytes then List.replicate 32 1 else List.replicate 32 2

def exCfg : Cfg := ⟨Store.plainCodec, exDigest, [], fun n => [46, UInt8.ofNat n, 120]⟩

theorem ex_chunks : chunks exChunker [exBytes] = [exBytes] ∧ exBytes.length < 2000 := by decide +kernel

theorem ex_inj : ∀ x ∈ chunks exChunker [exBytes], ∀ y, exCfg.digest y = exCfg.digest x → y = x := by
  intro x hx y h
  rw [ex_chunks.1, List.mem_singleton] at hx
  subst hx
  have hd : exCfg.digest = exDigest := rfl
  rw [hd] at h
  unfold exDigest at h
  rw [if_pos rfl] at h
  by_cases hy : y = exBytes
  · exact hy
  · rw [if_neg hy] at h
    exact absurd h (by decide)

theorem ex_make : ∃ i0 m' g, newWrite Sync.exHd.flags 1 2000 4000 = .ok i0 ∧ exec Make.exEnv 0 Store.emptyFS (make exCfg exChunker (Make.exMaker i0) [exBytes]) = (.ok m', g) := by
  have hn : ∃ f, Flags.normalize Sync.exHd.flags = .ok f := ⟨_, rfl⟩
  obtain ⟨f, hn⟩ := hn
  have hi : ∃ i0, newWrite Sync.exHd.flags 1 2000 4000 = .ok i0 :=
    ⟨_, Index.newWrite_eq_ok.2 ⟨f, hn, by decide, by decide, by decide, by decide, by decide, by decide, rfl⟩⟩
  obtain ⟨i0, hi⟩ := hi
  have hf : Chunker.Spec.Fresh exChunker := by decide +kernel
  have hx := ex_chunks
  generalize hb : exBytes = b at hx
  have hM : ChunkFile.MAX = 128 * 1024 * 1024 := rfl
  obtain ⟨m', g, h⟩ := Make.C38_make_succeeds exCfg exChunker hf (Make.exMaker i0) [b] Sync.exHd.flags f 1 2000 4000 i0 hi rfl hn
    (by decide) (by decide) (by decide) (by decide) (by rw [hx.1]; intro x hx'; rw [List.mem_singleton.1 hx']; omega) (by simp only [List.flatten_cons, List.flatten_nil, List.append_nil]; omega)
    (by
      rw [hx.1]
      exact { len := by intro x _; show (exDigest x).length = 32; unfold exDigest; split <;> rfl
              inj := by intro x h1 y h2 _; rw [List.mem_singleton.1 h1, List.mem_singleton.1 h2]
              tmp := fun n => ⟨(by simp [exCfg]), (by simp [exCfg, ChunkFile.cacnk])⟩
              codec := fun s _ => Store.plainCodec_ok _
              small := by
                intro x hx'
                rw [List.mem_singleton.1 hx']
                refine ⟨by omega, fun s _ => ?_⟩
                show (0 :: b).length < _
                rw [List.length_cons]; omega }) (by
      intro r hr r' hr'
      have h1 : r = [47, 115, 47] := by simpa [roots, Make.exMaker, Store.exStore] using hr
      have h2 : r' = [47, 115, 47] := by simpa [roots, Make.exMaker, Store.exStore] using hr'
      exact .inl (h1.trans h2.symm))
    (Make.exOk i0) Store.emptyFS (by
      rw [hx.1]
      exact { wf := fun _ _ h => (by cases h), intact := fun _ _ _ _ => .inl (by rintro (h | h) <;> exact h rfl), free := fun _ _ _ _ _ => rfl }) Make.exEnv (fun _ => rfl)
  exact ⟨i0, m', g, hi, h⟩

/-- The hypotheses of `C51_nothing_else` and `C51_round_trip` are met for a tree with two files, a directory and a symbolic link. -/
example : ∃ i0 mk' g i, newWrite Sync.exHd.flags 1 2000 4000 = .ok i0 ∧ exec Make.exEnv 0 Store.emptyFS (make exCfg exChunker (Make.exMaker i0) [exBytes]) = (.ok mk', g) ∧ mk'.index = some i := by
  obtain ⟨i0, m', g, h1, h2⟩ := ex_make
  have hb : [exBytes].flatten = exBytes := by rw [List.flatten_cons, List.flatten_nil, List.append_nil]
  obtain ⟨i, h3, _⟩ := C51_nothing_else Resume.sortItems_sorts Archive.exFf (by decide) Archive.exTree Archive.exStorable rfl (by decide) (fun _ => none) (fun _ n hn => by cases hn) [exBytes] .finished
    (by rw [hb]; exact Archive.C25_session_exists Resume.sortItems_sorts _ rfl (by decide) _ (fun _ n hn => by cases hn)) (by rw [hb]; have := ex_chunks.2; omega)
    exCfg exChunker (by decide +kernel) (Make.exMaker i0) Sync.exHd.flags 1 2000 4000 i0 h1 rfl (by intro x _; show (exDigest x).length = 32; unfold exDigest; split <;> rfl)
    ex_inj Store.emptyFS Make.exEnv m' g h2
  exact ⟨i0, m', g, i, h1, h2, h3⟩

end Casync.EndToEnd
