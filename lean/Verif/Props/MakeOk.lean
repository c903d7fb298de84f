import Verif.Props.MakeRead
/-!
C38: a make succeeds if nothing fails; what goes wrong if a temporary name is taken; instances.
-/
namespace Casync.Make
open Os ChunkFile Store Index.Spec
open Index (newRead newWrite writeFile)
open Sync (chunksOf Reader Op Out Src rst Sources)

variable {c : Cfg} {rs xs : List Bytes}

/-- **C38**: the answers of a store object satisfy the assumption of `C38_no_other_bytes`, if it is configured for the digest that made the ids. -/
theorem C38_store_verified (cd : Codec) (dg : Digest) (digest : Bytes → Bytes) (s : Store.Store) (hs : Reachable cd dg s)
    (hd : ∀ u id, Matches dg s.digestType id u → digest u = id) (fs : FS) (env : Nat → Choice) (id y : Bytes)
    (h : fromStore cd dg s fs env id = .ok y) : digest y = id := by
  unfold fromStore at h
  obtain ⟨⟨d, e⟩, h1, h2⟩ := Res.bind_eq_ok.1 h
  injection h2 with h2
  simp only at h2
  subst h2
  have ho := exec_outcome env (Store.get cd dg s id .uncompressed) fs 0
  generalize hx : exec env 0 fs (Store.get cd dg s id .uncompressed) = x at h1 ho
  obtain ⟨⟨r, s'⟩, g⟩ := x
  simp only at h1 ho
  subst h1
  obtain ⟨⟨u, hu, hm⟩, he, _⟩ := C13_get_verified cd dg s s' hs id .uncompressed e d ho
  have he := he (by decide)
  subst he
  have : d = u := hu
  subst this
  exact hd d id hm

/-! ### A make succeeds if nothing fails -/

/-- No failure. -/
abbrev NF : Choice → Prop := fun ch => ch.fail = none

theorem post_any_choice {α : Type} {C : Choice → Prop} (P : Prog α) {Q : α → FS → Prop} (fs : FS) (h : post (fun _ => True) P Q fs) : post C P Q fs := by
  induction P generalizing fs with
  | ret a => exact h
  | call c k ih => intro ch _; exact ih _ _ (h ch trivial)

/-- The store has a directory, or makes one up. -/
def Usable (s : Store.Store) : Prop := s.root ≠ none ∨ s.isCache = true

theorem put_usable (cd : Codec) (s : Store.Store) (hu : Usable s) (fresh id : Bytes) (eff : Compression) (tmp data : Bytes) (fs : FS) :
    post (fun _ => True) (Store.put cd s fresh id eff tmp data) (fun r _ => Usable r.2) fs := by
  have save : ∀ (g : FS) (s' : Store.Store), s'.root = some (s.root.getD fresh) →
      post (fun _ => True) (Prog.bind (fileSave cd (s.root.getD fresh) id eff s'.compression s'.compressionType tmp data) fun r => .ret (r, s'))
        (fun r _ => Usable r.2) g := by
    intro g s' h2
    apply post_bind
    exact post_any (Q := fun _ => Usable s') _ g (fun _ => .inl (by rw [h2]; simp))
  unfold Store.put
  split
  · exact hu
  · simp only
    split
    · exact save fs { s with root := some (s.root.getD fresh) } rfl
    · intro ch _
      rcases sem_mkdir fs (s.root.getD fresh) ch with ⟨e, _, h⟩ | ⟨_, _, h⟩ | ⟨_, _, h⟩
      · rw [h]
        simp only
        rw [if_pos (injected_ne e).2]
        exact .inl (by simp)
      · rw [h]; exact save _ { s with root := some (s.root.getD fresh), mkdirDone := true } rfl
      · rw [h]; exact save _ { s with root := some (s.root.getD fresh), mkdirDone := true } rfl

theorem put_ok (hlen : ∀ x ∈ xs, (c.digest x).length = 32) (htmp : ∀ n, c.tmp n ≠ [] ∧ c.tmp n ≠ cacnk)
    {s : Store.Store} (hcd : CodecOk c.cd s.compressionType) (hu : Usable s) (hs : s.root.getD c.fresh ∈ rs) {x : Bytes} (hx : x ∈ xs) (hx1 : 1 ≤ x.length)
    (hsz : x.length < MAX ∧ (c.cd.enc s.compressionType x).length < MAX) (n : Nat) (fs : FS) (hr : Ready c rs xs fs) :
    post NF (Store.put c.cd s c.fresh (c.digest x) .uncompressed (c.tmp n) x) (fun r _ => r.1 = .ok () ∨ r.1 = .err .EEXIST) fs := by
  refine post_of_exec _ _ ?_ ⟨⟨none, 0⟩, rfl⟩
  intro env he
  let pc : PutCall := ⟨s, c.fresh, c.digest x, .uncompressed, c.tmp n, x, env⟩
  have hv : pc.Valid := ⟨hlen x hx, (htmp n).1, (htmp n).2⟩
  show (pc.run c.cd fs).1.1 = .ok () ∨ (pc.run c.cd fs).1.1 = .err .EEXIST
  by_cases hp : Present fs pc.root pc.id
  · obtain ⟨⟨e, h1, h2⟩, _⟩ := C14_no_overwrite c.cd pc hv fs hp
    have := h2 he (by simp [pc]) (by intro h; have h : x = [] := h; subst h; simp at hx1) hu
    subst this
    exact .inr h1
  · refine .inl (C14_put_succeeds c.cd pc hv fs x hu rfl hcd ?_ hp (hr.free _ hs x hx n) he)
    exact ⟨hx1, hx1, hsz.1, hsz.1, fun t ht => (by rw [List.mem_singleton.1 ht]; exact hsz.2)⟩

theorem putChunk_ok (hlen : ∀ x ∈ xs, (c.digest x).length = 32) (htmp : ∀ n, c.tmp n ≠ [] ∧ c.tmp n ≠ cacnk)
    {s : Option Store.Store} {x : Bytes} (hx : x ∈ xs) (hx1 : 1 ≤ x.length) (hxm : x.length < MAX)
    (hs : ∀ s' ∈ s, s'.root.getD c.fresh ∈ rs ∧ CodecOk c.cd s'.compressionType ∧ (c.cd.enc s'.compressionType x).length < MAX) (hu : ∀ s' ∈ s, Usable s')
    (n : Nat) (fs : FS) (hr : Ready c rs xs fs) :
    post NF (putChunk c s n (c.digest x) x) (fun r _ => r.1 = .ok () ∧ ∀ s' ∈ r.2, Usable s') fs := by
  unfold putChunk
  cases s with
  | none => exact ⟨rfl, fun _ h => (by cases h)⟩
  | some s =>
    obtain ⟨h1, h2, h3⟩ := hs s rfl
    apply post_bind
    refine post_mono _ _ ?_ (post_and _ _ (put_ok hlen htmp h2 (hu s rfl) h1 hx hx1 ⟨hxm, h3⟩ n fs hr)
      (post_any_choice _ _ (put_usable c.cd s (hu s rfl) c.fresh (c.digest x) .uncompressed (c.tmp n) x fs)))
    rintro r g ⟨a, b⟩
    refine ⟨?_, fun s' hs' => (by cases hs'; exact b)⟩
    rcases a with a | a
    · rw [a]; rfl
    · rw [a]; rfl

/-- The maker's stores are usable. -/
def Ok (m : Maker) : Prop := ∀ s ∈ m.wstore.toList ++ m.cacheStore.toList, Usable s

theorem writeOne_ok (hap : ∀ r ∈ rs, ∀ r' ∈ rs, r = r' ∨ Apart r r') (hlen : ∀ x ∈ xs, (c.digest x).length = 32)
    (hinj : ∀ x ∈ xs, ∀ y ∈ xs, c.digest x = c.digest y → x = y) (htmp : ∀ n, c.tmp n ≠ [] ∧ c.tmp n ≠ cacnk)
    {m : Maker} (hs : Suits c m rs xs) (hu : Ok m) {x : Bytes} (hx : x ∈ xs) (hx1 : 1 ≤ x.length) (fs : FS) (hr : Ready c rs xs fs)
    {i : Option Index.Index} (hi : record m.index (c.digest x) x.length = .ok i) :
    post NF (writeOne c m x) (fun r _ => ∃ m', r = .ok m' ∧ Ok m') fs := by
  have hmem : ∀ s, (s = m.wstore ∨ s = m.cacheStore) → ∀ s' ∈ s, s' ∈ m.wstore.toList ++ m.cacheStore.toList := by
    intro s h s' h'
    rcases h with rfl | rfl
    · exact List.mem_append.2 (.inl (by simpa using h'))
    · exact List.mem_append.2 (.inr (by simpa using h'))
  have hsub : ∀ s, (s = m.wstore ∨ s = m.cacheStore) → ∀ s' ∈ s, s'.root.getD c.fresh ∈ rs ∧ CodecOk c.cd s'.compressionType ∧ (c.cd.enc s'.compressionType x).length < MAX := by
    intro s h s' h'
    have := hmem s h s' h'
    exact ⟨hs.roots _ this, hs.codec _ this, (hs.small x hx).2 _ this⟩
  unfold writeOne
  simp only
  apply post_bind
  refine post_mono _ _ ?_ (post_and _ _ (putChunk_ok hlen htmp hx hx1 (hs.small x hx).1 (hsub _ (.inl rfl)) (fun s h => hu s (hmem _ (.inl rfl) s h)) (2 * m.count) fs hr)
    (post_any_choice _ _ (putChunk_post hap hlen hinj htmp hx hx1 (hs.small x hx).1 (hsub _ (.inl rfl)) (2 * m.count) fs hr)))
  rintro ⟨r, w⟩ g ⟨⟨h1, hu1⟩, h2⟩
  simp only at h1
  subst h1
  obtain ⟨a1, _⟩ := h2 rfl
  simp only
  apply post_bind
  refine post_mono _ _ ?_ (putChunk_ok hlen htmp hx hx1 (hs.small x hx).1 (hsub _ (.inr rfl)) (fun s h => hu s (hmem _ (.inr rfl) s h)) (2 * m.count + 1) g a1)
  rintro ⟨r', w'⟩ g' ⟨h3, hu2⟩
  simp only at h3
  subst h3
  simp only
  rw [hi]
  refine ⟨_, rfl, ?_⟩
  intro s hs'
  rcases List.mem_append.1 hs' with h | h
  · exact hu1 s (by simpa using h)
  · exact hu2 s (by simpa using h)

theorem writeList_ok (hap : ∀ r ∈ rs, ∀ r' ∈ rs, r = r' ∨ Apart r r') (hlen : ∀ x ∈ xs, (c.digest x).length = 32)
    (hinj : ∀ x ∈ xs, ∀ y ∈ xs, c.digest x = c.digest y → x = y) (htmp : ∀ n, c.tmp n ≠ [] ∧ c.tmp n ≠ cacnk) :
    ∀ (ys : List Bytes) (m : Maker), Suits c m rs xs → Ok m → (∀ y ∈ ys, y ∈ xs ∧ 1 ≤ y.length) → (∃ o, records c m.index ys = .ok o) →
    ∀ (fs : FS), Ready c rs xs fs → post NF (writeList c m ys) (fun r _ => ∃ m', r = .ok m') fs := by
  intro ys
  induction ys with
  | nil => intro m _ _ _ _ fs _; exact ⟨_, rfl⟩
  | cons x ys ih =>
    intro m hs hu hys ho fs hr
    obtain ⟨hx, hx1⟩ := hys x List.mem_cons_self
    obtain ⟨o, ho⟩ := ho
    rw [records] at ho
    obtain ⟨i, hi, ho⟩ := Res.bind_eq_ok.1 ho
    rw [writeList]
    apply post_bind
    refine post_mono _ _ ?_ (post_and _ _ (writeOne_ok hap hlen hinj htmp hs hu hx hx1 fs hr hi)
      (post_any_choice _ _ (writeOne_post hap hlen hinj htmp hs hx hx1 fs hr)))
    rintro r g ⟨⟨m1, rfl, hu1⟩, h⟩
    obtain ⟨a1, _, _, a4, a5, a6⟩ := h m1 rfl
    refine ih m1 (hs.alike a4 a5) hu1 (fun y h => hys y (List.mem_cons_of_mem _ h)) ?_ g a1
    rw [hi] at a6
    injection a6 with a6
    exact ⟨o, by rw [← a6]; exact ho⟩

theorem records_ok (c : Cfg) : ∀ (ys : List Bytes) (i j : Index.Index), Index.writeChunks i (chunksOf c.digest ys) = .ok j → records c (some i) ys = .ok (some j) := by
  intro ys
  induction ys with
  | nil => intro i j h; cases h; rfl
  | cons x ys ih =>
    intro i j h
    have h : (Index.writeChunk i (c.digest x) x.length >>= fun i => Index.writeChunks i (chunksOf c.digest ys)) = .ok j := h
    obtain ⟨i1, h1, h2⟩ := Res.bind_eq_ok.1 h
    rw [records]
    show ((Index.writeChunk i (c.digest x) x.length >>= fun i => .ok (some i)) >>= fun i => records c i ys) = _
    rw [h1]
    exact ih i1 j h2

/-- **C38** (a make succeeds). If no system call fails, the stores have a directory, the sizes are below the limits, the disk is as `C38_round_trip` assumes, and
the stream is not too long and its chunks fit the sizes in the index header, the make succeeds. -/
theorem C38_make_succeeds (c : Cfg) (ch : Chunker.Chunker) (hch : Chunker.Spec.Fresh ch) (m : Maker) (blocks : List Bytes)
    (flags f : Flags.Word) (cmin cavg cmax : Nat) (i0 : Index.Index) (hi : newWrite flags cmin cavg cmax = .ok i0) (hm : m.index = some i0)
    (hn : Flags.normalize flags = .ok f) (h1 : 1 ≤ cmin) (h2 : cmin ≤ cavg) (h3 : cavg ≤ cmax) (h4 : cmax ≤ 128 * 1024 * 1024)
    (hsz : ∀ x ∈ chunks ch blocks, x.length ≤ cmax) (htot : blocks.flatten.length < 2 ^ 64)
    (hfit : Fits c m (chunks ch blocks)) (hap : ∀ r ∈ roots c m, ∀ r' ∈ roots c m, r = r' ∨ Apart r r') (hu : Ok m)
    (fs : FS) (hr : Ready c (roots c m) (chunks ch blocks) fs) (env : Nat → Choice) (hnf : NoFaults env) :
    ∃ m' g, exec env 0 fs (make c ch m blocks) = (.ok m', g) := by
  obtain ⟨w, hw, hfl, hne⟩ := Chunker.C02_lossless ch hch blocks
  have hw : Chunker.writeAll { chunker := ch, buffer := [], out := [] } blocks = .ok w := hw
  have hck : chunks ch blocks = Chunker.writeFinal w := by unfold chunks; rw [hw]
  generalize hxs : chunks ch blocks = xs at *
  rw [← hck] at hfl hne
  have htot' : total (chunksOf c.digest xs) < 2 ^ 64 := by rw [Sync.total_chunksOf, hfl]; exact htot
  obtain ⟨i, hwf, _⟩ := Index.writeFile_ok (cs := chunksOf c.digest xs) hn h1 h2 h3 h4 (by
    intro x hx
    obtain ⟨y, hy, rfl⟩ := List.mem_map.1 hx
    exact ⟨List.length_pos_iff.2 (hne y hy), hsz y hy⟩) htot'
  unfold writeFile at hwf
  rw [hi, Res.bind_ok] at hwf
  obtain ⟨j, hj, heof⟩ := Res.bind_eq_ok.1 hwf
  have hrec := records_ok c xs i0 j hj
  have hsuit : Suits c m (roots c m) xs := ⟨fun s hs => List.mem_map.2 ⟨s, hs, rfl⟩, hfit.codec, hfit.small⟩
  have hys : ∀ y ∈ xs, y ∈ xs ∧ 1 ≤ y.length := fun y hy => ⟨hy, List.length_pos_iff.2 (hne y hy)⟩
  have p1 := writeList_ok hap hfit.len hfit.inj hfit.tmp xs m hsuit hu hys ⟨some j, by rw [hm]; exact hrec⟩ fs hr
  have p2 := writeList_records c xs m fs
  have main : post NF (make c ch m blocks) (fun r _ => ∃ m', r = .ok m') fs := by
    unfold make
    rw [if_neg (by rw [hm]; simp), hw]
    simp only
    rw [← hck]
    apply post_bind
    refine post_mono _ _ ?_ (post_and _ _ p1 (post_any_choice _ _ p2))
    rintro r g ⟨⟨m1, rfl⟩, h⟩
    have h := h m1 rfl
    rw [hm, hrec] at h
    injection h with h
    show ∃ m', finishIndex m1 = .ok m'
    unfold finishIndex
    rw [← h]
    simp only
    rw [heof]
    exact ⟨_, rfl⟩
  obtain ⟨m', h⟩ := post_exec _ fs main env hnf 0
  exact ⟨m', _, Prod.ext h rfl⟩

/-! ### Temporary names -/

/-- **C38** (finding). If the temporary name of the chunk file is taken, the put says `EEXIST`, which the caller takes for "already stored": the
chunk counts as written and is missing from the store. No failure of a system call is needed. The random part of the name makes this unlikely, but
leftovers of an interrupted run, or a second process that draws the same name, are enough. -/
theorem C38_temp_collision_violated (c : Cfg) (s : Store.Store) (root : Bytes) (hroot : s.root = some root) (n : Nat) (id x : Bytes) (hid : id.length = 32) (hx : x ≠ [])
    (fs : FS) (hdir : fs.names (dirOf root id) ≠ none) (htmp : fs.names (ChunkId.formatPath root id (c.tmp n)) ≠ none)
    (hp : ¬ Present fs root id) (env : Nat → Choice) (hn : NoFaults env) :
    (exec env 0 fs (putChunk c (some s) n id x)).1.1 = .ok () ∧ ¬ Present (exec env 0 fs (putChunk c (some s) n id x)).2 root id := by
  refine post_exec (C := NF) _ (Q := fun (r : Res Unit × Option Store.Store) g => r.1 = .ok () ∧ ¬ Present g root id) fs ?_ env hn 0
  unfold putChunk
  apply post_bind
  let pc : PutCall := ⟨s, c.fresh, id, .uncompressed, c.tmp n, x, env⟩
  have hpr : pc.root = root := by show s.root.getD c.fresh = root; rw [hroot]; rfl
  refine post_put NF c.cd pc fs _ ?_ ?_ ?_
  · intro g hg
    rw [hpr] at hg ⊢
    have hnm : ∀ suf, g.names (ChunkId.formatPath root id suf) = fs.names (ChunkId.formatPath root id suf) := fun suf => (hg.names _ (path_ne_root _ _ _ hid)).1
    have hpg : ¬ Present g root id := by unfold Present; rw [hnm, hnm]; exact hp
    have hdg : g.names (dirOf root id) ≠ none := by
      rcases hg with rfl | ⟨_, rfl⟩
      · exact hdir
      · show (if _ then _ else _) ≠ none
        split
        · simp
        · exact hdir
    show post NF (fileSave c.cd root id .uncompressed s.compression s.compressionType (c.tmp n) x) _ g
    unfold fileSave
    rw [if_neg (by decide), if_neg hx]
    apply post_bind
    apply post_fileTest
    · rw [decide_eq_false (show ¬ (_ ∨ _) from hpg)]
      simp only
      apply post_bind
      unfold fileCreate
      intro ch hc
      rcases sem_mkdir g (dirOf root id) ch with ⟨e, hf, _⟩ | ⟨_, h, _⟩ | ⟨_, _, h⟩
      · rw [hc] at hf; cases hf
      · exact absurd h hdg
      · rw [h]
        simp only
        rw [if_neg (by simp)]
        intro ch hc
        have : sem g (.creat (ChunkId.formatPath root id (c.tmp n))) ch = (.err .EEXIST, g) := by
          unfold sem; rw [hc]; simp only; rw [if_neg (by rw [hnm]; exact htmp)]
        rw [this]
        exact fun s' _ => ⟨rfl, hpg⟩
    · intro ch e h1 h2; rw [h1] at h2; cases h2
  · intro h; rw [show pc.store = s from rfl, hroot] at h; cases h
  · intro ch e s' h1 h2; rw [h1] at h2; cases h2

/-! ### Instances -/

/-- A chunker with chunks of two bytes. -/
def exChunker : Chunker.Chunker := { h := 0, wsize := 0, csize := 0, window := List.replicate 48 0, min := 2, max := 2, avg := 2, discr := 2 }
/-- A digest without collisions for the chunks of the example. -/
def exDigest32 (x : Bytes) : Bytes :=
  if x = [1, 2] then List.replicate 32 1 else if x = [3, 4] then List.replicate 32 2 else if x = [5, 1] then List.replicate 32 3
  else if x = [2] then List.replicate 32 4 else List.replicate 32 5
def exCfg : Cfg := ⟨plainCodec, exDigest32, [], fun n => [46, UInt8.ofNat n, 120]⟩
def exBlocks : List Bytes := [[1, 2, 3], [], [4, 5, 1, 2]]
def exChunks : List Bytes := [[1, 2], [3, 4], [5, 1], [2]]
theorem exChunks_eq : chunks exChunker exBlocks = exChunks := by decide +kernel
def exIndex : Res Index.Index := newWrite Sync.exHd.flags 2 2 2
def exMaker (i : Index.Index) : Maker := { wstore := some exStore, index := some i }
def exEnv : Nat → Choice := fun _ => ⟨none, BUF⟩

theorem exFits (i : Index.Index) : Fits exCfg (exMaker i) exChunks where
  len := by decide +kernel
  inj := by decide +kernel
  tmp := fun n => ⟨(by simp [exCfg]), (by simp [exCfg, cacnk])⟩
  codec := fun s _ => plainCodec_ok _
  small := by
    intro x hx
    have hM : MAX = 128 * 1024 * 1024 := rfl
    have hl : x.length ≤ 2 := by revert x; decide +kernel
    refine ⟨by omega, fun s _ => ?_⟩
    show (0 :: x).length < MAX
    rw [List.length_cons]; omega

theorem exReady (rs : List Bytes) : Ready exCfg rs exChunks emptyFS where
  wf := fun _ _ h => (by cases h)
  intact := fun _ _ _ _ => .inl (by rintro (h | h) <;> exact h rfl)
  free := fun _ _ _ _ _ => rfl

theorem exOk (i : Index.Index) : Ok (exMaker i) := by
  intro s hs
  have : s = exStore := by simpa [exMaker] using hs
  subst this
  exact .inl (by simp [exStore])

/-- The make of the example succeeds, so the hypotheses of the theorems above can be met. -/
theorem exMake : ∃ i0 m' g, newWrite Sync.exHd.flags 2 2 2 = .ok i0 ∧ exec exEnv 0 emptyFS (make exCfg exChunker (exMaker i0) exBlocks) = (.ok m', g) := by
  have hn : ∃ f, Flags.normalize Sync.exHd.flags = .ok f := ⟨_, rfl⟩
  obtain ⟨f, hn⟩ := hn
  have hi : ∃ i0, newWrite Sync.exHd.flags 2 2 2 = .ok i0 :=
    ⟨_, Index.newWrite_eq_ok.2 ⟨f, hn, by decide, by decide, by decide, by decide, by decide, by decide, rfl⟩⟩
  obtain ⟨i0, hi⟩ := hi
  have hf : Chunker.Spec.Fresh exChunker := by decide +kernel
  obtain ⟨m', g, h⟩ := C38_make_succeeds exCfg exChunker hf (exMaker i0) exBlocks Sync.exHd.flags f 2 2 2 i0 hi rfl hn
    (by decide) (by decide) (by decide) (by decide) (by rw [exChunks_eq]; decide +kernel) (by decide +kernel)
    (by rw [exChunks_eq]; exact exFits i0) (by
      intro r hr r' hr'
      have h1 : r = [47, 115, 47] := by simpa [roots, exMaker, exStore] using hr
      have h2 : r' = [47, 115, 47] := by simpa [roots, exMaker, exStore] using hr'
      exact .inl (h1.trans h2.symm))
    (exOk i0) emptyFS (by rw [exChunks_eq]; exact exReady _) exEnv (fun _ => rfl)
  exact ⟨i0, m', g, hi, h⟩

/-- Two stores under different directories are apart if no path of the first begins with the directory of the second. -/
example : Apart [47, 97, 47] [47, 98, 47] := by
  intro id id' suf suf' h h'
  refine ⟨?_, ?_, ?_⟩ <;> intro h <;> simp [ChunkId.formatPath, dirOf] at h

/-- The digest of the example has no second preimages of the chunks (`C38_no_other_bytes`). -/
example : ∀ x ∈ exChunks, ∀ y, exCfg.digest y = exCfg.digest x → y = x := by
  intro x hx y h
  simp only [exChunks, List.mem_cons, List.not_mem_nil, or_false] at hx
  have hd : exCfg.digest = exDigest32 := rfl
  rw [hd] at h
  by_cases h1 : y = [1, 2]
  · subst h1; rcases hx with rfl | rfl | rfl | rfl <;> first | rfl | (exfalso; revert h; decide +kernel)
  by_cases h2 : y = [3, 4]
  · subst h2; rcases hx with rfl | rfl | rfl | rfl <;> first | rfl | (exfalso; revert h; decide +kernel)
  by_cases h3 : y = [5, 1]
  · subst h3; rcases hx with rfl | rfl | rfl | rfl <;> first | rfl | (exfalso; revert h; decide +kernel)
  by_cases h4 : y = [2]
  · subst h4; rcases hx with rfl | rfl | rfl | rfl <;> first | rfl | (exfalso; revert h; decide +kernel)
  have : exDigest32 y = List.replicate 32 5 := by unfold exDigest32; rw [if_neg h1, if_neg h2, if_neg h3, if_neg h4]
  rw [this] at h
  exfalso
  rcases hx with rfl | rfl | rfl | rfl <;> (revert h; decide +kernel)

end Casync.Make
