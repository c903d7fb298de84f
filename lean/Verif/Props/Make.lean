import Verif.Spec.Make
import Verif.Lemmas.Exist
import Verif.Props.SyncPrefetch
import Verif.Props.Chunker
import Verif.Props.Index
/-!
C38: making an index and extracting it.
-/
namespace Casync.Make
open Casync Os ChunkFile Store

variable {c : Cfg} {rs xs : List Bytes}

theorem kept_present {cd : Codec} {fs : FS} {root id x : Bytes} (h : Kept cd fs root id x) : Present fs root id := by
  obtain ⟨fc, b, h, _⟩ := h
  obtain ⟨i, hi, _⟩ := content_some h.file
  unfold sufOf at hi
  unfold Present
  split at hi
  · exact Or.inl (by rw [hi]; simp)
  · exact Or.inr (by rw [hi]; simp)

/-- The files of one id are the same on two disks. -/
def Same (fs g : FS) (root id : Bytes) : Prop :=
  ∀ suf, g.names (ChunkId.formatPath root id suf) = fs.names (ChunkId.formatPath root id suf) ∧
    content g (ChunkId.formatPath root id suf) = content fs (ChunkId.formatPath root id suf)

theorem Same.kept {cd : Codec} {fs g : FS} {root id x : Bytes} (h : Same fs g root id) (hk : Kept cd fs root id x) : Kept cd g root id x := by
  obtain ⟨fc, b, hh, h1, h2⟩ := hk
  exact ⟨fc, b, ⟨hh.ne, (h _).2.trans hh.file, (h _).1.trans hh.other, hh.repr⟩, h1, h2⟩

theorem Same.present {fs g : FS} {root id : Bytes} (h : Same fs g root id) : Present g root id ↔ Present fs root id := by
  unfold Present
  rw [(h cacnk).1, (h []).1]

/-- One put. -/
theorem put_post (hap : ∀ r ∈ rs, ∀ r' ∈ rs, r = r' ∨ Apart r r') (hlen : ∀ x ∈ xs, (c.digest x).length = 32)
    (hinj : ∀ x ∈ xs, ∀ y ∈ xs, c.digest x = c.digest y → x = y) (htmp : ∀ n, c.tmp n ≠ [] ∧ c.tmp n ≠ cacnk)
    {s : Store.Store} (hcd : CodecOk c.cd s.compressionType) (hs : s.root.getD c.fresh ∈ rs) {x : Bytes} (hx : x ∈ xs) (hx1 : 1 ≤ x.length)
    (hsz : x.length < MAX ∧ (c.cd.enc s.compressionType x).length < MAX) (n : Nat) (fs : FS) (hr : Ready c rs xs fs) :
    post (fun _ => True) (Store.put c.cd s c.fresh (c.digest x) .uncompressed (c.tmp n) x) (fun r g =>
      (r.1 = .ok () ∨ r.1 = .err .EEXIST) → Ready c rs xs g ∧ Kept c.cd g (s.root.getD c.fresh) (c.digest x) x ∧
        (∀ r ∈ rs, ∀ y ∈ xs, Kept c.cd fs r (c.digest y) y → Kept c.cd g r (c.digest y) y)) fs := by
  refine post_of_exec _ _ ?_ ⟨⟨none, 0⟩, True.intro⟩
  intro env _
  let pc : PutCall := ⟨s, c.fresh, c.digest x, .uncompressed, c.tmp n, x, env⟩
  have hv : pc.Valid := ⟨hlen x hx, (htmp n).1, (htmp n).2⟩
  have heff : pc.eff ≠ .asIs := by simp [pc]
  show (pc.run c.cd fs).1.1 = .ok () ∨ (pc.run c.cd fs).1.1 = .err .EEXIST → Ready c rs xs (pc.run c.cd fs).2 ∧
    Kept c.cd (pc.run c.cd fs).2 pc.root (c.digest x) x ∧ _
  obtain ⟨hwf, hfr, hok⟩ := put_spec c.cd pc hv fs hr.wf heff
  -- files of other ids, and files in other stores
  have hsame : ∀ r ∈ rs, ∀ y ∈ xs, y ≠ x ∨ r ≠ pc.root → Same fs (pc.run c.cd fs).2 r (c.digest y) := by
    intro r h y hy hne suf
    by_cases hroot : r = pc.root
    · subst hroot
      have hy' : y ≠ x := hne.elim id (fun h => absurd rfl h)
      exact C14_others_untouched c.cd pc hv fs hr.wf heff _ suf (hlen y hy) (fun h => hy' (hinj y hy x hx h))
    · have ha : Apart r pc.root := (hap r h pc.root hs).elim (fun h => absurd h hroot) id
      have hp := fun suf' => ha (c.digest y) (c.digest x) suf suf' (hlen y hy) (hlen x hx)
      exact hfr _ (hp []).2.1 (hp _).1 (hp _).1 (hp []).2.2
  have fin : ∀ (g : FS), WF g → (∀ r ∈ rs, ∀ y ∈ xs, y ≠ x ∨ r ≠ pc.root → Same fs g r (c.digest y)) → Kept c.cd g pc.root (c.digest x) x →
      (∀ k, g.names (ChunkId.formatPath pc.root (c.digest x) (c.tmp k)) = none) →
      Ready c rs xs g ∧ Kept c.cd g pc.root (c.digest x) x ∧
        (∀ r ∈ rs, ∀ y ∈ xs, Kept c.cd fs r (c.digest y) y → Kept c.cd g r (c.digest y) y) := by
    intro g hg hsm hk hf
    have all : ∀ r ∈ rs, ∀ y ∈ xs, (y = x ∧ r = pc.root) ∨ Same fs g r (c.digest y) := by
      intro r h y hy
      by_cases h1 : y = x
      · by_cases h2 : r = pc.root
        · exact .inl ⟨h1, h2⟩
        · exact .inr (hsm r h y hy (.inr h2))
      · exact .inr (hsm r h y hy (.inl h1))
    refine ⟨⟨hg, ?_, ?_⟩, hk, ?_⟩
    · intro r h y hy
      rcases all r h y hy with ⟨rfl, rfl⟩ | hsm
      · exact .inr hk
      · rcases hr.intact r h y hy with h1 | h1
        · exact .inl (fun h2 => h1 (hsm.present.1 h2))
        · exact .inr (hsm.kept h1)
    · intro r h y hy k
      rcases all r h y hy with ⟨rfl, rfl⟩ | hsm
      · exact hf k
      · rw [(hsm _).1]; exact hr.free r h y hy k
    · intro r h y hy hky
      rcases all r h y hy with ⟨rfl, rfl⟩ | hsm
      · exact hk
      · exact hsm.kept hky
  intro hres
  rcases hres with hres | hres
  · obtain ⟨b, hb, hb'⟩ := put_holds c.cd pc hv fs hr.wf x rfl (fun _ _ => hcd) hres
    have hne : x ≠ [] := by intro h; subst h; simp at hx1
    have hbl : 1 ≤ b.length ∧ b.length < MAX := by
      rcases hb' with rfl | rfl | rfl
      · exact ⟨hx1, hsz.1⟩
      · exact ⟨hx1, hsz.1⟩
      · exact ⟨List.length_pos_iff.2 (hcd.pos x hne), hsz.2⟩
    refine fin _ hwf hsame ⟨_, b, hb, hbl⟩ ?_
    intro k
    by_cases hk : c.tmp k = c.tmp n
    · rw [hk]; exact (hok hres).2.1
    · have e : ∀ suf', suf' ≠ c.tmp k → ChunkId.formatPath pc.root (c.digest x) (c.tmp k) ≠ ChunkId.formatPath pc.root (c.digest x) suf' := by
        intro suf' h1 h2
        exact h1 (formatPath_suffix _ _ _ _ _ (hlen x hx) (hlen x hx) h2).1.symm
      rw [(hfr _ (path_ne_root _ _ _ (hlen x hx)) (e _ (fun h => hk h.symm)) ?_ (formatPath_ne_dirOf _ _ _ _ (hlen x hx) (hlen x hx))).1]
      · exact hr.free _ hs x hx k
      · apply e
        split
        · exact fun h => (htmp k).2 h.symm
        · exact fun h => (htmp k).1 h.symm
  · have hpres := put_eexist c.cd pc hv fs rfl (hr.free _ hs x hx n) hres
    have hkept : Kept c.cd fs pc.root (c.digest x) x := (hr.intact _ hs x hx).elim (fun h => absurd hpres h) id
    have hmk : Mk pc.root fs (pc.run c.cd fs).2 := (C14_no_overwrite c.cd pc hv fs hpres).2
    have hsm : Same fs (pc.run c.cd fs).2 pc.root (c.digest x) := fun suf => hmk.names _ (path_ne_root _ _ _ (hlen x hx))
    refine fin _ hwf hsame (hsm.kept hkept) ?_
    intro k
    rw [(hsm _).1]; exact hr.free _ hs x hx k

/-- The store after a put. -/
theorem put_keeps (cd : Codec) (s : Store.Store) (fresh id : Bytes) (eff : Compression) (tmp data : Bytes) (fs : FS) :
    post (fun _ => True) (Store.put cd s fresh id eff tmp data) (fun r _ => r.2.compressionType = s.compressionType ∧
      r.2.root.getD fresh = s.root.getD fresh) fs := by
  have save : ∀ (g : FS) (s' : Store.Store), s'.compressionType = s.compressionType → s'.root = some (s.root.getD fresh) →
      post (fun _ => True) (Prog.bind (fileSave cd (s.root.getD fresh) id eff s'.compression s'.compressionType tmp data) fun r => .ret (r, s'))
        (fun r _ => r.2.compressionType = s.compressionType ∧ r.2.root.getD fresh = s.root.getD fresh) g := by
    intro g s' h1 h2
    apply post_bind
    exact post_any (Q := fun _ => s'.compressionType = s.compressionType ∧ s'.root.getD fresh = s.root.getD fresh) _ g
      (fun _ => ⟨h1, by rw [h2]; rfl⟩)
  unfold Store.put
  split
  · exact ⟨rfl, rfl⟩
  · simp only
    split
    · exact save fs { s with root := some (s.root.getD fresh) } rfl rfl
    · intro ch _
      rcases sem_mkdir fs (s.root.getD fresh) ch with ⟨e, _, h⟩ | ⟨_, _, h⟩ | ⟨_, _, h⟩
      · rw [h]
        simp only
        rw [if_pos (injected_ne e).2]
        exact ⟨rfl, rfl⟩
      · rw [h]; exact save _ { s with root := some (s.root.getD fresh), mkdirDone := true } rfl rfl
      · rw [h]; exact save _ { s with root := some (s.root.getD fresh), mkdirDone := true } rfl rfl

/-- The two stores keep their directory and compression. -/
def Alike (c : Cfg) (s s' : Option Store.Store) : Prop :=
  s'.map (fun s => (s.root.getD c.fresh, s.compressionType)) = s.map (fun s => (s.root.getD c.fresh, s.compressionType))

theorem putChunk_post (hap : ∀ r ∈ rs, ∀ r' ∈ rs, r = r' ∨ Apart r r') (hlen : ∀ x ∈ xs, (c.digest x).length = 32)
    (hinj : ∀ x ∈ xs, ∀ y ∈ xs, c.digest x = c.digest y → x = y) (htmp : ∀ n, c.tmp n ≠ [] ∧ c.tmp n ≠ cacnk)
    {s : Option Store.Store} {x : Bytes} (hx : x ∈ xs) (hx1 : 1 ≤ x.length) (hxm : x.length < MAX)
    (hs : ∀ s' ∈ s, s'.root.getD c.fresh ∈ rs ∧ CodecOk c.cd s'.compressionType ∧ (c.cd.enc s'.compressionType x).length < MAX)
    (n : Nat) (fs : FS) (hr : Ready c rs xs fs) :
    post (fun _ => True) (putChunk c s n (c.digest x) x) (fun r g => r.1 = .ok () →
      Ready c rs xs g ∧ (∀ s' ∈ s, Kept c.cd g (s'.root.getD c.fresh) (c.digest x) x) ∧
        (∀ r ∈ rs, ∀ y ∈ xs, Kept c.cd fs r (c.digest y) y → Kept c.cd g r (c.digest y) y) ∧ Alike c s r.2) fs := by
  unfold putChunk
  cases s with
  | none => exact fun _ => ⟨hr, fun _ h => (by cases h), fun _ _ _ _ h => h, rfl⟩
  | some s =>
    obtain ⟨h1, h2, h3⟩ := hs s rfl
    apply post_bind
    refine post_mono _ _ ?_ (post_and _ _ (put_post hap hlen hinj htmp h2 h1 hx hx1 ⟨hxm, h3⟩ n fs hr) (put_keeps c.cd s c.fresh (c.digest x) .uncompressed (c.tmp n) x fs))
    rintro r g ⟨a, b⟩ hok
    simp only at hok
    have hres : r.1 = .ok () ∨ r.1 = .err .EEXIST := by
      by_cases he : r.1 = .err .EEXIST
      · exact .inr he
      · rw [if_neg he] at hok; exact .inl hok
    obtain ⟨a1, a2, a3⟩ := a hres
    refine ⟨a1, ?_, a3, ?_⟩
    · intro s' hs'; cases hs'; exact a2
    · unfold Alike; simp [b.1, b.2]

/-- What the maker still has to do with the stores. -/
structure Suits (c : Cfg) (m : Maker) (rs xs : List Bytes) : Prop where
  roots : ∀ s ∈ m.wstore.toList ++ m.cacheStore.toList, s.root.getD c.fresh ∈ rs
  codec : ∀ s ∈ m.wstore.toList ++ m.cacheStore.toList, CodecOk c.cd s.compressionType
  small : ∀ x ∈ xs, x.length < MAX ∧ ∀ s ∈ m.wstore.toList ++ m.cacheStore.toList, (c.cd.enc s.compressionType x).length < MAX

theorem Alike.mem {s s' : Option Store.Store} (h : Alike c s s') : ∀ a ∈ s'.toList, ∃ b ∈ s.toList, b.root.getD c.fresh = a.root.getD c.fresh ∧ b.compressionType = a.compressionType := by
  intro a ha
  cases s' with
  | none => cases ha
  | some s' =>
    simp only [Option.toList_some, List.mem_singleton] at ha
    subst ha
    cases s with
    | none => cases h
    | some s =>
      simp only [Alike, Option.map_some, Option.some.injEq, Prod.mk.injEq] at h
      exact ⟨s, by simp, h.1.symm, h.2.symm⟩

theorem Suits.alike {m m' : Maker} (h : Suits c m rs xs) (h1 : Alike c m.wstore m'.wstore) (h2 : Alike c m.cacheStore m'.cacheStore) : Suits c m' rs xs := by
  have key : ∀ a ∈ m'.wstore.toList ++ m'.cacheStore.toList, ∃ b ∈ m.wstore.toList ++ m.cacheStore.toList,
      b.root.getD c.fresh = a.root.getD c.fresh ∧ b.compressionType = a.compressionType := by
    intro a ha
    rcases List.mem_append.1 ha with ha | ha
    · obtain ⟨b, hb, h⟩ := h1.mem a ha; exact ⟨b, List.mem_append.2 (.inl hb), h⟩
    · obtain ⟨b, hb, h⟩ := h2.mem a ha; exact ⟨b, List.mem_append.2 (.inr hb), h⟩
  refine ⟨?_, ?_, ?_⟩
  · intro a ha; obtain ⟨b, hb, h1, _⟩ := key a ha; rw [← h1]; exact h.roots b hb
  · intro a ha; obtain ⟨b, hb, _, h2⟩ := key a ha; rw [← h2]; exact h.codec b hb
  · intro x hx
    refine ⟨(h.small x hx).1, ?_⟩
    intro a ha; obtain ⟨b, hb, _, h2⟩ := key a ha; rw [← h2]; exact (h.small x hx).2 b hb

theorem writeOne_post (hap : ∀ r ∈ rs, ∀ r' ∈ rs, r = r' ∨ Apart r r') (hlen : ∀ x ∈ xs, (c.digest x).length = 32)
    (hinj : ∀ x ∈ xs, ∀ y ∈ xs, c.digest x = c.digest y → x = y) (htmp : ∀ n, c.tmp n ≠ [] ∧ c.tmp n ≠ cacnk)
    {m : Maker} (hs : Suits c m rs xs) {x : Bytes} (hx : x ∈ xs) (hx1 : 1 ≤ x.length) (fs : FS) (hr : Ready c rs xs fs) :
    post (fun _ => True) (writeOne c m x) (fun r g => ∀ m', r = .ok m' →
      Ready c rs xs g ∧ (∀ r ∈ roots c m, Kept c.cd g r (c.digest x) x) ∧
        (∀ r ∈ rs, ∀ y ∈ xs, Kept c.cd fs r (c.digest y) y → Kept c.cd g r (c.digest y) y) ∧
        Alike c m.wstore m'.wstore ∧ Alike c m.cacheStore m'.cacheStore ∧ record m.index (c.digest x) x.length = .ok m'.index) fs := by
  have hsub : ∀ s, (s = m.wstore ∨ s = m.cacheStore) → ∀ s' ∈ s, s'.root.getD c.fresh ∈ rs ∧ CodecOk c.cd s'.compressionType ∧ (c.cd.enc s'.compressionType x).length < MAX := by
    intro s h s' h'
    have : s' ∈ m.wstore.toList ++ m.cacheStore.toList := by
      rcases h with rfl | rfl
      · exact List.mem_append.2 (.inl (by simpa using h'))
      · exact List.mem_append.2 (.inr (by simpa using h'))
    exact ⟨hs.roots _ this, hs.codec _ this, (hs.small x hx).2 _ this⟩
  unfold writeOne
  simp only
  apply post_bind
  refine post_mono _ _ ?_ (putChunk_post hap hlen hinj htmp hx hx1 (hs.small x hx).1 (hsub _ (.inl rfl)) (2 * m.count) fs hr)
  rintro ⟨r, w⟩ g h1
  cases r with
  | err e => exact fun m' h => (by cases h)
  | ub => exact fun m' h => (by cases h)
  | ok u =>
    obtain ⟨a1, a2, a3, a4⟩ := h1 rfl
    simp only
    apply post_bind
    refine post_mono _ _ ?_ (putChunk_post hap hlen hinj htmp hx hx1 (hs.small x hx).1 (hsub _ (.inr rfl)) (2 * m.count + 1) g a1)
    rintro ⟨r', w'⟩ g' h2
    cases r' with
    | err e => exact fun m' h => (by cases h)
    | ub => exact fun m' h => (by cases h)
    | ok u' =>
      obtain ⟨b1, b2, b3, b4⟩ := h2 rfl
      simp only
      cases hi : record m.index (c.digest x) x.length with
      | err e => exact fun m' h => (by cases h)
      | ub => exact fun m' h => (by cases h)
      | ok i =>
        intro m' h
        cases h
        refine ⟨b1, ?_, fun r hr y hy h => b3 r hr y hy (a3 r hr y hy h), a4, b4, rfl⟩
        intro r hr
        unfold roots at hr
        obtain ⟨s, hsm, rfl⟩ := List.mem_map.1 hr
        rcases List.mem_append.1 hsm with h | h
        · exact b3 _ (hs.roots s hsm) x hx (a2 s (by simpa using h))
        · exact b2 s (by simpa using h)

theorem Alike.roots {m m' : Maker} (h1 : Alike c m.wstore m'.wstore) (h2 : Alike c m.cacheStore m'.cacheStore) : roots c m' = roots c m := by
  unfold Make.roots
  have key : ∀ {s s' : Option Store.Store}, Alike c s s' → s'.toList.map (fun s => s.root.getD c.fresh) = s.toList.map (fun s => s.root.getD c.fresh) := by
    intro s s' h
    cases s with
    | none => cases s' with
      | none => rfl
      | some _ => cases h
    | some s => cases s' with
      | none => cases h
      | some s' =>
        simp only [Alike, Option.map_some, Option.some.injEq, Prod.mk.injEq] at h
        simp [h.1]
  rw [List.map_append, List.map_append, key h1, key h2]

/-- The records of the chunks `ys`. -/
def records (c : Cfg) : Option Index.Index → List Bytes → Res (Option Index.Index)
  | i, [] => .ok i
  | i, x :: xs => record i (c.digest x) x.length >>= fun i => records c i xs

theorem writeList_post (hap : ∀ r ∈ rs, ∀ r' ∈ rs, r = r' ∨ Apart r r') (hlen : ∀ x ∈ xs, (c.digest x).length = 32)
    (hinj : ∀ x ∈ xs, ∀ y ∈ xs, c.digest x = c.digest y → x = y) (htmp : ∀ n, c.tmp n ≠ [] ∧ c.tmp n ≠ cacnk) :
    ∀ (ys : List Bytes) (m : Maker), Suits c m rs xs → (∀ y ∈ ys, y ∈ xs ∧ 1 ≤ y.length) → ∀ (fs : FS), Ready c rs xs fs →
    post (fun _ => True) (writeList c m ys) (fun r g => ∀ m', r = .ok m' →
      WF g ∧ (∀ r ∈ roots c m, ∀ y ∈ ys, Kept c.cd g r (c.digest y) y) ∧
        (∀ r ∈ rs, ∀ y ∈ xs, Kept c.cd fs r (c.digest y) y → Kept c.cd g r (c.digest y) y) ∧ records c m.index ys = .ok m'.index) fs := by
  intro ys
  induction ys with
  | nil =>
    intro m _ _ fs hr
    intro m' h
    cases h
    exact ⟨hr.wf, fun _ _ _ h => (by cases h), fun _ _ _ _ h => h, rfl⟩
  | cons x ys ih =>
    intro m hs hys fs hr
    obtain ⟨hx, hx1⟩ := hys x List.mem_cons_self
    rw [writeList]
    apply post_bind
    refine post_mono _ _ ?_ (writeOne_post hap hlen hinj htmp hs hx hx1 fs hr)
    rintro r g h
    cases r with
    | err e => exact fun m' h => (by cases h)
    | ub => exact fun m' h => (by cases h)
    | ok m1 =>
      obtain ⟨a1, a2, a3, a4, a5, a6⟩ := h m1 rfl
      simp only
      refine post_mono _ _ ?_ (ih m1 (hs.alike a4 a5) (fun y h => hys y (List.mem_cons_of_mem _ h)) g a1)
      intro r g' h' m' hm'
      obtain ⟨b1, b2, b3, b4⟩ := h' m' hm'
      refine ⟨b1, ?_, fun r hr y hy hk => b3 r hr y hy (a3 r hr y hy hk), ?_⟩
      · intro r hr y hy
        have hrr : r ∈ rs := by
          obtain ⟨s, hs', rfl⟩ := List.mem_map.1 hr
          exact hs.roots s hs'
        rcases List.mem_cons.1 hy with rfl | hy
        · exact b3 r hrr y hx (a2 r hr)
        · exact b2 r (by rw [a4.roots a5]; exact hr) y hy
      · rw [records, a6]; exact b4

theorem records_some (c : Cfg) : ∀ (ys : List Bytes) (i : Index.Index) {o : Option Index.Index}, records c (some i) ys = .ok o →
    ∃ j, o = some j ∧ Index.writeChunks i (Sync.chunksOf c.digest ys) = .ok j := by
  intro ys
  induction ys with
  | nil => intro i o h; cases h; exact ⟨i, rfl, rfl⟩
  | cons x ys ih =>
    intro i o h
    rw [records] at h
    obtain ⟨o1, h1, h2⟩ := Res.bind_eq_ok.1 h
    obtain ⟨i1, h3, h4⟩ := Res.bind_eq_ok.1 h1
    cases h4
    obtain ⟨j, hj, hw⟩ := ih i1 h2
    refine ⟨j, hj, ?_⟩
    show (Index.writeChunk i (c.digest x) x.length >>= fun i => Index.writeChunks i (Sync.chunksOf c.digest ys)) = _
    rw [h3]; exact hw

theorem writeList_records (c : Cfg) : ∀ (ys : List Bytes) (m : Maker) (fs : FS),
    post (fun _ => True) (writeList c m ys) (fun r _ => ∀ m', r = .ok m' → records c m.index ys = .ok m'.index) fs := by
  intro ys
  induction ys with
  | nil => intro m fs m' h; cases h; rfl
  | cons x ys ih =>
    intro m fs
    rw [writeList]
    apply post_bind
    have h1 : post (fun _ => True) (writeOne c m x) (fun r _ => ∀ m', r = .ok m' → record m.index (c.digest x) x.length = .ok m'.index) fs := by
      unfold writeOne
      simp only
      apply post_bind
      refine post_mono _ _ (Q := fun _ _ => True) (fun r g _ => ?_) (post_any (Q := fun _ => True) _ fs (fun _ => trivial))
      · obtain ⟨r, w⟩ := r
        cases r with
        | err e => exact fun m' h => (by cases h)
        | ub => exact fun m' h => (by cases h)
        | ok u =>
          simp only
          apply post_bind
          refine post_mono _ _ (Q := fun _ _ => True) (fun r g _ => ?_) (post_any (Q := fun _ => True) _ g (fun _ => trivial))
          obtain ⟨r', w'⟩ := r
          cases r' with
          | err e => exact fun m' h => (by cases h)
          | ub => exact fun m' h => (by cases h)
          | ok u =>
            simp only
            cases hi : record m.index (c.digest x) x.length with
            | err e => exact fun m' h => (by cases h)
            | ub => exact fun m' h => (by cases h)
            | ok i => exact fun m' h => (by cases h; rfl)
    refine post_mono _ _ ?_ h1
    intro r g h
    cases r with
    | err e => exact fun m' h => (by cases h)
    | ub => exact fun m' h => (by cases h)
    | ok m1 =>
      refine post_mono _ _ ?_ (ih m1 g)
      intro r g' h' m' hm'
      rw [records, h m1 rfl]
      exact h' m' hm'

end Casync.Make
