import Verif.Spec.RemoteChunks
import Verif.Props.StorePut
import Verif.Props.Remote
/-!
C34: chunks from a peer.
-/
namespace Casync.Remote.Props
open Casync Casync.Remote Casync.Remote.Spec Os ChunkFile Store

/-- The validation state as that of a store. -/
def V.store (v : V) (root : Bytes) : Store := ⟨some root, false, true, v.digestType, v.cur, .asIs, v.compressionType⟩

theorem checkDigest_verify (dg : Digest) (v : V) (root id u : Bytes) :
    (checkDigest dg v id u).1 = (verify dg (V.store v root) id u).1 ∧
    V.store (checkDigest dg v id u).2 root = (verify dg (V.store v root) id u).2 := by
  unfold checkDigest verify
  simp only [V.store]
  by_cases h1 : ChunkId.equal id (dg (v.cur.getD (v.digestType.getD digestDefault)) u) = true
  · constructor <;> simp [h1]
  · skip
    by_cases h2 : v.digestType.isSome = true
    · constructor <;> simp [h1, h2]
    · constructor <;> simp [h1, h2]

theorem checkChunk_digest (cd : Codec) (dg : Digest) (v : V) (id : Bytes) (eff : Compression) (d : Bytes) :
    (checkChunk cd dg v id eff d).2 = v ∨ ∃ u, (checkChunk cd dg v id eff d).2 = (checkDigest dg v id u).2 := by
  unfold checkChunk
  split; · exact .inl rfl
  split; · exact .inl rfl
  split; · exact .inl rfl
  split
  · exact .inl rfl
  · exact .inl rfl
  · rename_i u _
    simp only
    split <;> exact .inr ⟨u, rfl⟩

theorem good_check (cd : Codec) (dg : Digest) (v : V) (id : Bytes) (eff : Compression) (d : Bytes) (h : Store.Good (V.store v [])) :
    Store.Good (V.store (checkChunk cd dg v id eff d).2 []) ∧ (checkChunk cd dg v id eff d).2.digestType = v.digestType := by
  rcases checkChunk_digest cd dg v id eff d with h1 | ⟨u, h1⟩
  · rw [h1]; exact ⟨h, rfl⟩
  · rw [h1]
    have h2 := (checkDigest_verify dg v [] id u).2
    have h3 := verify_good dg (V.store v []) id u h
    rw [h2]
    refine ⟨h3.1, ?_⟩
    have := congrArg Store.digestType h2
    rw [show (V.store (checkDigest dg v id u).2 []).digestType = (checkDigest dg v id u).2.digestType from rfl] at this
    rw [this]; exact h3.2

theorem vreach_good {cd : Codec} {dg : Digest} {v : V} (h : VReach cd dg v) : Store.Good (V.store v []) := by
  induction h with
  | new => exact ⟨(fun t ht => nomatch ht), (fun t ht => nomatch ht)⟩
  | @setDigestType v v' t _ he ih =>
    cases t with
    | none =>
      injection he with he; subst he
      exact ⟨(fun t ht => nomatch ht), ih.2⟩
    | some t =>
      unfold V.setDigestType at he
      simp only at he
      split at he
      · cases he
      · rename_i ht
        injection he with he; subst he
        have ht : t < 2 := by simp [digestTypes] at ht; omega
        refine ⟨fun t' ht' => ?_, fun t' ht' => ?_⟩
        · injection ht' with ht'; subst ht'
          refine ⟨ht, ?_⟩
          show (if v.cur.isSome then some t else none) = none ∨ (if v.cur.isSome then some t else none) = some t
          split
          · exact .inr rfl
          · exact .inl rfl
        · have ht' : (if v.cur.isSome then some t else none) = some t' := ht'
          split at ht'
          · injection ht' with ht'; omega
          · cases ht'
  | setCompressionType t _ ih => exact ih
  | @request root r v id high des res r' v' _ ho ih =>
    unfold Remote.request at ho
    split at ho
    · injection ho with _ h2; injection h2 with _ h2; subst h2; exact ih
    split at ho
    · injection ho with _ h2; injection h2 with _ h2; subst h2; exact ih
    obtain ⟨a, _, h2⟩ := outcome_bind _ _ _ ho
    split at h2
    · injection h2 with _ h2; injection h2 with _ h2; subst h2; exact ih
    · injection h2 with _ h2; injection h2 with _ h2; subst h2; exact ih
    · injection h2 with _ h2; injection h2 with _ h2; subst h2; exact ih
    · injection h2 with _ h2; injection h2 with _ h2; subst h2; exact ih
    · injection h2 with _ h2; injection h2 with _ h2; subst h2
      exact (good_check cd dg v id _ _ ih).1
  | @nextChunk root r v des res v' _ ho ih =>
    unfold Remote.nextChunk at ho
    split at ho
    · injection ho with _ h2; subst h2; exact ih
    split at ho
    · injection ho with _ h2; subst h2; exact ih
    split at ho
    · injection ho with _ h2; subst h2; exact ih
    obtain ⟨a, _, h2⟩ := outcome_bind _ _ _ ho
    split at h2
    · injection h2 with _ h2; subst h2; exact ih
    · injection h2 with _ h2; subst h2; exact ih
    · injection h2 with _ h2; subst h2
      exact (good_check cd dg v _ _ _ ih).1

theorem check_ok {cd : Codec} {dg : Digest} {v : V} {id : Bytes} {eff : Compression} {d : Bytes} (hg : Store.Good (V.store v []))
    (h : (checkChunk cd dg v id eff d).1 = .ok ()) : ∃ u, Represents cd eff d u ∧ Matches dg v.digestType id u := by
  unfold checkChunk at h
  split at h; · cases h
  rename_i hne
  split at h; · cases h
  split at h; · cases h
  split at h
  · cases h
  · cases h
  · rename_i u hu
    simp only at h
    split at h
    · rename_i hok
      have h2 := (checkDigest_verify dg v [] id u).1
      rw [hok] at h2
      refine ⟨u, ?_, verify_ok dg (V.store v []) id u hg h2.symm⟩
      cases eff with
      | asIs => exact absurd rfl hne
      | uncompressed => simp at hu; exact hu
      | compressed =>
        simp only [if_true] at hu
        unfold decompress at hu
        split at hu; · cases hu
        split at hu
        · split at hu; · cases hu
          split at hu; · cases hu
          rename_i hh _ _; cases hu; exact hh
        · cases hu
        · cases hu
    · cases h

/-- **C34** If a request for a chunk succeeds, then whatever the peer sent, whatever is in the cache directory, whatever happens to it
while it is read and whatever the decompressor does, the data handed out, decompressed if it is handed out compressed, has the
requested id under the configured digest, or under one of the supported digests if none is configured; and it has the
compression that was asked for. -/
theorem C34_request_verified (cd : Codec) (dg : Digest) (root : Bytes) (r r' : R) (v v' : V) (hv : VReach cd dg v) (id : Bytes) (high : Bool)
    (des eff : Compression) (d : Bytes) (h : Outcome (Remote.request cd dg root r v id high des) (.ok (d, eff), r', v')) :
    (∃ u, Represents cd eff d u ∧ Matches dg v.digestType id u) ∧ (des ≠ .asIs → eff = des) := by
  have hg := vreach_good hv
  unfold Remote.request at h
  split at h; · cases h
  split at h; · cases h
  obtain ⟨a, h1, h2⟩ := outcome_bind _ _ _ h
  split at h2
  · injection h2 with h2 _
    split at h2 <;> cases h2
  · cases h2
  · cases h2
  · cases h2
  · rename_i d0 eff0
    injection h2 with h2 _
    split at h2
    · rename_i hok
      cases h2
      exact ⟨check_ok hg hok, (fileLoad_eff _ _ _ _ _ _ _ h1).2⟩
    · cases h2
    · cases h2

/-- **C34** The same for the chunk that came last (`ca_remote_next_chunk`): the id is the one under which the peer sent it, and the data
belongs to it. -/
theorem C34_next_chunk_verified (cd : Codec) (dg : Digest) (root : Bytes) (r : R) (v v' : V) (hv : VReach cd dg v) (id : Bytes)
    (des eff : Compression) (d : Bytes) (h : Outcome (Remote.nextChunk cd dg root r v des) (.ok (id, d, eff), v')) :
    r.lastChunk = some id ∧ (∃ u, Represents cd eff d u ∧ Matches dg v.digestType id u) ∧ (des ≠ .asIs → eff = des) := by
  have hg := vreach_good hv
  unfold Remote.nextChunk at h
  split at h; · cases h
  rename_i id0 hl
  split at h; · cases h
  split at h; · cases h
  obtain ⟨a, h1, h2⟩ := outcome_bind _ _ _ h
  split at h2
  · cases h2
  · cases h2
  · rename_i d0 eff0
    injection h2 with h2 _
    split at h2
    · rename_i hok
      cases h2
      exact ⟨hl, check_ok hg hok, (fileLoad_eff _ _ _ _ _ _ _ h1).2⟩
    · cases h2
    · cases h2

/-! ### The cache directory -/

theorem fileInstall_world {W} {e : World W} {P : W → Prop} (hr : ∀ w a, P w → P (e.rename w a).2) (w : W) (r : R) (a : Bool) (h : P w) :
    P (fileInstall e w r a).2.2 := by
  unfold fileInstall
  simp only
  split
  · exact h
  · have := hr w a h
    generalize e.rename w a = z at this ⊢
    obtain ⟨x, w'⟩ := z
    cases x <;> exact this

/-- What every operation of the world preserves is preserved by every call. -/
theorem act_world {W} {e : World W} {P : W → Prop} (hsave : ∀ w id c d, id.length = 32 → c ≠ .asIs → d ≠ [] → P w → P (e.save w id c d).2)
    (hmiss : ∀ w id, id.length = 32 → P w → P (e.missing w id).2) (hwrite : ∀ w a d, P w → P (e.write w a d).2)
    (hren : ∀ w a, P w → P (e.rename w a).2) (w : W) (r : R) (a : Act) (h : P w) : P (act e w r a).2.2 := by
  have goodbyes : ∀ (w : W) (r : R), P w → P (Remote.processGoodbye e w r).2.2 ∧ P (Remote.goodbye e w r).2.2 := by
    intro w r h
    have h1 := fileInstall_world hren w r false h
    unfold Remote.processGoodbye Remote.goodbye
    constructor
    · generalize fileInstall e w r false = z at h1 ⊢
      obtain ⟨x, r1, w1⟩ := z
      cases x with
      | err _ => exact h1
      | ub => exact h1
      | ok u =>
        simp only
        have h2 := fileInstall_world hren w1 r1 true h1
        generalize fileInstall e w1 r1 true = z at h2 ⊢
        obtain ⟨x, r2, w2⟩ := z
        cases x <;> exact h2
    · split; · exact h
      split; · exact h
      generalize fileInstall e w r false = z at h1 ⊢
      obtain ⟨x, r1, w1⟩ := z
      cases x with
      | err _ => exact h1
      | ub => exact h1
      | ok u =>
        simp only
        have h2 := fileInstall_world hren w1 r1 true h1
        generalize fileInstall e w1 r1 true = z at h2 ⊢
        obtain ⟨x, r2, w2⟩ := z
        cases x <;> exact h2
  cases a with
  | message =>
    show P (processMessage e w r).2.2
    by_cases heof : r.state = .eof
    · unfold processMessage; rw [if_pos heof]; exact h
    rcases frame_or_not r.input with ⟨f, rest, hf, hi⟩ | hn
    · have hp := processMessage_frame e w r f rest hf hi heof
      have hd : P (dispatch e w r f).2.2 := by
        rcases dispatch_cases e w r hf with h1 | ⟨m, _, hm, _, h1⟩
        · rw [h1]; exact h
        · rw [h1]
          cases m with
          | hello fl => exact h
          | file a d =>
            simp only [process, processFile]
            split; · exact h
            split
            · have := hwrite w a d h
              generalize e.write w a d = z at this ⊢
              obtain ⟨x, w'⟩ := z
              cases x <;> exact this
            · exact h
          | fileEof a => exact h
          | request p ids => exact h
          | chunk id c d =>
            simp only [process, processChunk]
            split; · exact h
            have := hsave w id (if c then .compressed else .uncompressed) d hm.1 (by cases c <;> decide) hm.2 h
            generalize e.save w id (if c then .compressed else .uncompressed) d = z at this ⊢
            obtain ⟨x, w'⟩ := z
            cases x with
            | ok u => exact this
            | ub => exact this
            | err er => cases er <;> exact this
          | missing id =>
            simp only [process, processMissing]
            split; · exact h
            have := hmiss w id hm h
            generalize e.missing w id = z at this ⊢
            obtain ⟨x, w'⟩ := z
            cases x with
            | ok u => exact this
            | ub => exact this
            | err er => cases er <;> exact this
          | goodbye => exact (goodbyes w r h).1
          | abort _ _ => exact h
      generalize dispatch e w r f = z at hp hd
      obtain ⟨y, r', w'⟩ := z
      cases y <;> (rw [hp]; exact hd)
    · rw [(processMessage_none e w r hn).1]; exact h
  | goodbye => exact (goodbyes w r h).2
  | _ => exact h

theorem run_world {W} {e : World W} {P : W → Prop} (hsave : ∀ w id c d, id.length = 32 → c ≠ .asIs → d ≠ [] → P w → P (e.save w id c d).2)
    (hmiss : ∀ w id, id.length = 32 → P w → P (e.missing w id).2) (hwrite : ∀ w a d, P w → P (e.write w a d).2)
    (hren : ∀ w a, P w → P (e.rename w a).2) : ∀ (as : List Act) (c : Conn W), P c.w → P (c.run e as).w
  | [], _, h => h
  | a :: as, c, h => run_world hsave hmiss hwrite hren as _ (act_world hsave hmiss hwrite hren c.w c.r a h)

/-- A chunk from the peer is a put into a store that keeps what it gets. -/
def putOf (root id : Bytes) (c : Compression) (tmp d : Bytes) (env : Nat → Choice) : PutCall :=
  ⟨⟨some root, false, true, none, none, .asIs, compressionDefault⟩, [], id, c, tmp, d, env⟩

theorem exec_bind_ret {α β : Type} (env : Nat → Choice) (g : α → β) : ∀ (P : Prog α) (t : Nat) (fs : FS),
    exec env t fs (Prog.bind P fun a => .ret (g a)) = (g (exec env t fs P).1, (exec env t fs P).2)
  | .ret _, _, _ => rfl
  | .call c k, t, fs => exec_bind_ret env g (k (sem fs c (env t)).1) (t + 1) _

theorem putOf_run (cd : Codec) (root id : Bytes) (c : Compression) (tmp d : Bytes) (env : Nat → Choice) (fs : FS) :
    ((putOf root id c tmp d env).run cd fs).1.1 = (exec env 0 fs (fileSave cd root id c .asIs compressionDefault tmp d)).1 ∧
    ((putOf root id c tmp d env).run cd fs).2 = (exec env 0 fs (fileSave cd root id c .asIs compressionDefault tmp d)).2 := by
  have h : (putOf root id c tmp d env).run cd fs = exec env 0 fs (Prog.bind (fileSave cd root id c .asIs compressionDefault tmp d)
      fun r => .ret (r, (putOf root id c tmp d env).store)) := rfl
  rw [h, exec_bind_ret]
  exact ⟨rfl, rfl⟩

theorem sem_symlink (fs : FS) (p : Path) (ch : Choice) :
    (∃ e, sem fs (.symlink p) ch = (.err e, fs)) ∨ (fs.names p = none ∧ sem fs (.symlink p) ch = (.ok, setName fs p (some .symlink))) := by
  unfold sem
  cases ch.fail with
  | some e => exact .inl ⟨_, rfl⟩
  | none =>
    by_cases hn : fs.names p = none
    · exact .inr ⟨hn, by simp [hn]⟩
    · exact .inl ⟨.EEXIST, by simp [hn]⟩

theorem sem_rmdir (fs : FS) (p : Path) (ch : Choice) :
    (sem fs (.rmdir p) ch).2 = fs ∨ (sem fs (.rmdir p) ch).2 = setName fs p none := by
  unfold sem
  cases ch.fail with
  | some e => exact .inl rfl
  | none =>
    simp only
    split; · exact .inl rfl
    split; · exact .inl rfl
    split; · exact .inl rfl
    exact .inr rfl

/-- Nothing but these two names changes, and a file system stays one. -/
def Touches (fs g : FS) (q q' : Path) : Prop :=
  (Os.WF fs → Os.WF g) ∧ ∀ p, p ≠ q → p ≠ q' → g.names p = fs.names p ∧ content g p = content fs p

theorem touches_refl (fs : FS) (q q') : Touches fs fs q q' := ⟨id, fun _ _ _ => ⟨rfl, rfl⟩⟩

theorem touches_set {fs g : FS} {q q' r : Path} {x : Option Node} (h : Touches fs g q q') (hr : r = q ∨ r = q') (hx : ∀ i, x ≠ some (.file i)) :
    Touches fs (setName g r x) q q' := by
  refine ⟨fun hw p i hp => ?_, fun p h1 h2 => ?_⟩
  · by_cases hpr : p = r
    · subst hpr; simp only [setName, if_true] at hp; exact absurd hp (hx i)
    · simp only [setName, hpr, if_false] at hp; exact h.1 hw p i hp
  · have hpr : p ≠ r := by rcases hr with rfl | rfl <;> assumption
    obtain ⟨a, b⟩ := h.2 p h1 h2
    refine ⟨?_, (content_setName_ne _ _ hpr).trans b⟩
    simp only [setName, hpr, if_false]; exact a

theorem post_missing (C : Choice → Prop) (pre id : Bytes) (fs : FS) :
    post C (fileMarkMissing pre id) (fun _ g => Touches fs g (ChunkId.formatPath pre id []) (dirOf pre id) ∧ (Present fs pre id → g = fs)) fs := by
  unfold fileMarkMissing
  apply post_bind
  apply post_fileTest
  · by_cases hp : fs.names (ChunkId.formatPath pre id cacnk) ≠ none ∨ fs.names (ChunkId.formatPath pre id []) ≠ none
    · rw [decide_eq_true hp]
      exact ⟨touches_refl .., fun _ => rfl⟩
    · rw [decide_eq_false hp]
      refine post_mono (Q := fun _ g => Touches fs g (ChunkId.formatPath pre id []) (dirOf pre id)) _ _ (fun a g h => ⟨h, fun h' => absurd h' hp⟩) ?_
      intro ch _
      rcases sem_mkdir fs (dirOf pre id) ch with ⟨e, _, h⟩ | ⟨_, hn, h⟩ | ⟨_, hn, h⟩
      · rw [h]; simp only; rw [if_pos (injected_ne e).2]; exact touches_refl ..
      · rw [h]
        intro ch' _
        have ht := touches_set (r := dirOf pre id) (x := some .dir) (touches_refl fs (ChunkId.formatPath pre id []) (dirOf pre id)) (.inr rfl) (fun i => by simp)
        rcases sem_symlink (setName fs (dirOf pre id) (some .dir)) (ChunkId.formatPath pre id []) ch' with ⟨e, h'⟩ | ⟨_, h'⟩
        · rw [h']
          intro ch'' _
          rcases sem_rmdir (setName fs (dirOf pre id) (some .dir)) (dirOf pre id) ch'' with h'' | h''
          · show Touches fs _ _ _
            rw [h'']; exact ht
          · show Touches fs _ _ _
            rw [h'']; exact touches_set ht (.inr rfl) (fun i => by simp)
        · rw [h']
          exact touches_set ht (.inl rfl) (fun i => by simp)
      · rw [h]
        simp only
        rw [if_neg (by simp)]
        intro ch' _
        rcases sem_symlink fs (ChunkId.formatPath pre id []) ch' with ⟨e, h'⟩ | ⟨_, h'⟩
        · rw [h']; exact touches_refl ..
        · rw [h']
          exact touches_set (touches_refl ..) (.inl rfl) (fun i => by simp)
  · intro ch e _ _
    exact ⟨touches_refl .., fun _ => rfl⟩

/-- **C34** A chunk (or mark) that is in the cache directory stays as it is, whatever the peer sends and whatever else is called: no
history of the connection changes the files of that id. -/
theorem C34_not_replaced {F} (cd : Codec) (root : Bytes) (tmp : Nat → Bytes) (env : Nat → Nat → Choice) (f : World F)
    (htmp : ∀ k, tmp k ≠ [] ∧ tmp k ≠ cacnk) (c : Conn (Sys F)) (hw : Os.WF c.w.fs) (id : Bytes) (hid : id.length = 32)
    (hp : Present c.w.fs root id) (as : List Act) (suf : Bytes) (hsuf : suf = cacnk ∨ suf = []) :
    let fs' := (c.run (osWorld cd root tmp env f) as).w.fs
    fs'.names (ChunkId.formatPath root id suf) = c.w.fs.names (ChunkId.formatPath root id suf) ∧
    content fs' (ChunkId.formatPath root id suf) = content c.w.fs (ChunkId.formatPath root id suf) := by
  suffices key : (fun s : Sys F => Os.WF s.fs ∧ ∀ suf, suf = cacnk ∨ suf = [] →
      s.fs.names (ChunkId.formatPath root id suf) = c.w.fs.names (ChunkId.formatPath root id suf) ∧
      content s.fs (ChunkId.formatPath root id suf) = content c.w.fs (ChunkId.formatPath root id suf)) (c.run (osWorld cd root tmp env f) as).w from key.2 suf hsuf
  · refine run_world (P := fun s : Sys F => Os.WF s.fs ∧ ∀ suf, suf = cacnk ∨ suf = [] →
      s.fs.names (ChunkId.formatPath root id suf) = c.w.fs.names (ChunkId.formatPath root id suf) ∧
      content s.fs (ChunkId.formatPath root id suf) = content c.w.fs (ChunkId.formatPath root id suf)) ?_ ?_ ?_ ?_ as c ⟨hw, fun _ _ => ⟨rfl, rfl⟩⟩
    · intro s id' co d hid' hco hd ⟨h1, h2⟩
      have hpu := putOf_run cd root id' co (tmp s.k) d (env s.k) s.fs
      have hv : (putOf root id' co (tmp s.k) d (env s.k)).Valid := ⟨hid', htmp s.k⟩
      show Os.WF (exec (env s.k) 0 s.fs (fileSave cd root id' co .asIs compressionDefault (tmp s.k) d)).2 ∧ ∀ suf, suf = cacnk ∨ suf = [] → (exec (env s.k) 0 s.fs (fileSave cd root id' co .asIs compressionDefault (tmp s.k) d)).2.names _ = _ ∧ content (exec (env s.k) 0 s.fs (fileSave cd root id' co .asIs compressionDefault (tmp s.k) d)).2 _ = _
      rw [← hpu.2]
      refine ⟨(put_spec cd _ hv s.fs h1 hco).1, fun suf hs => ?_⟩
      obtain ⟨a, b⟩ := h2 suf hs
      by_cases hi : id = id'
      · subst hi
        have hpres : Present s.fs root id := by
          unfold Present
          rw [(h2 cacnk (.inl rfl)).1, (h2 [] (.inr rfl)).1]; exact hp
        have hmk : Mk root s.fs _ := (C14_no_overwrite cd _ hv s.fs hpres).2
        obtain ⟨a', b'⟩ := hmk.names _ (path_ne_root root id suf hid)
        exact ⟨a'.trans a, b'.trans b⟩
      · obtain ⟨a', b'⟩ := C14_others_untouched cd _ hv s.fs h1 hco id suf hid hi
        exact ⟨a'.trans a, b'.trans b⟩
    · intro s id' hid' ⟨h1, h2⟩
      have := post_exec (C := fun _ => True) _ s.fs (post_missing (fun _ => True) root id' s.fs) (env s.k) (fun _ => trivial) 0
      refine ⟨this.1.1 h1, fun suf hs => ?_⟩
      obtain ⟨a, b⟩ := h2 suf hs
      show (exec (env s.k) 0 s.fs (fileMarkMissing root id')).2.names _ = _ ∧ content (exec (env s.k) 0 s.fs (fileMarkMissing root id')).2 _ = _
      by_cases hi : id = id'
      · subst hi
        have hpres : Present s.fs root id := by
          unfold Present
          rw [(h2 cacnk (.inl rfl)).1, (h2 [] (.inr rfl)).1]; exact hp
        rw [this.2 hpres]; exact ⟨a, b⟩
      · obtain ⟨a', b'⟩ := this.1.2 (ChunkId.formatPath root id suf)
          (fun h => hi (ChunkId.format_inj (formatPath_suffix _ _ _ _ _ hid hid' h).2)) (formatPath_ne_dirOf _ _ _ _ hid hid')
        exact ⟨a'.trans a, b'.trans b⟩
    · exact fun s a d h => h
    · exact fun s a h => h

/-- What `ca_remote_request` makes of what it loaded. -/
def requestResult (cd : Codec) (dg : Digest) (r : R) (v : V) (id : Bytes) (high : Bool) : Res (Bytes × Compression) → Res (Bytes × Compression) × R × V
  | .err .ENOENT => ((match (enqueue r.queue id high true).1 with
      | .ok true => .err .EAGAIN
      | .ok false => .err .EALREADY
      | .err e => .err e
      | .ub => .ub), { r with queue := (enqueue r.queue id high true).2 }, v)
  | .err .EADDRNOTAVAIL => (.err .ENOENT, r, v)
  | .err e => (.err e, r, v)
  | .ub => (.ub, r, v)
  | .ok (d, eff) => ((match (checkChunk cd dg v id eff d).1 with
      | .ok () => .ok (d, eff)
      | .err e => .err e
      | .ub => .ub), r, (checkChunk cd dg v id eff d).2)

/-- What `ca_store_get` makes of it. -/
def getResult (cd : Codec) (dg : Digest) (s : Store) (id : Bytes) : Res (Bytes × Compression) → Res (Bytes × Compression) × Store
  | .err e => (.err e, s)
  | .ub => (.ub, s)
  | .ok (d, eff) => finish cd dg s id d eff

theorem request_exec (cd : Codec) (dg : Digest) (root : Bytes) (r : R) (v : V) (id : Bytes) (high : Bool) (des : Compression)
    (h1 : has r.localFlags PULL_CHUNKS = true) (h2 : r.state ≠ .eof) (env : Nat → Choice) (fs : FS) :
    exec env 0 fs (Remote.request cd dg root r v id high des) =
      (requestResult cd dg { r with queue := { r.queue with cache := true } } v id high (exec env 0 fs (fileLoad cd root id des v.compressionType)).1,
        (exec env 0 fs (fileLoad cd root id des v.compressionType)).2) := by
  unfold Remote.request
  rw [if_neg (by rw [h1]; decide), if_neg h2]
  simp only
  rw [← exec_bind_ret]
  congr 2
  funext a
  cases a with
  | ok x => rfl
  | ub => rfl
  | err e => cases e <;> rfl

theorem get_exec (cd : Codec) (dg : Digest) (root : Bytes) (s : Store) (id : Bytes) (des : Compression) (h : s.root = some root)
    (env : Nat → Choice) (fs : FS) :
    exec env 0 fs (Store.get cd dg s id des) = (getResult cd dg s id (exec env 0 fs (fileLoad cd root id des s.compressionType)).1,
        (exec env 0 fs (fileLoad cd root id des s.compressionType)).2) := by
  unfold Store.get
  rw [h]
  simp only
  rw [← exec_bind_ret]
  congr 2
  funext a
  cases a <;> rfl

/-- **C34** A good chunk arrives: when the peer sends the chunk that belongs to an id and it is saved, then after any further history, on any
object, the request for it succeeds and hands out this chunk, in the compression asked for. Assumed: sizes below the limit, a
compressor that inverts itself, no failing system call during the request. -/
theorem C34_delivered {F} (cd : Codec) (dg : Digest) (root : Bytes) (tmp : Nat → Bytes) (env : Nat → Nat → Choice) (f : World F)
    (htmp : ∀ k, tmp k ≠ [] ∧ tmp k ≠ cacnk) (w : Sys F) (hw : Os.WF w.fs) (r0 r1 r : R) (id : Bytes) (hid : id.length = 32)
    (compressed : Bool) (data u : Bytes) (hrep : Represents cd (if compressed then .compressed else .uncompressed) data u)
    (hok : (processChunk (osWorld cd root tmp env f) w r0 id compressed data).1 = .ok .chunk) (as : List Act)
    (v : V) (hv : VReach cd dg v) (hm : Matches dg v.digestType id u) (hcd : CodecOk cd v.compressionType)
    (hz : Sizes cd [v.compressionType] u data) (des : Compression) (env' : Nat → Choice) (hn : NoFaults env') (hf : FullReads env')
    (hpull : r.localFlags.testBit 6) (hst : r.state ≠ .eof) (high : Bool) :
    let w' := (processChunk (osWorld cd root tmp env f) w r0 id compressed data).2.2
    let fs := ((Conn.new w' r1).run (osWorld cd root tmp env f) as).w.fs
    ∃ d e r' v', exec env' 0 fs (Remote.request cd dg root r v id high des) = ((.ok (d, e), r', v'), fs) ∧ Represents cd e d u ∧
      (des ≠ .asIs → e = des) := by
  have hco : (if compressed then Compression.compressed else .uncompressed) ≠ .asIs := by cases compressed <;> decide
  generalize hcc : (if compressed then Compression.compressed else .uncompressed) = co at hrep hco
  have hd : data ≠ [] := by intro h; have := hz.posData; rw [h] at this; simp at this
  have hv1 : (putOf root id co (tmp w.k) data (env w.k)).Valid := ⟨hid, htmp w.k⟩
  have hpu := putOf_run cd root id co (tmp w.k) data (env w.k) w.fs
  have hsave : (osWorld cd root tmp env f).save w id co data =
      (((putOf root id co (tmp w.k) data (env w.k)).run cd w.fs).1.1, ⟨w.k + 1, ((putOf root id co (tmp w.k) data (env w.k)).run cd w.fs).2, w.files⟩) := by
    rw [hpu.1, hpu.2]; rfl
  unfold processChunk at hok ⊢
  split at hok; · cases hok
  rename_i hcache
  rw [if_neg hcache]
  simp only at hok ⊢
  rw [hcc, hsave] at hok ⊢
  have hwf := (put_spec cd _ hv1 w.fs hw hco).1
  have hres : ((putOf root id co (tmp w.k) data (env w.k)).run cd w.fs).1.1 = .ok () := by
    generalize ((putOf root id co (tmp w.k) data (env w.k)).run cd w.fs).1.1 = z at hok
    cases z with
    | ok u => rfl
    | ub => cases hok
    | err e => cases e <;> cases hok
  have hfin : (putOf root id co (tmp w.k) data (env w.k)).saver.finalCompression = co := rfl
  obtain ⟨b, hb, hb'⟩ := put_holds cd _ hv1 w.fs hw u hrep (fun h1 h2 => by
    rw [hfin] at h2
    have h1 : co = .uncompressed := h1
    rw [h1] at h2; cases h2) hres
  rw [hfin] at hb
  have hbd : b = data := by
    have h1 := ((put_spec cd _ hv1 w.fs hw hco).2.2 hres).1
    obtain ⟨b0, hb0, hb1⟩ := h1
    have h2 : b = b0 := by
      have h3 := hb.file
      have h4 : (putOf root id co (tmp w.k) data (env w.k)).saver.final (putOf root id co (tmp w.k) data (env w.k)).root =
        ChunkId.formatPath root id (sufOf co) := rfl
      rw [h4] at hb1
      have h5 : content ((putOf root id co (tmp w.k) data (env w.k)).run cd w.fs).2 (ChunkId.formatPath root id (sufOf co)) = some b := h3
      rw [hb1] at h5
      exact (Option.some.inj h5).symm
    rw [h2]
    unfold Saver.complete at hb0
    rw [hfin] at hb0
    have e1 : (putOf root id co (tmp w.k) data (env w.k)).saver.eff = co := rfl
    have e3 : (putOf root id co (tmp w.k) data (env w.k)).saver.data = data := rfl
    rw [e1, e3] at hb0
    cases co <;> first | exact absurd rfl hco | exact (Res.ok.inj hb0).symm
  subst hbd
  rw [hres]
  simp only
  have key : (fun s : Sys F => Os.WF s.fs ∧ Holds cd s.fs root id co b u)
      ((Conn.new (⟨w.k + 1, ((putOf root id co (tmp w.k) b (env w.k)).run cd w.fs).2, w.files⟩ : Sys F) r1).run (osWorld cd root tmp env f) as).w := by
    refine run_world (P := fun s : Sys F => Os.WF s.fs ∧ Holds cd s.fs root id co b u) ?_ ?_ ?_ ?_ as _ ⟨hwf, hb⟩
    · intro s id' co' d hid' hco' hd' ⟨h1, h2⟩
      have hpu := putOf_run cd root id' co' (tmp s.k) d (env s.k) s.fs
      have hv : (putOf root id' co' (tmp s.k) d (env s.k)).Valid := ⟨hid', htmp s.k⟩
      show Os.WF (exec (env s.k) 0 s.fs (fileSave cd root id' co' .asIs compressionDefault (tmp s.k) d)).2 ∧
        Holds cd (exec (env s.k) 0 s.fs (fileSave cd root id' co' .asIs compressionDefault (tmp s.k) d)).2 root id co b u
      rw [← hpu.2]
      exact ⟨(put_spec cd _ hv s.fs h1 hco').1, holds_after_put cd s.fs root id hid co b u h2 _ hv h1 hco' rfl⟩
    · intro s id' hid' ⟨h1, h2⟩
      have hpm := post_exec (C := fun _ => True) _ s.fs (post_missing (fun _ => True) root id' s.fs) (env s.k) (fun _ => trivial) 0
      refine ⟨hpm.1.1 h1, ?_⟩
      show Holds cd (exec (env s.k) 0 s.fs (fileMarkMissing root id')).2 root id co b u
      by_cases hi : id = id'
      · subst hi
        have hpres : Present s.fs root id := by
          obtain ⟨i, hi, _⟩ := content_some h2.file
          unfold sufOf at hi
          unfold Present
          split at hi
          · exact Or.inl (by rw [hi]; simp)
          · exact Or.inr (by rw [hi]; simp)
        rw [hpm.2 hpres]; exact h2
      · have ht : ∀ suf, _ := fun suf => hpm.1.2 (ChunkId.formatPath root id suf)
          (fun h => hi (ChunkId.format_inj (formatPath_suffix _ _ _ _ _ hid hid' h).2)) (formatPath_ne_dirOf _ _ _ _ hid hid')
        exact ⟨h2.ne, by rw [(ht _).2]; exact h2.file, by rw [(ht _).1]; exact h2.other, h2.repr⟩
    · exact fun s a d h => h
    · exact fun s a h => h
  generalize ((Conn.new (⟨w.k + 1, ((putOf root id co (tmp w.k) b (env w.k)).run cd w.fs).2, w.files⟩ : Sys F) r1).run (osWorld cd root tmp env f) as).w = s at key
  obtain ⟨_, hH⟩ := key
  have hg := vreach_good hv
  obtain ⟨d, e, s', g1, g2, g3⟩ := get_holds_good cd dg s.fs root id co b u hH (V.store v root) hg rfl hm des (fun _ _ => hcd)
    hz.posData hz.ltData hz.pos hz.lt (hz.ltEnc _ (by simp [V.store])) env' hn hf
  rw [get_exec cd dg root _ id des rfl] at g1
  have hhas : has r.localFlags PULL_CHUNKS = true := by
    have := has_bit r.localFlags 6
    rw [show (2 : Nat) ^ 6 = PULL_CHUNKS from rfl] at this
    rw [this]; exact hpull
  rw [request_exec cd dg root r v id high des hhas hst]
  have hct : (V.store v root).compressionType = v.compressionType := rfl
  rw [hct] at g1
  generalize exec env' 0 s.fs (fileLoad cd root id des v.compressionType) = z at g1 ⊢
  obtain ⟨y, fs'⟩ := z
  simp only at g1 ⊢
  have hfs : fs' = s.fs := congrArg Prod.snd g1
  have hy : getResult cd dg (V.store v root) id y = (.ok (d, e), s') := congrArg Prod.fst g1
  subst hfs
  cases y with
  | err _ => cases hy
  | ub => cases hy
  | ok x =>
    obtain ⟨d0, e0⟩ := x
    have hy : finish cd dg (V.store v root) id d0 e0 = (.ok (d, e), s') := hy
    have hck : d0 = d ∧ e0 = e ∧ (checkChunk cd dg v id e0 d0).1 = .ok () := by
      unfold finish at hy
      simp only at hy
      split at hy
      · cases hy
      · cases hy
      · rename_i uu huu
        split at hy
        · rename_i hver
          have h1 : d0 = d ∧ e0 = e := by
            have := congrArg Prod.fst hy
            simpa using this
          obtain ⟨rfl, rfl⟩ := h1
          refine ⟨rfl, rfl, ?_⟩
          have he0 : e0 ≠ .asIs := by
            intro h; rw [h] at g2; exact g2
          have hlen : 1 ≤ d0.length ∧ d0.length ≤ MAX := by
            cases e0 with
            | asIs => exact absurd rfl he0
            | uncompressed =>
              have : d0 = u := g2
              rw [this]; exact ⟨hz.pos, Nat.le_of_lt hz.lt⟩
            | compressed =>
              simp only [if_true] at huu
              unfold decompress at huu
              split at huu
              · cases huu
              · rename_i hh; omega
          unfold checkChunk
          rw [if_neg he0, if_neg (by omega), if_neg (by omega), huu]
          simp only
          rw [(checkDigest_verify dg v root id uu).1, hver]
          rfl
        · cases hy
    obtain ⟨rfl, rfl, hck⟩ := hck
    refine ⟨d0, e0, { r with queue := { r.queue with cache := true } }, (checkChunk cd dg v id e0 d0).2, ?_, g2, fun h => by rw [g3, if_neg h]⟩
    unfold requestResult
    simp only
    rw [hck]

/-! ### non-vacuity -/

/-- A world without other files. -/
def noFiles : World Unit := ⟨fun w _ _ _ => (.ok (), w), fun w _ => (.ok (), w), fun w _ _ => (.ok (), w), fun w _ => (.ok (), w)⟩
/-- A system on an empty disk with no failures. -/
noncomputable def exWorld : World (Sys Unit) := osWorld plainCodec [47, 99, 47] (fun _ => [46, 120]) (fun _ _ => ⟨none, BUF⟩) noFiles
/-- The start: empty disk. -/
def exSys : Sys Unit := ⟨0, emptyFS, ()⟩
/-- A pulling client whose cache directory is open. -/
def exPuller : R := { R.new PULL_CHUNKS false false with queue := ⟨true, fun _ => none, fun _ => false, 0, 0, 0, 0⟩ }

theorem ex_saved : (processChunk exWorld exSys exPuller (List.replicate 32 7) false [1, 2, 3]).1 = .ok .chunk := by
  have h : (exec (fun _ => ⟨none, BUF⟩) 0 emptyFS (fileSave plainCodec [47, 99, 47] (List.replicate 32 7) .uncompressed .asIs
      compressionDefault [46, 120] [1, 2, 3])).1 = .ok () := by decide +kernel
  have h2 : (exWorld.save exSys (List.replicate 32 7) .uncompressed [1, 2, 3]).1 = .ok () := h
  unfold processChunk
  rw [if_neg (by decide)]
  simp only [Bool.false_eq_true, if_false]
  generalize exWorld.save exSys (List.replicate 32 7) .uncompressed [1, 2, 3] = z at h2 ⊢
  obtain ⟨x, y⟩ := z
  cases h2; rfl

/-- The peer sends the chunk, it is stored; the request hands it out, after whatever else the peer sent and the program did. -/
example (as : List Act) (des : Compression) (high : Bool) :
    let w' := (processChunk exWorld exSys exPuller (List.replicate 32 7) false [1, 2, 3]).2.2
    let fs := ((Conn.new w' exPuller).run exWorld as).w.fs
    ∃ d e r' v', exec (fun _ => ⟨none, BUF⟩) 0 fs (Remote.request plainCodec exDigest [47, 99, 47] exPuller V.new (List.replicate 32 7) high des) =
      ((.ok (d, e), r', v'), fs) ∧ Represents plainCodec e d [1, 2, 3] ∧ (des ≠ .asIs → e = des) :=
  C34_delivered plainCodec exDigest [47, 99, 47] (fun _ => [46, 120]) (fun _ _ => ⟨none, BUF⟩) noFiles (fun _ => ⟨by decide, by decide⟩) exSys
    (fun _ _ h => by cases h) exPuller exPuller exPuller _ rfl false [1, 2, 3] [1, 2, 3] rfl ex_saved as V.new .new
    (.inl rfl) (plainCodec_ok _) exSizes des (fun _ => ⟨none, BUF⟩) (fun _ => rfl) (fun _ => Nat.le_refl _) (by decide) (by decide) high

/-- A client that asks a directory with another chunk under the name gets EBADMSG, not the chunk. -/
example : (exec (fun _ => ⟨none, BUF⟩) 0 (exec (fun _ => ⟨none, BUF⟩) 0 emptyFS
      (fileSave plainCodec [47, 99, 47] (List.replicate 32 8) .uncompressed .asIs compressionDefault [46, 120] [1, 2, 3])).2
    (Remote.request plainCodec exDigest [47, 99, 47] exPuller V.new (List.replicate 32 8) true .asIs)).1.1 = .err .EBADMSG := by
  decide +kernel

end Casync.Remote.Props
