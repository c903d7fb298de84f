import Verif.Props.Store
import Verif.Lemmas.ChunkFileExec
/-!
C14: what is put into a store can be read back, is not overwritten, and does not disturb anything else.
-/
namespace Casync.Store
open Casync Os ChunkFile

/-- The saver of a put. -/
def PutCall.saver (c : PutCall) : Saver :=
  ⟨c.id, c.eff, c.store.compression, c.store.compressionType, c.tmp, c.data⟩

theorem sem_mkdir (fs : FS) (p : Path) (ch : Choice) :
    (∃ e, ch.fail = some e ∧ sem fs (.mkdir p) ch = (.err (injected e), fs)) ∨
    (ch.fail = none ∧ fs.names p = none ∧ sem fs (.mkdir p) ch = (.ok, setName fs p (some .dir))) ∨
    (ch.fail = none ∧ fs.names p ≠ none ∧ sem fs (.mkdir p) ch = (.err .EEXIST, fs)) := by
  unfold sem
  cases h : ch.fail with
  | some e => exact Or.inl ⟨e, rfl, rfl⟩
  | none =>
    by_cases hn : fs.names p = none
    · exact Or.inr (Or.inl ⟨rfl, hn, by simp [hn]⟩)
    · exact Or.inr (Or.inr ⟨rfl, hn, by simp [hn]⟩)

/-- The file system with the store directory made, or not. -/
def Mk (root : Bytes) (fs g : FS) : Prop := g = fs ∨ (fs.names root = none ∧ g = setName fs root (some .dir))

theorem post_put (C : Choice → Prop) (cd : Codec) (c : PutCall) (fs : FS) (Q : Res Unit × Store → FS → Prop)
    (hs : ∀ g, Mk c.root fs g → post C (c.saver.prog cd c.root) (fun r g' => ∀ s', s'.root = some c.root → Q (r, s') g') g)
    (hu : c.store.root = none → c.store.isCache = false → Q (.err .EUNATCH, c.store) fs)
    (he : ∀ ch e s', C ch → ch.fail = some e → Q (.err (injected e), s') fs) :
    post C (put cd c.store c.fresh c.id c.eff c.tmp c.data) Q fs := by
  unfold put
  split
  · rename_i h; exact hu h.1 h.2
  · simp only
    have save : ∀ g s', Mk c.root fs g → s'.root = some c.root → s'.compression = c.store.compression →
        s'.compressionType = c.store.compressionType →
        post C (Prog.bind (fileSave cd c.root c.id c.eff s'.compression s'.compressionType c.tmp c.data)
          fun r => .ret (r, s')) Q g := by
      intro g s' hg hr h1 h2
      apply post_bind
      rw [h1, h2]
      exact post_mono _ _ (fun r g' h => h s' hr) (hs g hg)
    split
    · exact save fs { c.store with root := some c.root } (Or.inl rfl) rfl rfl rfl
    · intro ch hc
      rcases sem_mkdir fs (c.store.root.getD c.fresh) ch with ⟨e, hf, h⟩ | ⟨_, hn, h⟩ | ⟨_, hn, h⟩
      · rw [h]
        simp only
        rw [if_pos (injected_ne e).2]
        exact he ch e _ hc hf
      · rw [h]
        exact save _ { c.store with root := some c.root, mkdirDone := true } (Or.inr ⟨hn, rfl⟩) rfl rfl rfl
      · rw [h]
        exact save _ { c.store with root := some c.root, mkdirDone := true } (Or.inl rfl) rfl rfl rfl

theorem Mk.names {root : Bytes} {fs g : FS} (h : Mk root fs g) (p : Path) (hp : p ≠ root) :
    g.names p = fs.names p ∧ content g p = content fs p := by
  rcases h with rfl | ⟨_, rfl⟩
  · exact ⟨rfl, rfl⟩
  · exact ⟨by simp [setName, hp], content_setName_ne _ _ hp⟩

theorem Mk.wf {root : Bytes} {fs g : FS} (h : Mk root fs g) (hw : WF fs) : WF g := by
  rcases h with rfl | ⟨_, rfl⟩
  · exact hw
  · intro p i hp
    by_cases hpr : p = root
    · subst hpr; simp [setName] at hp
    · simp only [setName, hpr, if_false] at hp; exact hw p i hp

theorem path_ne_root (root id suf : Bytes) (h : id.length = 32) : ChunkId.formatPath root id suf ≠ root := by
  intro he
  have := congrArg List.length he
  rw [formatPath_length _ _ _ h] at this
  omega

/-- **C14** (no overwriting). If a file of the chunk is in the store, compressed or not, a put of that id fails, and no name
except perhaps that of the store directory itself changes; if no system call fails and the arguments are valid the error is
`EEXIST`. -/
theorem C14_no_overwrite (cd : Codec) (c : PutCall) (hv : c.Valid) (fs : FS) (hp : Present fs c.root c.id) :
    (∃ e, (c.run cd fs).1.1 = .err e ∧
      (NoFaults c.env → c.eff ≠ .asIs → c.data ≠ [] → (c.store.root ≠ none ∨ c.store.isCache = true) → e = .EEXIST)) ∧
    ((c.run cd fs).2 = fs ∨
      (fs.names c.root = none ∧ (c.run cd fs).2 = setName fs c.root (some .dir))) := by
  let C : Choice → Prop := fun ch => NoFaults c.env → ch.fail = none
  have hC : ∀ t, C (c.env t) := fun t h => h t
  refine post_exec (C := C) _ (Q := fun (r : Res Unit × Store) g => (∃ e, r.1 = .err e ∧
      (NoFaults c.env → c.eff ≠ .asIs → c.data ≠ [] → (c.store.root ≠ none ∨ c.store.isCache = true) → e = .EEXIST)) ∧
      (g = fs ∨ (fs.names c.root = none ∧ g = setName fs c.root (some .dir)))) fs ?_ c.env hC 0
  apply post_put
  · intro g hg
    have hp' : Present g c.root c.id := by
      unfold Present
      rw [(hg.names _ (path_ne_root c.root c.id cacnk hv.1)).1, (hg.names _ (path_ne_root c.root c.id [] hv.1)).1]
      exact hp
    apply post_fileSave_exists C cd c.root c.id _ _ _ _ _ g hp'
    · intro h1 h2 s' _
      exact ⟨⟨_, rfl, fun _ _ _ _ => rfl⟩, hg⟩
    · intro ch e hc hf s' _
      refine ⟨⟨_, rfl, fun hnf => ?_⟩, hg⟩
      rw [hc hnf] at hf; cases hf
    · intro h s' _
      refine ⟨⟨_, rfl, fun _ h1 h2 => ?_⟩, hg⟩
      rcases h with h | h
      · exact absurd h h1
      · exact absurd h h2
  · intro h1 h2
    refine ⟨⟨_, rfl, fun _ _ _ h => ?_⟩, Or.inl rfl⟩
    rcases h with h | h
    · exact absurd h1 h
    · rw [h2] at h; cases h
  · intro ch e s' hc hf
    refine ⟨⟨_, rfl, fun hnf => ?_⟩, Or.inl rfl⟩
    rw [hc hnf] at hf; cases hf

/-- What a save leaves alone. -/
def Frame (s : Saver) (pre : Bytes) (fs g : FS) : Prop :=
  ∀ p, p ≠ s.temp pre → p ≠ s.final pre → p ≠ dirOf pre s.id → g.names p = fs.names p ∧ content g p = content fs p

theorem post_saver (C : Choice → Prop) (cd : Codec) (s : Saver) (hv : s.Valid) (he : s.eff ≠ .asIs) (pre : Bytes) (fs : FS) (hw : WF fs) :
    post C (s.prog cd pre) (fun r g => WF g ∧ Frame s pre fs g ∧
      (r = .ok () → (∃ b, s.complete cd = .ok b ∧ content g (s.final pre) = some b) ∧ g.names (s.temp pre) = none ∧
        ¬ Present fs pre s.id)) fs := by
  have key : ∀ d, post C (s.prog cd pre) (fun r g => (WF g ∧ Frame s pre fs g) ∧
      (r = .ok () → content g (s.final pre) = some (contents cd d s) ∧ g.names (s.temp pre) = none)) fs := by
    intro d
    refine wp_post (fun f => ⟨⟨rfl, rfl, Nat.le_refl _, id, fun i h => ⟨h, rfl, fun _ => Iff.rfl⟩⟩, fun _ => rfl⟩)
      (fun g => WF g ∧ Frame s pre fs g) ?_ _ _ fs
      (s.wp cd _ (fits_contents cd d) False fs.next pre hv fs hw (Nat.le_refl _)) ⟨hw, fun p _ _ _ => ⟨rfl, rfl⟩⟩ C
    intro f f' hI hG
    refine ⟨hG.wf hI.1, ?_⟩
    intro p h1 h2 h3
    obtain ⟨i1, i2⟩ := hI.2 p h1 h2 h3
    cases hG.others p h1 with
    | same a b => exact ⟨a.trans i1, b.trans i2⟩
    | dir hp => exact absurd hp h3
    | install hp => exact absurd hp h2
    | takeBack hp => exact absurd hp h2
  refine post_mono _ _ ?_ (post_and _ _ (key []) (post_and _ _ (key [0]) (post_fileSave_was_free C cd pre s.id s.eff s.des s.algorithm s.tmp s.data fs)))
  rintro r g ⟨⟨⟨h1, h2⟩, h3⟩, ⟨_, h4⟩, h5⟩
  refine ⟨h1, h2, fun hr => ?_⟩
  obtain ⟨a1, a2⟩ := h3 hr
  obtain ⟨b1, _⟩ := h4 hr
  have hfree := h5 hr
  refine ⟨?_, a2, ?_⟩
  · rw [complete_eq_stored cd s he]
    cases h6 : stored cd s.algorithm s.eff s.finalCompression s.data with
    | ok b => exact ⟨b, rfl, by rw [a1, contents, h6]⟩
    | _ => rw [a1, contents, contents, h6] at b1; cases b1
  · rintro (h | h)
    · exact h hfree.1
    · exact h hfree.2

theorem PutCall.Valid.saver {c : PutCall} (h : c.Valid) : c.saver.Valid := h

/-- Everything about one put. -/
theorem put_spec (cd : Codec) (c : PutCall) (hv : c.Valid) (fs : FS) (hw : WF fs) (he : c.eff ≠ .asIs) :
    WF (c.run cd fs).2 ∧
    (∀ p, p ≠ c.root → p ≠ c.saver.temp c.root → p ≠ c.saver.final c.root → p ≠ dirOf c.root c.id →
      (c.run cd fs).2.names p = fs.names p ∧ content (c.run cd fs).2 p = content fs p) ∧
    ((c.run cd fs).1.1 = .ok () →
      (∃ b, c.saver.complete cd = .ok b ∧ content (c.run cd fs).2 (c.saver.final c.root) = some b) ∧
      (c.run cd fs).2.names (c.saver.temp c.root) = none ∧ ¬ Present fs c.root c.id) := by
  refine post_exec (C := fun _ => True) _ (Q := fun (r : Res Unit × Store) g => WF g ∧
    (∀ p, p ≠ c.root → p ≠ c.saver.temp c.root → p ≠ c.saver.final c.root → p ≠ dirOf c.root c.id →
      g.names p = fs.names p ∧ content g p = content fs p) ∧
    (r.1 = .ok () →
      (∃ b, c.saver.complete cd = .ok b ∧ content g (c.saver.final c.root) = some b) ∧
      g.names (c.saver.temp c.root) = none ∧ ¬ Present fs c.root c.id)) fs ?_ c.env (fun _ => True.intro) 0
  apply post_put
  · intro g hg
    refine post_mono _ _ ?_ (post_saver _ cd c.saver hv he c.root g (hg.wf hw))
    rintro r g' ⟨h1, h2, h3⟩ s' _
    refine ⟨h1, ?_, ?_⟩
    · intro p p1 p2 p3 p4
      obtain ⟨a, b⟩ := h2 p p2 p3 p4
      obtain ⟨a', b'⟩ := hg.names p p1
      exact ⟨a.trans a', b.trans b'⟩
    · intro hr
      obtain ⟨a, b, d⟩ := h3 hr
      refine ⟨a, b, ?_⟩
      intro hpres
      apply d
      unfold Present
      rw [(hg.names _ (path_ne_root c.root c.saver.id cacnk hv.1)).1, (hg.names _ (path_ne_root c.root c.saver.id [] hv.1)).1]
      exact hpres
  · intro _ _
    exact ⟨hw, fun p _ _ _ _ => ⟨rfl, rfl⟩, fun h => by cases h⟩
  · intro ch e s' _ _
    exact ⟨hw, fun p _ _ _ _ => ⟨rfl, rfl⟩, fun h => by cases h⟩

/-- **C14** (nothing else is disturbed). Whatever a put does, with any failures, it does not touch any file of the chunks with
other ids in the same store, nor any name outside the store directory. -/
theorem C14_others_untouched (cd : Codec) (c : PutCall) (hv : c.Valid) (fs : FS) (hw : WF fs) (he : c.eff ≠ .asIs) (id suf : Bytes)
    (hid : id.length = 32) (hne : id ≠ c.id) :
    (c.run cd fs).2.names (ChunkId.formatPath c.root id suf) = fs.names (ChunkId.formatPath c.root id suf) ∧
    content (c.run cd fs).2 (ChunkId.formatPath c.root id suf) = content fs (ChunkId.formatPath c.root id suf) := by
  have hd : ∀ suf', ChunkId.formatPath c.root id suf ≠ ChunkId.formatPath c.root c.id suf' := by
    intro suf' h
    exact hne (ChunkId.format_inj (formatPath_suffix _ _ _ _ _ hid hv.1 h).2)
  exact (put_spec cd c hv fs hw he).2.1 _ (path_ne_root _ _ _ hid) (hd _) (hd _) (formatPath_ne_dirOf _ _ _ _ hid hv.1)

/-- Exactly one file of the chunk is there, of compression `fc`, and it stands for `u`. -/
structure Holds (cd : Codec) (fs : FS) (root id : Bytes) (fc : Compression) (b u : Bytes) : Prop where
  ne : fc ≠ .asIs
  file : content fs (ChunkId.formatPath root id (sufOf fc)) = some b
  other : fs.names (ChunkId.formatPath root id (if fc = .compressed then [] else cacnk)) = none
  repr : Represents cd fc b u

theorem put_holds (cd : Codec) (c : PutCall) (hv : c.Valid) (fs : FS) (hw : WF fs) (u : Bytes)
    (hr : Represents cd c.eff c.data u) (hc : c.eff = .uncompressed → c.saver.finalCompression = .compressed → CodecOk cd c.store.compressionType)
    (hok : (c.run cd fs).1.1 = .ok ()) :
    ∃ b, Holds cd (c.run cd fs).2 c.root c.id c.saver.finalCompression b u ∧
      (b = c.data ∨ b = u ∨ b = cd.enc c.store.compressionType u) := by
  have he : c.eff ≠ .asIs := by
    intro h; rw [h] at hr; exact hr
  obtain ⟨_, hfr, h3⟩ := put_spec cd c hv fs hw he
  obtain ⟨⟨b, hb, hcont⟩, _, hnp⟩ := h3 hok
  have hfc : c.saver.finalCompression ≠ .asIs := by
    unfold Saver.finalCompression
    split
    · exact he
    · assumption
  have hother : (c.run cd fs).2.names (ChunkId.formatPath c.root c.id (if c.saver.finalCompression = .compressed then [] else cacnk)) = none := by
    have hne : ∀ suf', suf' ≠ (if c.saver.finalCompression = .compressed then [] else cacnk) →
        ChunkId.formatPath c.root c.id (if c.saver.finalCompression = .compressed then [] else cacnk) ≠ ChunkId.formatPath c.root c.id suf' := by
      intro suf' h1 h2
      exact h1 (formatPath_suffix _ _ _ _ _ hv.1 hv.1 h2).1.symm
    rw [(hfr _ (path_ne_root _ _ _ hv.1) ?_ ?_ (formatPath_ne_dirOf _ _ _ _ hv.1 hv.1)).1]
    · split
      · exact Classical.not_not.1 (fun h => hnp (Or.inr h))
      · exact Classical.not_not.1 (fun h => hnp (Or.inl h))
    · apply hne
      split
      · exact hv.2.1
      · exact hv.2.2
    · apply hne
      split <;> decide
  refine ⟨b, ⟨hfc, hcont, hother, ?_⟩, ?_⟩
  all_goals
    unfold Saver.complete at hb
    revert hb hr hc hfc
    have e1 : c.saver.eff = c.eff := rfl
    have e2 : c.saver.algorithm = c.store.compressionType := rfl
    have e3 : c.saver.data = c.data := rfl
    rw [e1, e2, e3]
    generalize c.saver.finalCompression = f
    intro hr hc hb hfc
    cases he : c.eff <;> rw [he] at hr hc hb <;> cases f <;>
      first
        | exact absurd rfl hfc
        | exact hr.elim
        | (have hr' : c.data = u := hr
           have hb' : Res.ok c.data = Res.ok b := hb
           cases hb'; subst hr'; first | rfl | exact Or.inl rfl)
        | (have hr' : c.data = u := hr
           have hb' : Res.ok (cd.enc c.store.compressionType c.data) = Res.ok b := hb
           cases hb'; subst hr'; first | exact (hc rfl rfl).inv _ | exact Or.inr (Or.inr rfl))
        | (have hr' : cd.dec c.data = .ok u := hr
           have hb' : cd.dec c.data = Res.ok b := hb
           rw [hr'] at hb'; cases hb'; first | rfl | exact Or.inr (Or.inl rfl))
        | (have hr' : cd.dec c.data = .ok u := hr
           have hb' : Res.ok c.data = Res.ok b := hb
           cases hb'; first | exact hr' | exact Or.inl rfl)

theorem content_some {fs : FS} {p : Path} {b : Bytes} (h : content fs p = some b) :
    ∃ i, fs.names p = some (.file i) ∧ fs.data i = b := by
  unfold content at h
  split at h
  · rename_i i hi; exact ⟨i, hi, Option.some.inj h⟩
  · cases h

theorem repr_ne_nil {cd : Codec} {e : Compression} {d u : Bytes} (hr : Represents cd e d u) (hd : 1 ≤ d.length) : d ≠ [] := by
  have _ := hr
  intro h; subst h; simp at hd

/-- A chunk that is there is delivered. -/
theorem get_holds_good (cd : Codec) (dg : Digest) (fs : FS) (root id : Bytes) (fc : Compression) (b u : Bytes) (h : Holds cd fs root id fc b u)
    (s : Store) (hg : Good s) (hroot : s.root = some root) (hm : Matches dg s.digestType id u)
    (des : Compression) (hc : des = .compressed → fc = .uncompressed → CodecOk cd s.compressionType)
    (hb1 : 1 ≤ b.length) (hb2 : b.length < MAX) (hu1 : 1 ≤ u.length) (hu2 : u.length < MAX)
    (hz : (cd.enc s.compressionType u).length < MAX)
    (env : Nat → Choice) (hn : NoFaults env) (hf : FullReads env) :
    ∃ d e s', exec env 0 fs (get cd dg s id des) = ((.ok (d, e), s'), fs) ∧ Represents cd e d u ∧
      e = (if des = .asIs then fc else des) := by
  obtain ⟨i, hi, hd⟩ := content_some h.file
  have hM : 0 < MAX := by simp only [MAX]; omega
  -- what is loaded
  have hl : ∃ d, loaded cd s.compressionType des fc b = .ok d ∧ 1 ≤ d.length ∧ d.length < MAX ∧
      Represents cd (if des = .asIs then fc else des) d u := by
    unfold loaded
    by_cases h1 : des = .uncompressed ∧ fc = .compressed
    · have hr := h.repr
      rw [h1.2] at hr
      have hr : cd.dec b = .ok u := hr
      rw [if_pos h1, if_neg (by omega), if_neg (by intro h'; subst h'; simp at hb1), hr]
      simp only
      rw [if_neg (by omega), if_neg (by omega)]
      exact ⟨u, rfl, hu1, hu2, by rw [h1.1]; rfl⟩
    · rw [if_neg h1]
      by_cases h2 : des = .compressed ∧ fc = .uncompressed
      · have hr := h.repr
        rw [h2.2] at hr
        have hr : b = u := hr
        have ho := hc h2.1 h2.2
        have hp : 0 < (cd.enc s.compressionType u).length := by
          have := ho.pos u (by intro h'; subst h'; simp at hu1)
          exact List.length_pos_iff.2 this
        rw [if_pos h2, hr, if_neg (by omega), if_neg (by omega), if_neg (by omega)]
        exact ⟨_, rfl, by omega, hz, by rw [h2.1]; exact ho.inv u⟩
      · rw [if_neg h2, if_neg (by omega)]
        refine ⟨b, rfl, hb1, hb2, ?_⟩
        have hr := h.repr
        have : (if des = .asIs then fc else des) = fc := by
          have := h.ne
          cases des <;> cases fc <;> simp_all
        rw [this]; exact hr
  obtain ⟨d, hl1, hd1, hd2, hd3⟩ := hl
  have he : (if des = .asIs then fc else des) ≠ .asIs := by
    split
    · exact h.ne
    · assumption
  have hfin : ∃ s', finish cd dg s id d (if des = .asIs then fc else des) =
      (.ok (d, if des = .asIs then fc else des), s') := by
    unfold finish
    have hv : (if (if des = .asIs then fc else des) = .compressed then decompress cd d else .ok d) = .ok u := by
      by_cases h1 : (if des = .asIs then fc else des) = .compressed
      · rw [if_pos h1]
        rw [h1] at hd3
        have hd3 : cd.dec d = .ok u := hd3
        unfold decompress
        rw [if_neg (by omega), hd3]
        simp only
        rw [if_neg (by omega), if_neg (by omega)]
      · rw [if_neg h1]
        have h2 : (if des = .asIs then fc else des) = .uncompressed := by
          revert h1 he; cases (if des = .asIs then fc else des) <;> simp
        rw [h2] at hd3
        exact congrArg Res.ok hd3
    rw [hv]
    simp only
    rw [verify_complete dg s id u hg hm]
    exact ⟨_, rfl⟩
  obtain ⟨s', hfin⟩ := hfin
  have hx : ∀ t, Full (env t) := fun t => ⟨hn t, hf t⟩
  have := post_exec (C := Full) (get cd dg s id des) (Q := fun r g => r = (.ok (d, if des = .asIs then fc else des), s') ∧ g = fs) fs ?_ env hx 0
  · refine ⟨d, _, s', ?_, hd3, rfl⟩
    exact Prod.ext this.1 this.2
  · unfold get
    rw [hroot]
    simp only
    apply post_bind
    refine post_fileLoad cd root id des fc s.compressionType fs i h.ne hi h.other _ ?_
    rw [hd, hl1]
    simp only
    exact ⟨hfin, rfl⟩

theorem get_holds (cd : Codec) (dg : Digest) (fs : FS) (root id : Bytes) (fc : Compression) (b u : Bytes) (h : Holds cd fs root id fc b u)
    (s : Store) (hs : Reachable cd dg s) (hroot : s.root = some root) (hm : Matches dg s.digestType id u)
    (des : Compression) (hc : des = .compressed → fc = .uncompressed → CodecOk cd s.compressionType)
    (hb1 : 1 ≤ b.length) (hb2 : b.length < MAX) (hu1 : 1 ≤ u.length) (hu2 : u.length < MAX)
    (hz : (cd.enc s.compressionType u).length < MAX)
    (env : Nat → Choice) (hn : NoFaults env) (hf : FullReads env) :
    ∃ d e s', exec env 0 fs (get cd dg s id des) = ((.ok (d, e), s'), fs) ∧ Represents cd e d u ∧
      e = (if des = .asIs then fc else des) :=
  get_holds_good cd dg fs root id fc b u h s (reachable_good cd dg s hs) hroot hm des hc hb1 hb2 hu1 hu2 hz env hn hf

theorem holds_after_put (cd : Codec) (fs : FS) (root id : Bytes) (hid : id.length = 32) (fc : Compression) (b u : Bytes)
    (h : Holds cd fs root id fc b u) (c : PutCall) (hv : c.Valid) (hw : WF fs) (he : c.eff ≠ .asIs) (hroot : c.root = root) :
    Holds cd (c.run cd fs).2 root id fc b u := by
  subst hroot
  by_cases hi : id = c.id
  · subst hi
    have hpres : Present fs c.root c.id := by
      obtain ⟨i, hi, _⟩ := content_some h.file
      unfold sufOf at hi
      unfold Present
      split at hi
      · exact Or.inl (by rw [hi]; simp)
      · exact Or.inr (by rw [hi]; simp)
    have hmk : Mk c.root fs (c.run cd fs).2 := (C14_no_overwrite cd c hv fs hpres).2
    refine ⟨h.ne, ?_, ?_, h.repr⟩
    · rw [(hmk.names _ (path_ne_root _ _ _ hid)).2]; exact h.file
    · rw [(hmk.names _ (path_ne_root _ _ _ hid)).1]; exact h.other
  · refine ⟨h.ne, ?_, ?_, h.repr⟩
    · rw [(C14_others_untouched cd c hv fs hw he id _ hid hi).2]; exact h.file
    · rw [(C14_others_untouched cd c hv fs hw he id _ hid hi).1]; exact h.other

/-- **C14** (read back). Put a chunk, compressed or not, into a store, with any failures on the way. If the put succeeds, then after any further
puts into the same store (of the same or other ids, successful or not, interrupted by any failures) every get of the id, with any
desired compression and through any store object of a running program that is configured with a digest that fits the id, delivers the
same chunk and leaves the disk alone. Assumed: the sizes are below the limit (see C43), the compressor inverts itself, no system
call of the *get* fails, and reads from the disk are not cut short. -/
theorem C14_round_trip (cd : Codec) (dg : Digest) (c : PutCall) (hv : c.Valid) (fs : FS) (hw : WF fs) (u : Bytes)
    (hr : Represents cd c.eff c.data u) (hcd : CodecOk cd c.store.compressionType) (hok : (c.run cd fs).1.1 = .ok ())
    (later : List PutCall) (hl : ∀ c' ∈ later, c'.Valid ∧ c'.eff ≠ .asIs ∧ c'.root = c.root)
    (s : Store) (hs : Reachable cd dg s) (hroot : s.root = some c.root) (hm : Matches dg s.digestType c.id u)
    (hcd' : CodecOk cd s.compressionType) (hz : Sizes cd [c.store.compressionType, s.compressionType] u c.data)
    (des : Compression) (env : Nat → Choice) (hn : NoFaults env) (hf : FullReads env) :
    ∃ d e s', exec env 0 (afterPuts cd (c.run cd fs).2 later) (get cd dg s c.id des) =
        ((.ok (d, e), s'), afterPuts cd (c.run cd fs).2 later) ∧
      Represents cd e d u ∧ (des ≠ .asIs → e = des) := by
  obtain ⟨b, hb, hb'⟩ := put_holds cd c hv fs hw u hr (fun _ _ => hcd) hok
  have he : c.eff ≠ .asIs := by
    intro h; rw [h] at hr; exact hr
  have hw' := (put_spec cd c hv fs hw he).1
  have hlen : 1 ≤ b.length ∧ b.length < MAX := by
    rcases hb' with rfl | rfl | rfl
    · exact ⟨hz.posData, hz.ltData⟩
    · exact ⟨hz.pos, hz.lt⟩
    · refine ⟨?_, hz.ltEnc _ (by simp)⟩
      have := hcd.pos u (by intro h; have := hz.pos; subst h; simp at this)
      exact List.length_pos_iff.2 this
  have hall : ∀ (l : List PutCall) (g : FS), WF g → (∀ c' ∈ l, c'.Valid ∧ c'.eff ≠ .asIs ∧ c'.root = c.root) →
      Holds cd g c.root c.id c.saver.finalCompression b u →
      Holds cd (afterPuts cd g l) c.root c.id c.saver.finalCompression b u := by
    intro l
    induction l with
    | nil => intro g _ _ h; exact h
    | cons c' l ih =>
      intro g hg hl h
      obtain ⟨h1, h2, h3⟩ := hl c' List.mem_cons_self
      exact ih _ (put_spec cd c' h1 g hg h2).1 (fun x hx => hl x (List.mem_cons_of_mem _ hx))
        (holds_after_put cd g c.root c.id hv.1 _ b u h c' h1 hg h2 h3)
  obtain ⟨d, e, s', h1, h2, h3⟩ := get_holds cd dg _ c.root c.id _ b u (hall later _ hw' hl hb) s hs hroot hm des (fun _ _ => hcd')
    hlen.1 hlen.2 hz.pos hz.lt (hz.ltEnc _ (by simp)) env hn hf
  exact ⟨d, e, s', h1, h2, fun h => by rw [h3, if_neg h]⟩

/-- **C14** (`ca_store_has`). If no system call fails, asking whether a chunk is in the store says whether one of its two files is
there; after a successful put it is. -/
theorem C14_has_iff (s : Store) (root id : Bytes) (hroot : s.root = some root) (fs : FS) (env : Nat → Choice) (hn : NoFaults env) :
    ∃ b, exec env 0 fs (has s id) = (.ok b, fs) ∧ (b = true ↔ Present fs root id) := by
  have := post_exec (C := fun ch => ch.fail = none) (has s id)
    (Q := fun r g => r = .ok (decide (fs.names (ChunkId.formatPath root id cacnk) ≠ none ∨
      fs.names (ChunkId.formatPath root id []) ≠ none)) ∧ g = fs) fs ?_ env hn 0
  · exact ⟨_, Prod.ext this.1 this.2, by rw [decide_eq_true_iff]; rfl⟩
  · unfold has
    rw [hroot]
    apply post_fileTest
    · exact ⟨rfl, rfl⟩
    · intro ch e h1 h2; rw [h1] at h2; cases h2

/-! ### a put succeeds if nothing fails -/

/-- Same names and capabilities; only file contents differ. -/
def SameNames (fs g : FS) : Prop := g.names = fs.names ∧ g.hasRename2 = fs.hasRename2 ∧ g.hasLink = fs.hasLink

theorem post_loopWrite_ok (i : Nat) (p : Bytes) : ∀ (fs : FS) (Q : Res Unit → FS → Prop),
    (∀ g, SameNames fs g → Q (.ok ()) g) → post ChunkFile.Good (loopWrite i p) Q fs := by
  induction hn : p.length using Nat.strongRecOn generalizing p with
  | _ n ih =>
    intro fs Q hQ
    rw [loopWrite.eq_def]
    by_cases hp : p = []
    · rw [dif_pos hp]; exact hQ fs ⟨rfl, rfl, rfl⟩
    · rw [dif_neg hp]
      intro ch hc
      have hl : 0 < p.length := List.length_pos_iff.2 hp
      have : sem fs (.write i p) ch = (.count (min p.length (max 1 ch.n)),
          { fs with data := fun j => if j = i then fs.data i ++ p.take (min p.length (max 1 ch.n)) else fs.data j }) := by
        unfold sem; rw [hc]; simp [hp]
      rw [this]
      simp only
      refine ih _ ?_ _ rfl _ _ (fun g hg => hQ g hg)
      rw [List.length_drop]; omega

theorem post_saveBlocks_ok (i : Nat) (d : Bytes) : ∀ (cnt : Nat) (fs : FS) (Q : Res Unit → FS → Prop),
    1 ≤ cnt + d.length → cnt + d.length < MAX →
    (∀ g, SameNames fs g → Q (.ok ()) g) → post ChunkFile.Good (saveBlocks i cnt d) Q fs := by
  induction hn : d.length using Nat.strongRecOn generalizing d with
  | _ n ih =>
    intro cnt fs Q h1 h2 hQ
    rw [saveBlocks.eq_def]
    apply post_bind
    apply post_loopWrite_ok
    intro g hg
    have hl : (d.take BUF).length = min BUF d.length := List.length_take
    simp only
    rw [if_neg (by omega)]
    split
    · rename_i hb
      rw [if_neg (by omega)]
      exact hQ g hg
    · rename_i hb
      have hB : 0 < BUF := by simp only [BUF]; omega
      refine ih (d.drop BUF).length (by rw [List.length_drop]; omega) _ rfl _ _ _ ?_ ?_ ?_
      · rw [List.length_drop]; omega
      · rw [List.length_drop]; omega
      · intro g' hg'
        exact hQ g' ⟨hg'.1.trans hg.1, hg'.2.1.trans hg.2.1, hg'.2.2.trans hg.2.2⟩

theorem post_saveData_ok (cd : Codec) (t i : Nat) (eff des : Compression) (p u : Bytes) (hdes : des ≠ .asIs)
    (hr : Represents cd eff p u) (hc : CodecOk cd t) (hz : Sizes cd [t] u p) (fs : FS) (Q : Res Unit → FS → Prop)
    (hQ : ∀ g, SameNames fs g → Q (.ok ()) g) : post ChunkFile.Good (saveData cd t i eff des p) Q fs := by
  have := hz.pos; have := hz.posData; have := hz.lt; have := hz.ltData; have := hz.ltEnc t (by simp)
  unfold saveData
  split
  · exact post_loopWrite_ok i p fs Q hQ
  · rename_i hne
    split
    · rename_i hd
      have hu : p = u := by
        cases eff with
        | uncompressed => exact hr
        | compressed => exact absurd hd hne
        | asIs => exact hr.elim
      subst hu
      unfold saveAndCompressFd
      rw [if_neg (by omega)]
      have hp : 0 < (cd.enc t p).length :=
        List.length_pos_iff.2 (hc.pos p (by intro h; have := hz.pos; subst h; simp at this))
      exact post_saveBlocks_ok i _ 0 fs Q (by omega) (by omega) hQ
    · rename_i hd
      have hu : cd.dec p = .ok u := by
        cases eff with
        | uncompressed => cases des <;> simp_all
        | compressed => exact hr
        | asIs => exact hr.elim
      unfold saveAndDecompressFd
      rw [if_neg (by omega), hu]
      exact post_saveBlocks_ok i _ 0 fs Q (by omega) (by omega) hQ

theorem post_rename_ok (a b : Path) (fs : FS) (i : Nat) (hab : a ≠ b) (ha : fs.names a = some (.file i)) (hb : fs.names b = none)
    (Q : Res Unit → FS → Prop) (hQ : ∀ g, Q (.ok ()) g) : post ChunkFile.Good (renameNoreplace a b) Q fs := by
  unfold renameNoreplace
  intro ch hc
  by_cases h2 : fs.hasRename2 = true
  · have : sem fs (.rename2 a b) ch = (.ok, setName (setName fs b (fs.names a)) a none) := by
      unfold sem; rw [hc]; simp [h2, ha, hb]
    rw [this]; exact hQ _
  · have : sem fs (.rename2 a b) ch = (.err .ENOSYS, fs) := by
      unfold sem; rw [hc]; simp [h2]
    rw [this]
    simp only [unsupported]
    intro ch hc
    by_cases h3 : fs.hasLink = true
    · have : sem fs (.link a b) ch = (.ok, setName fs b (fs.names a)) := by
        unfold sem; rw [hc]; simp [h3, ha, hb]
      rw [this]
      intro ch hc
      have : sem (setName fs b (fs.names a)) (.unlink a) ch =
          (.ok, setName (setName fs b (fs.names a)) a none) := by
        unfold sem; rw [hc]; simp [setName, ha, hab]
      rw [this]; exact hQ _
    · have : sem fs (.link a b) ch = (.err .EOPNOTSUPP, fs) := by
        unfold sem; rw [hc]; simp [h3]
      rw [this]
      intro ch hc
      have : sem fs (.access b) ch = (.err .ENOENT, fs) := by
        unfold sem; rw [hc]; simp [hb]
      rw [this]
      intro ch hc
      have : sem fs (.rename a b) ch = (.ok, setName (setName fs b (fs.names a)) a none) := by
        unfold sem; rw [hc]; simp [ha, hb]
      rw [this]; exact hQ _

theorem sem_creat_ok (fs : FS) (p : Path) (ch : Choice) (hc : ch.fail = none) (hn : fs.names p = none) :
    ∃ g, sem fs (.creat p) ch = (.fd fs.next, g) ∧ g.names = (fun q => if q = p then some (.file fs.next) else fs.names q) := by
  unfold sem; rw [hc]; simp [hn, setName]

/-- A put of a new chunk succeeds if writing its data does. -/
theorem put_ok_of (cd : Codec) (c : PutCall) (hv : c.Valid) (fs : FS)
    (hroot : c.store.root ≠ none ∨ c.store.isCache = true) (he : c.eff ≠ .asIs) (hdata : c.data ≠ [])
    (hsave : ∀ (i : Nat) (f : FS) (Q : Res Unit → FS → Prop), (∀ g, SameNames f g → Q (.ok ()) g) →
      post ChunkFile.Good (saveData cd c.store.compressionType i c.eff
        (if c.store.compression = .asIs then c.eff else c.store.compression) c.data) Q f)
    (hp : ¬ Present fs c.root c.id)
    (ht : fs.names (ChunkId.formatPath c.root c.id c.tmp) = none) (hn : NoFaults c.env) :
    (c.run cd fs).1.1 = .ok () := by
  refine post_exec (C := ChunkFile.Good) _ (Q := fun (r : Res Unit × Store) _ => r.1 = .ok ()) fs ?_ c.env hn 0
  apply post_put
  · intro g hg
    have hp' : ¬ Present g c.root c.id := by
      unfold Present
      rw [(hg.names _ (path_ne_root c.root c.id cacnk hv.1)).1, (hg.names _ (path_ne_root c.root c.id [] hv.1)).1]
      exact hp
    have ht' : g.names (ChunkId.formatPath c.root c.id c.tmp) = none := by
      rw [(hg.names _ (path_ne_root c.root c.id c.tmp hv.1)).1]; exact ht
    show post ChunkFile.Good (fileSave cd c.root c.id c.eff c.store.compression c.store.compressionType c.tmp c.data) _ g
    unfold fileSave
    rw [if_neg he, if_neg hdata]
    apply post_bind
    apply post_fileTest
    · have : (decide (g.names (ChunkId.formatPath c.root c.id cacnk) ≠ none ∨
          g.names (ChunkId.formatPath c.root c.id []) ≠ none)) = false := decide_eq_false hp'
      rw [this]
      simp only
      apply post_bind
      -- creating the temporary file
      have hrest : ∀ (f : FS) (i : Nat), f.names (ChunkId.formatPath c.root c.id c.tmp) = some (.file i) →
          f.names (ChunkId.formatPath c.root c.id (if (if c.store.compression = .asIs then c.eff else c.store.compression) = .compressed then cacnk else [])) = none →
          ∀ (e : Errno → Prog (Res Unit)),
          post ChunkFile.Good (Prog.bind (saveData cd c.store.compressionType i c.eff (if c.store.compression = .asIs then c.eff else c.store.compression) c.data) fun
            | .err e' => e e'
            | .ub => .ret .ub
            | .ok () => Prog.bind (renameNoreplace (ChunkId.formatPath c.root c.id c.tmp)
                    (ChunkId.formatPath c.root c.id (if (if c.store.compression = .asIs then c.eff else c.store.compression) = .compressed then cacnk else []))) fun
                  | .err e' => e e'
                  | .ub => .ret .ub
                  | .ok () => .ret (.ok ())) (fun r _ => ∀ s' : Store, s'.root = some c.root → (r, s').1 = Res.ok ()) f := by
        intro f i h1 h2 e
        apply post_bind
        refine hsave i f _ ?_
        · intro g' hg'
          simp only
          apply post_bind
          refine post_rename_ok _ _ g' i ?_ ?_ ?_ _ ?_
          · intro h
            have := (formatPath_suffix _ _ _ _ _ hv.1 hv.1 h).1
            by_cases hq : (if c.store.compression = .asIs then c.eff else c.store.compression) = .compressed
            · rw [if_pos hq] at this; exact hv.2.2 this
            · rw [if_neg hq] at this; exact hv.2.1 this
          · rw [hg'.1]; exact h1
          · rw [hg'.1]; exact h2
          · intro _ s' _; rfl
      have hfin : ∀ f : FS, (∀ p, p ≠ dirOf c.root c.id → f.names p = g.names p) → ∀ ch : Choice, ch.fail = none → ∃ f',
          sem f (.creat (ChunkId.formatPath c.root c.id c.tmp)) ch = (.fd f.next, f') ∧
          f'.names (ChunkId.formatPath c.root c.id c.tmp) = some (.file f.next) ∧
          f'.names (ChunkId.formatPath c.root c.id (if (if c.store.compression = .asIs then c.eff else c.store.compression) = .compressed then cacnk else [])) = none := by
        intro f hf ch hc
        obtain ⟨f', h1, h2⟩ := sem_creat_ok f _ ch hc ((hf _ (formatPath_ne_dirOf _ _ _ _ hv.1 hv.1)).trans ht')
        refine ⟨f', h1, by rw [h2]; simp, ?_⟩
        rw [h2]
        have hne : ChunkId.formatPath c.root c.id (if (if c.store.compression = .asIs then c.eff else c.store.compression) = .compressed then cacnk else []) ≠
            ChunkId.formatPath c.root c.id c.tmp := by
          intro h
          have := (formatPath_suffix _ _ _ _ _ hv.1 hv.1 h).1
          by_cases hq : (if c.store.compression = .asIs then c.eff else c.store.compression) = .compressed
          · rw [if_pos hq] at this; exact hv.2.2 this.symm
          · rw [if_neg hq] at this; exact hv.2.1 this.symm
        simp only [if_neg hne]
        rw [hf _ (formatPath_ne_dirOf _ _ _ _ hv.1 hv.1)]
        by_cases hq : (if c.store.compression = .asIs then c.eff else c.store.compression) = .compressed
        · rw [if_pos hq]; exact Classical.not_not.1 (fun h => hp' (Or.inl h))
        · rw [if_neg hq]; exact Classical.not_not.1 (fun h => hp' (Or.inr h))
      unfold fileCreate
      intro ch hc
      rcases sem_mkdir g (dirOf c.root c.id) ch with ⟨e, hf, _⟩ | ⟨_, hn', h⟩ | ⟨_, hn', h⟩
      · rw [hc] at hf; cases hf
      · rw [h]
        intro ch hc
        obtain ⟨f', a1, a2, a3⟩ := hfin (setName g (dirOf c.root c.id) (some .dir)) (fun p hp => by simp [setName, hp]) ch hc
        rw [a1]
        exact hrest f' _ a2 a3 _
      · rw [h]
        intro ch hc
        obtain ⟨f', a1, a2, a3⟩ := hfin g (fun p _ => rfl) ch hc
        rw [a1]
        exact hrest f' _ a2 a3 _
    · intro ch e h1 h2; rw [h1] at h2; cases h2
  · intro h1 h2
    rcases hroot with h | h
    · exact absurd h1 h
    · rw [h2] at h; cases h
  · intro ch e s' h1 h2; rw [h1] at h2; cases h2

/-- **C14** (puts succeed). A put of a new chunk succeeds if no system call fails, whatever the file system supports, provided the
temporary name is free and the sizes are below the limit. -/
theorem C14_put_succeeds (cd : Codec) (c : PutCall) (hv : c.Valid) (fs : FS) (u : Bytes)
    (hroot : c.store.root ≠ none ∨ c.store.isCache = true)
    (hr : Represents cd c.eff c.data u) (hcd : CodecOk cd c.store.compressionType)
    (hz : Sizes cd [c.store.compressionType] u c.data) (hp : ¬ Present fs c.root c.id)
    (ht : fs.names (ChunkId.formatPath c.root c.id c.tmp) = none) (hn : NoFaults c.env) :
    (c.run cd fs).1.1 = .ok () := by
  have he : c.eff ≠ .asIs := by
    intro h; rw [h] at hr; exact hr
  have hdata : c.data ≠ [] := by
    intro h; have := hz.posData; rw [h] at this; simp at this
  refine put_ok_of cd c hv fs hroot he hdata ?_ hp ht hn
  intro i f Q hQ
  refine post_saveData_ok cd _ i c.eff _ c.data u ?_ hr hcd hz f Q hQ
  split
  · exact he
  · assumption

/-! ### C43: sizes -/

/-- **C43**, the part that holds of a local store: every chunk that is shorter than 128 MiB, in both forms, is accepted by the
store and can be read back. -/
theorem C43_below_limit_partial (cd : Codec) (dg : Digest) (c : PutCall) (hv : c.Valid) (fs : FS) (hw : WF fs) (u : Bytes)
    (hroot : c.store.root = some c.root) (hs : Reachable cd dg c.store)
    (hr : Represents cd c.eff c.data u) (hcd : CodecOk cd c.store.compressionType) (hm : Matches dg c.store.digestType c.id u)
    (hz : Sizes cd [c.store.compressionType] u c.data) (hp : ¬ Present fs c.root c.id)
    (ht : fs.names (ChunkId.formatPath c.root c.id c.tmp) = none) (hn : NoFaults c.env) (hf : FullReads c.env) (des : Compression) :
    (c.run cd fs).1.1 = .ok () ∧
    ∃ d e s', exec c.env 0 (c.run cd fs).2 (get cd dg c.store c.id des) = ((.ok (d, e), s'), (c.run cd fs).2) ∧
      Represents cd e d u := by
  have hok := C14_put_succeeds cd c hv fs u (Or.inl (by rw [hroot]; simp)) hr hcd hz hp ht hn
  refine ⟨hok, ?_⟩
  have hz2 : Sizes cd [c.store.compressionType, c.store.compressionType] u c.data :=
    ⟨hz.pos, hz.posData, hz.lt, hz.ltData, fun t ht => hz.ltEnc t (by simpa using ht)⟩
  obtain ⟨d, e, s', h1, h2, _⟩ := C14_round_trip cd dg c hv fs hw u hr hcd hok [] (fun _ h => by cases h) c.store hs hroot hm hcd hz2 des
    c.env hn hf
  exact ⟨d, e, s', h1, h2⟩

theorem get_loaded_err (cd : Codec) (dg : Digest) (fs : FS) (root id : Bytes) (fc : Compression) (b u : Bytes) (h : Holds cd fs root id fc b u)
    (s : Store) (hroot : s.root = some root) (des : Compression)
    (hl : (∃ e, loaded cd s.compressionType des fc b = .err e) ∨
      (∃ d e, loaded cd s.compressionType des fc b = .ok d ∧ (if des = .asIs then fc else des) = .compressed ∧ decompress cd d = .err e))
    (env : Nat → Choice) (hn : NoFaults env) (hf : FullReads env) :
    ∃ e s', exec env 0 fs (get cd dg s id des) = ((.err e, s'), fs) := by
  obtain ⟨i, hi, hd⟩ := content_some h.file
  have hx : ∀ t, Full (env t) := fun t => ⟨hn t, hf t⟩
  have := post_exec (C := Full) (get cd dg s id des) (Q := fun (r : Res (Bytes × Compression) × Store) g => (∃ e s', r = (.err e, s')) ∧ g = fs) fs ?_ env hx 0
  · obtain ⟨⟨e, s', h1⟩, h2⟩ := this
    exact ⟨e, s', Prod.ext h1 h2⟩
  · unfold get
    rw [hroot]
    simp only
    apply post_bind
    refine post_fileLoad cd root id des fc s.compressionType fs i h.ne hi h.other _ ?_
    rw [hd]
    rcases hl with ⟨e, hl⟩ | ⟨d, e, hl, h1, h2⟩
    · rw [hl]; exact ⟨⟨_, _, rfl⟩, rfl⟩
    · rw [hl]
      refine ⟨⟨e, s, ?_⟩, rfl⟩
      unfold finish
      simp only
      rw [if_pos h1, h2]

/-- **C43 is false of the code**: a chunk of exactly 128 MiB, which the chunker and the index accept, is accepted by every store
(if its compressed form, where needed, is below the limit), and can never be read back from it, with any desired compression.
The hypotheses are those of a put into a working store. -/
theorem C43_limit_violated (cd : Codec) (dg : Digest) (c : PutCall) (hv : c.Valid) (fs : FS) (hw : WF fs)
    (hroot : c.store.root = some c.root) (he : c.eff = .uncompressed) (hlen : c.data.length = MAX)
    (hcd : CodecOk cd c.store.compressionType) (hz : (cd.enc c.store.compressionType c.data).length < MAX)
    (hp : ¬ Present fs c.root c.id)
    (ht : fs.names (ChunkId.formatPath c.root c.id c.tmp) = none) (hn : NoFaults c.env) (hf : FullReads c.env) (des : Compression) :
    (c.run cd fs).1.1 = .ok () ∧
    ∃ e s', exec c.env 0 (c.run cd fs).2 (get cd dg c.store c.id des) = ((.err e, s'), (c.run cd fs).2) := by
  have hM : 0 < MAX := by simp only [MAX]; omega
  have hdata : c.data ≠ [] := by
    intro h; rw [h] at hlen; simp only [List.length_nil] at hlen; omega
  have hpos : 0 < (cd.enc c.store.compressionType c.data).length := List.length_pos_iff.2 (hcd.pos _ hdata)
  have hne : (if c.store.compression = .asIs then c.eff else c.store.compression) ≠ .asIs := by
    rw [he]; split
    · simp
    · assumption
  have hok : (c.run cd fs).1.1 = .ok () := by
    refine put_ok_of cd c hv fs (Or.inl (by rw [hroot]; simp)) (by rw [he]; simp) hdata ?_ hp ht hn
    intro i f Q hQ
    rw [he] at hne ⊢
    revert hne
    generalize (if c.store.compression = .asIs then Compression.uncompressed else c.store.compression) = X
    intro hne
    unfold saveData
    cases X with
    | asIs => exact absurd rfl hne
    | uncompressed => exact post_loopWrite_ok i _ f Q hQ
    | compressed =>
      rw [if_neg (by simp), if_pos rfl]
      unfold saveAndCompressFd
      rw [if_neg (by omega)]
      exact post_saveBlocks_ok i _ 0 f Q (by omega) (by omega) hQ
  refine ⟨hok, ?_⟩
  have hr : Represents cd c.eff c.data c.data := by rw [he]; rfl
  have hfr := put_spec cd c hv fs hw (by rw [he]; simp)
  obtain ⟨⟨b, hb, hcont⟩, _, _⟩ := hfr.2.2 hok
  obtain ⟨b', hb', _⟩ := put_holds cd c hv fs hw c.data hr (fun _ _ => hcd) hok
  have hbb : b' = b := by
    have h1 := hb'.file
    have h2 : content (c.run cd fs).2 (ChunkId.formatPath c.root c.id (sufOf c.saver.finalCompression)) = some b := hcont
    rw [h2] at h1
    exact (Option.some.inj h1).symm
  subst hbb
  refine get_loaded_err cd dg _ c.root c.id _ b' c.data hb' c.store hroot des ?_ c.env hn hf
  have hrep := hb'.repr
  have hfc := hb'.ne
  have hcomp : c.saver.complete cd = .ok b' := hb
  unfold Saver.complete at hcomp
  rw [show c.saver.eff = .uncompressed from he] at hcomp
  revert hrep hfc hcomp
  generalize c.saver.finalCompression = fc
  intro hrep hfc hcomp
  cases fc with
  | asIs => exact absurd rfl hfc
  | uncompressed =>
    have hb1 : b' = c.data := hrep
    left
    unfold loaded
    rw [if_neg (by simp)]
    split
    · exact ⟨_, by rw [if_pos (by rw [hb1]; omega)]⟩
    · exact ⟨_, by rw [if_pos (by rw [hb1]; omega)]⟩
  | compressed =>
    have hb1 : cd.enc c.store.compressionType c.data = b' := Res.ok.inj hcomp
    have hdec : cd.dec b' = .ok c.data := hrep
    unfold loaded
    by_cases h1 : des = .uncompressed
    · left
      rw [if_pos ⟨h1, rfl⟩, if_neg (by rw [← hb1]; omega), if_neg (by intro h; rw [← hb1] at h; rw [h] at hpos; simp at hpos), hdec]
      simp only
      exact ⟨_, by rw [if_pos (by omega)]⟩
    · right
      rw [if_neg (fun h => h1 h.1), if_neg (by simp), if_neg (by rw [← hb1]; omega)]
      refine ⟨b', .EINVAL, rfl, ?_, ?_⟩
      · cases des <;> simp_all
      · unfold decompress
        rw [if_neg (by rw [← hb1]; omega), hdec]
        simp only
        rw [if_pos (by omega)]

/-! ### non-vacuity -/

/-- An empty disk. -/
def emptyFS : FS := ⟨fun _ => none, fun _ => [], 0, true, true⟩
/-- A codec that adds a byte. -/
def plainCodec : Codec := ⟨fun _ d => 0 :: d, fun d => match d with | 0 :: d => .ok d | _ => .err .EBADMSG⟩
theorem plainCodec_ok (t : Nat) : CodecOk plainCodec t := ⟨fun _ => rfl, fun _ _ h => by cases h⟩
/-- A store at "/s" with no digest configured. -/
def exStore : Store := { new with root := some [47, 115, 47] }
theorem exStore_reachable (cd : Codec) (dg : Digest) : Reachable cd dg exStore :=
  .setPath (path := [47, 115]) .new rfl
def exCall : PutCall :=
  ⟨exStore, [], List.replicate 32 7, .uncompressed, [46, 120], [1, 2, 3], fun _ => ⟨none, BUF⟩⟩
def exDigest : Digest := fun _ _ => List.replicate 32 7
theorem exSizes : Sizes plainCodec [compressionDefault] [1, 2, 3] [1, 2, 3] :=
  ⟨by decide, by decide, by decide, by decide, fun _ _ => by simp only [plainCodec, MAX, List.length_cons, List.length_nil]; omega⟩

/-- A put into an empty store that meets all hypotheses, and succeeds, so that the chunk can be read back, in any form. -/
example (des : Compression) : (exCall.run plainCodec emptyFS).1.1 = .ok () ∧
    ∃ d e s', exec exCall.env 0 (exCall.run plainCodec emptyFS).2 (get plainCodec exDigest exStore exCall.id des) =
      ((.ok (d, e), s'), (exCall.run plainCodec emptyFS).2) ∧ Represents plainCodec e d [1, 2, 3] :=
  C43_below_limit_partial plainCodec exDigest exCall ⟨by decide, by decide, by decide⟩ emptyFS (fun _ _ h => by cases h) [1, 2, 3]
    rfl (exStore_reachable _ _) rfl (plainCodec_ok _) (Or.inl rfl) exSizes (by rintro (h | h) <;> exact h rfl) rfl (fun _ => rfl)
    (fun _ => Nat.le_refl _) des

/-- A chunk of exactly the limit. -/
def bigChunk : Bytes := List.replicate MAX 0
/-- A codec that compresses it well. -/
def shrink : Codec :=
  ⟨fun _ d => if d = bigChunk then [1] else 0 :: d,
   fun d => if d = [1] then .ok bigChunk else match d with | 0 :: d => .ok d | _ => .err .EBADMSG⟩
theorem shrink_ok (t : Nat) : CodecOk shrink t := by
  refine ⟨fun d => ?_, fun d _ h => ?_⟩
  · by_cases h : d = bigChunk
    · simp only [shrink, if_pos h, if_true]; rw [h]
    · simp only [shrink, if_neg h]
      rw [if_neg (fun h' => by cases h')]
  · simp only [shrink] at h
    split at h <;> cases h
def exBig : PutCall := { exCall with data := bigChunk }

/-- The hypotheses of `C43_limit_violated` are met by a put into an empty store. -/
example (des : Compression) : (exBig.run shrink emptyFS).1.1 = .ok () ∧
    ∃ e s', exec exBig.env 0 (exBig.run shrink emptyFS).2 (get shrink exDigest exBig.store exBig.id des) =
      ((.err e, s'), (exBig.run shrink emptyFS).2) :=
  C43_limit_violated shrink exDigest exBig ⟨rfl, fun h => (by cases h), fun h => (by cases h)⟩ emptyFS (fun _ _ h => by cases h) rfl rfl
    (List.length_replicate) (shrink_ok _) (by
      have : exBig.data = bigChunk := rfl
      simp only [shrink, this, if_true, List.length_singleton, MAX]; omega)
    (by rintro (h | h) <;> exact h rfl) rfl (fun _ => rfl) (fun _ => Nat.le_refl _) des

/-- Infinitely many concurrent writers of the same chunk that meet the hypotheses of `C15_chunk_concurrent`. -/
def exSavers (j : Nat) : Saver := ⟨List.replicate 32 7, .uncompressed, .compressed, 0, 46 :: List.replicate (j + 6) 120, [1, 2, 3]⟩
example : (∀ j, (exSavers j).Valid) ∧ (∀ j, (exSavers j).eff ≠ .asIs) ∧
    (∀ i j, i ≠ j → (exSavers i).temp [47] ≠ (exSavers j).temp [47]) ∧ WF emptyFS ∧
    (∀ j, emptyFS.names ((exSavers j).temp [47]) = none) := by
  refine ⟨fun j => ⟨rfl, fun h => (by cases h), fun h => ?_⟩, fun j h => (by cases h), fun i j hij h => ?_, fun _ _ h => (by cases h), fun _ => rfl⟩
  · have := congrArg List.length h
    simp [exSavers, cacnk] at this
  · have := congrArg List.length (formatPath_suffix [47] _ _ _ _ rfl rfl h).1
    simp [exSavers] at this
    exact hij this

end Casync.Store
