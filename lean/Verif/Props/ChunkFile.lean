import Verif.Lemmas.ChunkFileSave
import Verif.Props.ChunkId
/-!
C15 (chunk files): a crash never leaves a partial file under its final name, also with concurrent writers.
-/
namespace Casync.ChunkFile
open Casync Os

/-- One call of `ca_chunk_file_save` on the store at `pre`. -/
structure Saver where
  id : Bytes
  eff : Compression
  des : Compression
  algorithm : Nat
  tmp : Bytes
  data : Bytes

namespace Saver
variable (s : Saver)
/-- The compression the chunk is stored with. -/
def finalCompression : Compression := if s.des = .asIs then s.eff else s.des
/-- The final name. -/
def final (pre : Bytes) : Path :=
  ChunkId.formatPath pre s.id (if s.finalCompression = .compressed then cacnk else [])
/-- The temporary name. -/
def temp (pre : Bytes) : Path := ChunkId.formatPath pre s.id s.tmp
/-- The complete contents of the file: the data as it is, compressed, or decompressed. -/
def complete (cd : Codec) : Res Bytes :=
  match s.eff, s.finalCompression with
  | .uncompressed, .compressed => .ok (cd.enc s.algorithm s.data)
  | .compressed, .uncompressed => cd.dec s.data
  | _, _ => .ok s.data
/-- The program. -/
def prog (cd : Codec) (pre : Bytes) : Prog (Res Unit) := fileSave cd pre s.id s.eff s.des s.algorithm s.tmp s.data
/-- The id has 32 bytes; the temporary suffix (".<random>.tmp") is neither empty nor ".cacnk". -/
def Valid : Prop := s.id.length = 32 ∧ s.tmp ≠ [] ∧ s.tmp ≠ cacnk
end Saver

theorem format_length : ∀ id : Bytes, (ChunkId.format id).length = 2 * id.length
  | [] => rfl
  | _ :: bs => by simp [ChunkId.format, format_length bs]; omega

theorem formatPath_length (pre id suf : Bytes) (h : id.length = 32) :
    (ChunkId.formatPath pre id suf).length = pre.length + 69 + suf.length := by
  simp [ChunkId.formatPath, format_length, h]; omega

theorem dirOf_length (pre id : Bytes) (h : id.length = 32) : (dirOf pre id).length = pre.length + 4 := by
  simp [dirOf, format_length, h]

theorem formatPath_ne_dirOf (pre id suf id' : Bytes) (h : id.length = 32) (h' : id'.length = 32) :
    ChunkId.formatPath pre id suf ≠ dirOf pre id' := by
  intro he
  have := congrArg List.length he
  rw [formatPath_length _ _ _ h, dirOf_length _ _ h'] at this
  omega

theorem formatPath_suffix (pre id suf id' suf' : Bytes) (h : id.length = 32) (h' : id'.length = 32)
    (he : ChunkId.formatPath pre id suf = ChunkId.formatPath pre id' suf') : suf = suf' ∧ ChunkId.format id = ChunkId.format id' := by
  simp only [ChunkId.formatPath, List.append_cancel_left_eq] at he
  have l1 : ((ChunkId.format id).take 4).length = ((ChunkId.format id').take 4).length := by
    simp [format_length, h, h']
  have h1 := List.append_inj he l1
  have h2 := (List.cons.inj h1.2).2
  have l2 : (ChunkId.format id).length = (ChunkId.format id').length := by simp [format_length, h, h']
  have h3 := List.append_inj h2 l2
  exact ⟨h3.2, h3.1⟩

theorem complete_eq_stored (cd : Codec) (s : Saver) (h : s.eff ≠ .asIs) :
    s.complete cd = stored cd s.algorithm s.eff s.finalCompression s.data := by
  unfold Saver.complete stored Saver.finalCompression
  cases h1 : s.eff <;> cases h2 : s.des <;> simp_all

/-- The parameters of the proof. -/
def Saver.par (s : Saver) (busy : Prop) (n0 : Nat) (pre : Bytes) (complete : Bytes) (hv : s.Valid) : Par where
  busy := busy
  n0 := n0
  t := s.temp pre
  fin := s.final pre
  dir := dirOf pre s.id
  complete := complete
  tf := by
    intro h
    have := (formatPath_suffix pre s.id _ s.id _ hv.1 hv.1 h).1
    split at this
    · exact hv.2.2 this
    · exact hv.2.1 this
  td := formatPath_ne_dirOf _ _ _ _ hv.1 hv.1
  fd := formatPath_ne_dirOf _ _ _ _ hv.1 hv.1

/-- `C` gives the complete contents of every saver that has some. -/
def Fits (cd : Codec) (C : Saver → Bytes) : Prop :=
  ∀ (s : Saver) (b : Bytes), stored cd s.algorithm s.eff s.finalCompression s.data = .ok b → b = C s

/-- Contents for a saver, with a default if decompression fails (then nothing is ever installed). -/
def contents (cd : Codec) (dflt : Bytes) (s : Saver) : Bytes :=
  match stored cd s.algorithm s.eff s.finalCompression s.data with
  | .ok b => b
  | _ => dflt

theorem fits_contents (cd : Codec) (dflt : Bytes) : Fits cd (contents cd dflt) := by
  intro s b hb
  unfold contents; rw [hb]

theorem Saver.wp (s : Saver) (cd : Codec) (C : Saver → Bytes) (hC : Fits cd C) (busy : Prop) (n0 : Nat) (pre : Bytes)
    (hv : s.Valid) (fs : FS) (hw : WF fs) (hn : n0 ≤ fs.next) :
    Os.wp (s.par busy n0 pre (C s) hv).R (s.par busy n0 pre (C s) hv).G (s.prog cd pre)
      (fun r fs' => r = .ok () → (s.par busy n0 pre (C s) hv).Done fs') fs :=
  wp_fileSave (s.par busy n0 pre (C s) hv) cd pre s.id s.eff s.des s.algorithm s.tmp s.data rfl rfl rfl
    (fun b hb => hC s b hb) fs ⟨hw, hn⟩

/-- How the contents of a name may differ from the beginning. -/
def Inv (nocaps : Prop) (pre : Bytes) (C : Saver → Bytes) (S : Saver → Prop) (fs0 fs : FS) (p : Path) : Prop :=
  (content fs p = content fs0 p ∧ ∀ i, fs.names p = some (.file i) → fs0.names p = some (.file i)) ∨
  (∃ s, S s ∧ p = s.final pre ∧ content fs p = some (C s) ∧ (content fs0 p = none ∨ nocaps))

theorem Inv_step {nocaps busy : Prop} {pre : Bytes} {C : Saver → Bytes} {S : Saver → Prop} {fs0 fs fs' : FS} {p : Path}
    (hn : busy → fs.hasRename2 = false → fs.hasLink = false → nocaps) (hl : fs.hasLink = true → ¬ nocaps)
    (hw : WF fs0) (s : Saver) (hs : S s)
    (h : Inv nocaps pre C S fs0 fs p)
    (hc : Change busy fs0.next (s.temp pre) (s.final pre) (dirOf pre s.id) (C s) fs fs' p) : Inv nocaps pre C S fs0 fs' p := by
  cases hc with
  | same h1 h2 =>
    rcases h with ⟨h3, h4⟩ | ⟨s', hs', h3, h4, h5⟩
    · exact Or.inl ⟨h2.trans h3, fun i hi => h4 i (h1 ▸ hi)⟩
    · exact Or.inr ⟨s', hs', h3, h2.trans h4, h5⟩
  | dir _ hd =>
    have c1 : content fs p = none := by
      rcases hd.1 with h | h <;> simp [content, h]
    have c2 : content fs' p = none := by
      rcases hd.2 with h | h <;> simp [content, h]
    rcases h with ⟨h3, h4⟩ | ⟨s', hs', h3, h4, h5⟩
    · refine Or.inl ⟨c2.trans (c1.symm.trans h3), ?_⟩
      intro i hi
      rcases hd.2 with h | h <;> rw [h] at hi <;> cases hi
    · rw [c1] at h4; cases h4
  | install hp h1 h2 h3 h4 =>
    refine Or.inr ⟨s, hs, hp, h2, ?_⟩
    rcases h4 with h4 | ⟨hb, hr2, hlk⟩
    · have c1 : content fs p = none := by simp [content, h4]
      rcases h with ⟨h5, _⟩ | ⟨s', hs', h5, h6, h7⟩
      · exact Or.inl (h5.symm.trans c1)
      · rw [c1] at h6; cases h6
    · exact Or.inr (hn hb hr2 hlk)
  | takeBack hp hlk i hi ht h1 h2 =>
    have c2 : content fs' p = none := by simp [content, h2]
    rcases h with ⟨h3, h4⟩ | ⟨s', hs', h3, h4, h5⟩
    · have := hw p i (h4 i h1)
      omega
    · rcases h5 with h5 | h5
      · exact Or.inl ⟨c2.trans h5.symm, fun j hj => by rw [h2] at hj; cases hj⟩
      · exact absurd h5 (hl hlk)

theorem Inv_both {nocaps : Prop} {pre : Bytes} {cd : Codec} {S : Saver → Prop} {fs0 fs : FS} {p : Path}
    (h0 : Inv nocaps pre (contents cd []) S fs0 fs p) (h1 : Inv nocaps pre (contents cd [0]) S fs0 fs p) :
    content fs p = content fs0 p ∨
    (∃ s, S s ∧ p = s.final pre ∧
      (∃ b, stored cd s.algorithm s.eff s.finalCompression s.data = .ok b ∧ content fs p = some b) ∧
      (content fs0 p = none ∨ nocaps)) := by
  rcases h0 with ⟨h, _⟩ | ⟨s, hs, a1, a2, a3⟩
  · exact Or.inl h
  rcases h1 with ⟨h, _⟩ | ⟨s', hs', b1, b2, b3⟩
  · exact Or.inl h
  cases h2 : stored cd s.algorithm s.eff s.finalCompression s.data with
  | ok b => exact Or.inr ⟨s, hs, a1, ⟨b, h2, by rw [a2, contents, h2]⟩, a3⟩
  | _ =>
    cases h3 : stored cd s'.algorithm s'.eff s'.finalCompression s'.data with
    | ok b => exact Or.inr ⟨s', hs', b1, ⟨b, h3, by rw [b2, contents, h3]⟩, b3⟩
    | _ =>
      rw [a2, contents, contents, h2, h3] at b2
      cases b2

/-- **C15** (chunk files, one writer): stop a save after any number of system calls, with any system call failing in any
way and any partial writes, on a file system with or without `renameat2` and `linkat`. Then every name except the temporary
one refers to the same contents as before, or it is the final name of the chunk, which did not refer to a file before
and now has exactly the complete contents. -/
theorem C15_chunk_crash (cd : Codec) (pre : Bytes) (s : Saver) (hv : s.Valid) (he : s.eff ≠ .asIs) (fs fs' : FS) (hw : WF fs)
    (choices : List Choice) (P' : Prog (Res Unit)) (hr : runFor choices fs (s.prog cd pre) = (fs', P')) (p : Path)
    (hp : p ≠ s.temp pre) :
    content fs' p = content fs p ∨
    (p = s.final pre ∧ content fs p = none ∧ ∃ b, s.complete cd = .ok b ∧ content fs' p = some b) := by
  have key : ∀ d, Inv False pre (contents cd d) (fun s' => s' = s) fs fs' p := by
    intro d
    have hwp := s.wp cd _ (fits_contents cd d) False fs.next pre hv fs hw (Nat.le_refl _)
    exact (wp_runFor (fun f => ⟨⟨rfl, rfl, Nat.le_refl _, id, fun i h => ⟨h, rfl, fun _ => Iff.rfl⟩⟩, fun _ => rfl⟩)
      (fun f => Inv False pre (contents cd d) (fun s' => s' = s) fs f p)
      (by
        intro f f' hI hG
        exact Inv_step (busy := False) (fun h => h.elim) (fun _ h => h) hw s rfl hI (hG.others p hp))
      _ _ fs hwp (Or.inl ⟨rfl, fun _ h => h⟩) choices fs' P' hr).1
  rcases Inv_both (key []) (key [0]) with h | ⟨s', rfl, h1, ⟨b, hb, h2⟩, h3⟩
  · exact Or.inl h
  · rcases h3 with h3 | h3
    · exact Or.inr ⟨h1, h3, b, by rw [complete_eq_stored cd s' he, hb], h2⟩
    · exact h3.elim

/-! ## Concurrent writers -/

theorem rely_trans {t : Path} {a b c : FS} (h : Rely t a b) (g : Rely t b c) : Rely t a c := by
  refine ⟨g.rename2.trans h.rename2, g.link.trans h.link, Nat.le_trans h.next g.next, fun w => g.wf (h.wf w), ?_⟩
  intro i hi
  obtain ⟨h1, h2, h3⟩ := h.own i hi
  obtain ⟨g1, g2, g3⟩ := g.own i h1
  exact ⟨g1, g2.trans h2, fun p => (g3 p).trans (h3 p)⟩

theorem wp_stable {α : Type} {R G : FS → FS → Prop} (hR : ∀ a b c, R a b → R b c → R a c) (P : Prog α) (fs fs' : FS)
    (h : Os.wp R G P (fun _ _ => True) fs) (hr : R fs fs') : Os.wp R G P (fun _ _ => True) fs' := by
  cases P with
  | ret a => exact True.intro
  | call c k =>
    intro f1 h1 ch
    exact h f1 (hR _ _ _ hr h1) ch

/-- The inode of a temporary file has no other name, except for the final name if `linkat` works. -/
def Excl (pre : Bytes) (s : Saver) (fs : FS) : Prop :=
  ∀ i, fs.names (s.temp pre) = some (.file i) → ∀ p, fs.names p = some (.file i) →
    p = s.temp pre ∨ (fs.hasLink = true ∧ p = s.final pre)

theorem temp_ne_final (pre : Bytes) (s s' : Saver) (hv : s.Valid) (hv' : s'.Valid) : s.temp pre ≠ s'.final pre := by
  intro h
  have := (formatPath_suffix pre s.id _ s'.id _ hv.1 hv'.1 h).1
  split at this
  · exact hv.2.2 this
  · exact hv.2.1 this

/-- A step of one saver is harmless interference for another. -/
theorem guarantee_rely {pre : Bytes} {n0 : Nat} {busy : Prop} {c : Bytes} {s s' : Saver} (hv : s.Valid) (hv' : s'.Valid)
    (hne : s.temp pre ≠ s'.temp pre) {fs fs' : FS} (hw : WF fs) (hx : Excl pre s fs)
    (hg : Guarantee busy n0 (s'.temp pre) (s'.final pre) (dirOf pre s'.id) c fs fs') : Rely (s.temp pre) fs fs' := by
  refine ⟨hg.rename2, hg.link, hg.next, hg.wf, ?_⟩
  intro i hi
  have hsame : fs'.names (s.temp pre) = fs.names (s.temp pre) ∧ content fs' (s.temp pre) = content fs (s.temp pre) := by
    cases hg.others _ hne with
    | same h1 h2 => exact ⟨h1, h2⟩
    | dir _ hd => rcases hd.1 with h | h <;> rw [h] at hi <;> cases hi
    | install hp => exact absurd hp (temp_ne_final pre s s' hv hv')
    | takeBack hp => exact absurd hp (temp_ne_final pre s s' hv hv')
  have hi' : fs'.names (s.temp pre) = some (.file i) := hsame.1.trans hi
  refine ⟨hi', ?_, ?_⟩
  · have := hsame.2
    simp only [content, hi, hi'] at this
    exact Option.some.inj this
  · intro p
    have hdist : fs.names (s'.temp pre) ≠ some (.file i) := by
      intro h
      rcases hx i hi _ h with h | ⟨_, h⟩
      · exact hne h.symm
      · exact temp_ne_final pre s' s hv' hv h
    by_cases hpt : p = s'.temp pre
    · subst hpt
      constructor
      · intro h
        rcases hg.temp with h' | h' | ⟨_, h'⟩
        · rw [h'] at h; exact h
        · rw [h'] at h; cases h
        · rw [h'] at h
          have := hw _ _ hi
          cases h
          omega
      · intro h; exact absurd h hdist
    · cases hg.others p hpt with
      | same h1 h2 => rw [h1]
      | dir _ hd =>
        constructor
        · intro h; rcases hd.2 with h' | h' <;> rw [h'] at h <;> cases h
        · intro h; rcases hd.1 with h' | h' <;> rw [h'] at h <;> cases h
      | install hp hn hc hl ho =>
        constructor
        · intro h; rw [hn] at h; exact absurd h hdist
        · intro h
          rcases ho with ho | ⟨_, _, ho⟩
          · rw [ho] at h; cases h
          · rcases hx i hi p h with h | ⟨h', _⟩
            · subst h; exact absurd hp (temp_ne_final pre s s' hv hv')
            · rw [ho] at h'; cases h'
      | takeBack hp _ j hj ht hn hn' =>
        constructor
        · intro h; rw [hn'] at h; cases h
        · intro h
          rw [hn] at h
          cases h
          exact absurd ht hdist

theorem excl_self {pre : Bytes} {n0 : Nat} {busy : Prop} {c : Bytes} {s : Saver}
    {fs fs' : FS} (hw : WF fs) (hx : Excl pre s fs)
    (hg : Guarantee busy n0 (s.temp pre) (s.final pre) (dirOf pre s.id) c fs fs') : Excl pre s fs' := by
  intro i hi p hp
  by_cases hpt : p = s.temp pre
  · exact Or.inl hpt
  · have hcase : fs.names (s.temp pre) = some (.file i) ∨ (fs.names (s.temp pre) = none ∧ i = fs.next) := by
      rcases hg.temp with h | h | ⟨h1, h2⟩
      · exact Or.inl (h ▸ hi)
      · rw [h] at hi; cases hi
      · rw [h2] at hi; cases hi; exact Or.inr ⟨h1, rfl⟩
    cases hg.others p hpt with
    | same h1 h2 =>
      rw [h1] at hp
      rcases hcase with h | ⟨_, h⟩
      · rcases hx i h p hp with h3 | ⟨h3, h4⟩
        · exact Or.inl h3
        · exact Or.inr ⟨hg.link.trans h3, h4⟩
      · have := hw p i hp; omega
    | dir _ hd => rcases hd.2 with h' | h' <;> rw [h'] at hp <;> cases hp
    | install hpf hn hc hl ho =>
      rcases hl with hl | hl
      · rw [hl] at hi; cases hi
      · exact Or.inr ⟨hg.link.trans hl, hpf⟩
    | takeBack hpf _ j hj ht hn hn' => rw [hn'] at hp; cases hp

theorem excl_other {pre : Bytes} {s : Saver} {fs fs' : FS} (hb : fs.names (s.temp pre) = none → ∀ i, fs'.names (s.temp pre) ≠ some (.file i))
    (hd : ∀ i, fs'.names (s.temp pre) = some (.file i) → fs.names (s.temp pre) = some (.file i))
    (hr : Rely (s.temp pre) fs fs') (hx : Excl pre s fs) : Excl pre s fs' := by
  have _ := hb
  intro i hi p hp
  have h0 := hd i hi
  obtain ⟨_, _, h3⟩ := hr.own i h0
  rcases hx i h0 p ((h3 p).1 hp) with h | ⟨h, h'⟩
  · exact Or.inl h
  · exact Or.inr ⟨hr.link.trans h, h'⟩

/-- **C15** (chunk files, any number of concurrent writers, of the same chunk or of different ones): schedule the system calls
of the writers in any order, fail any of them, and stop every writer anywhere. Then every name that is not the temporary
name of a writer refers to the same contents as in the beginning, or it is the final name of one of the writers and has
exactly that writer's complete contents. In the second case the name did not refer to a file in the beginning, unless the file
system supports neither `renameat2(RENAME_NOREPLACE)` nor `linkat`. -/
theorem C15_chunk_concurrent (cd : Codec) (pre : Bytes) (savers : Nat → Saver) (hv : ∀ j, (savers j).Valid)
    (he : ∀ j, (savers j).eff ≠ .asIs) (hd : ∀ i j, i ≠ j → (savers i).temp pre ≠ (savers j).temp pre)
    (fs fs' : FS) (hw : WF fs) (hfree : ∀ j, fs.names ((savers j).temp pre) = none) (schedule : List (Nat × Choice))
    (P' : Nat → Prog (Res Unit))
    (hr : runPar schedule fs (fun j => (savers j).prog cd pre) = (fs', P')) (p : Path) (hp : ∀ j, p ≠ (savers j).temp pre) :
    content fs' p = content fs p ∨
    (∃ j b, p = (savers j).final pre ∧ (savers j).complete cd = .ok b ∧ content fs' p = some b ∧
      (content fs p = none ∨ (fs.hasRename2 = false ∧ fs.hasLink = false))) := by
  have key : ∀ d, Inv (fs.hasRename2 = false ∧ fs.hasLink = false) pre (contents cd d) (fun s => ∃ j, s = savers j) fs fs' p := by
    intro d
    let C := contents cd d
    let X (j : Nat) : Par := (savers j).par True fs.next pre (C (savers j)) (hv j)
    have gen : ∀ (l : List (Nat × Choice)) (f : FS) (P : Nat → Prog (Res Unit)),
        WF f → fs.next ≤ f.next → f.hasRename2 = fs.hasRename2 → f.hasLink = fs.hasLink →
        (∀ j, Excl pre (savers j) f) → (∀ j, Os.wp (X j).R (X j).G (P j) (fun _ _ => True) f) →
        Inv (fs.hasRename2 = false ∧ fs.hasLink = false) pre C (fun s => ∃ j, s = savers j) fs f p →
        Inv (fs.hasRename2 = false ∧ fs.hasLink = false) pre C (fun s => ∃ j, s = savers j) fs (runPar l f P).1 p := by
      intro l
      induction l with
      | nil => intro f P _ _ _ _ _ _ h; exact h
      | cons y l ih =>
        intro f P hwf hnx hr2 hlk hex hwp hI
        obtain ⟨j, ch⟩ := y
        cases hPj : P j with
        | ret a =>
          have : runPar ((j, ch) :: l) f P = runPar l f P := by rw [runPar, hPj]
          rw [this]
          exact ih f P hwf hnx hr2 hlk hex hwp hI
        | call c k =>
          have : runPar ((j, ch) :: l) f P =
              runPar l (sem f c ch).2 (fun i => if i = j then k (sem f c ch).1 else P i) := by rw [runPar, hPj]
          rw [this]
          have hj := hwp j
          rw [hPj] at hj
          have hRrefl : (X j).R f f :=
            ⟨⟨rfl, rfl, Nat.le_refl _, id, fun i h => ⟨h, rfl, fun _ => Iff.rfl⟩⟩, fun _ => rfl⟩
          obtain ⟨hg, hj'⟩ := hj f hRrefl ch
          have hG : Guarantee True fs.next ((savers j).temp pre) ((savers j).final pre) (dirOf pre (savers j).id) (C (savers j)) f (sem f c ch).2 := hg
          have hrel : ∀ i, i ≠ j → Rely ((savers i).temp pre) f (sem f c ch).2 := fun i hij =>
            guarantee_rely (hv i) (hv j) (hd i j hij) hwf (hex i) hG
          refine ih _ _ (hG.wf hwf) (Nat.le_trans hnx hG.next) (hG.rename2.trans hr2) (hG.link.trans hlk) ?_ ?_ ?_
          · intro i
            by_cases hij : i = j
            · subst hij; exact excl_self hwf (hex i) hG
            · have hback : ∀ a, (sem f c ch).2.names ((savers i).temp pre) = some (.file a) →
                  f.names ((savers i).temp pre) = some (.file a) := by
                intro a ha
                cases hG.others _ (hd i j hij) with
                | same h1 h2 => rw [h1] at ha; exact ha
                | dir _ hdd => rcases hdd.2 with h | h <;> rw [h] at ha <;> cases ha
                | install hpp => exact absurd hpp (temp_ne_final pre _ _ (hv i) (hv j))
                | takeBack hpp => exact absurd hpp (temp_ne_final pre _ _ (hv i) (hv j))
              exact excl_other (fun h a ha => by have := hback a ha; rw [h] at this; cases this) hback (hrel i hij) (hex i)
          · intro i
            by_cases hij : i = j
            · subst hij
              simp only [if_true]
              exact hj'
            · simp only [if_neg hij]
              refine wp_stable ?_ _ f _ (hwp i) ⟨hrel i hij, fun h => absurd True.intro h⟩
              intro a b c h1 h2
              exact ⟨rely_trans h1.1 h2.1, fun h => absurd True.intro h⟩
          · refine Inv_step (busy := True) (fun _ h1 h2 => ⟨hr2 ▸ h1, hlk ▸ h2⟩) ?_ hw (savers j) ⟨j, rfl⟩ hI (hG.others p (hp j))
            intro h1 h2
            rw [hlk, h2.2] at h1; cases h1
    have := gen schedule fs (fun j => (savers j).prog cd pre) hw (Nat.le_refl _) rfl rfl
      (fun j i hi => by rw [hfree j] at hi; cases hi)
      (fun j => wp_mono _ fs (fun _ _ _ => True.intro)
        ((savers j).wp cd C (fits_contents cd d) True fs.next pre (hv j) fs hw (Nat.le_refl _)))
      (Or.inl ⟨rfl, fun _ h => h⟩)
    rw [hr] at this
    exact this
  rcases Inv_both (key []) (key [0]) with h | ⟨s', ⟨j, rfl⟩, h1, ⟨b, hb, h2⟩, h3⟩
  · exact Or.inl h
  · exact Or.inr ⟨j, b, h1, by rw [complete_eq_stored cd _ (he j), hb], h2, h3⟩

end Casync.ChunkFile
