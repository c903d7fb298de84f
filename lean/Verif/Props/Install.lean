import Verif.Lemmas.InstallSessions
import Verif.Props.Index
/-!
C15 (indexes, archives and files received over the protocol): a crash never leaves a partial file under its final name.
-/
namespace Casync.Install
open Casync Os ChunkFile

/-- How the contents of a name may differ from the beginning. -/
def Inv (S : Job → Prop) (fs0 fs : FS) (p : Path) : Prop :=
  content fs p = content fs0 p ∨ (∃ j, S j ∧ p = j.final ∧ ∃ b, j.Complete b ∧ content fs p = some b)

theorem Inv_step {S : Job → Prop} {fs0 fs fs' : FS} {p : Path} (j : Job) (hs : S j) (h : Inv S fs0 fs p)
    (hc : Change j.temp j.final j.Complete fs fs' p) : Inv S fs0 fs' p := by
  cases hc with
  | same h1 h2 =>
    rcases h with h | ⟨j', a, b, c, d, e⟩
    · exact Or.inl (h2.trans h)
    · exact Or.inr ⟨j', a, b, c, d, h2.trans e⟩
  | install hp hn ht b hb hc => exact Or.inr ⟨j, hs, hp, b, hb, hc⟩

theorem rely_refl (t : Path) (fs : FS) : Rely t fs fs :=
  ⟨rfl, rfl, Nat.le_refl _, id, fun _ h => ⟨h, rfl, fun _ => Iff.rfl⟩⟩

/-- **C15** (one file): stop the writing of an index or archive file after any number of system calls, with any system call
failing and any partial writes. Then every name except the temporary one has the same contents as before, or it is the final
name and has the complete contents. In particular an existing file is either still there unchanged or has been replaced by
a complete one. -/
theorem C15_install_crash (j : Job) (hv : j.Valid) (htf : j.temp ≠ j.final) (fs fs' : FS) (hw : WF fs)
    (choices : List Choice) (P' : Prog (Res Unit)) (hr : runFor choices fs j.prog = (fs', P')) (p : Path) (hp : p ≠ j.temp) :
    content fs' p = content fs p ∨ (p = j.final ∧ ∃ b, j.Complete b ∧ content fs' p = some b) := by
  have := (wp_runFor (rely_refl j.temp) (fun f => Inv (fun j' => j' = j) fs f p)
    (fun f f' hI hG => Inv_step j rfl hI (hG.others p hp)) _ _ fs (wp_job j hv htf fs hw) (Or.inl rfl) choices fs' P' hr).1
  rcases this with h | ⟨j', rfl, h1, h2⟩
  · exact Or.inl h
  · exact Or.inr ⟨h1, h2⟩

/-- **C15** (one file): if everything returned success and the file was completed, it is there under its final name, and the temporary
name is gone. -/
theorem C15_install_success (j : Job) (hv : j.Valid) (htf : j.temp ≠ j.final) (fs fs' : FS) (hw : WF fs)
    (choices : List Choice) (hr : runFor choices fs j.prog = (fs', .ret (.ok ()))) (b : Bytes) (hb : j.Complete b) :
    content fs' j.final = some b ∧ fs'.names j.temp = none :=
  (wp_runFor (rely_refl j.temp) (fun _ => True) (fun _ _ _ _ => True.intro) _ _ fs (wp_job j hv htf fs hw) True.intro choices
    fs' _ hr).2 _ rfl rfl b hb

/-- **C15**: an index that the writer leaves under its final name, at whatever point it was stopped, is the old one or one that can be
read, with exactly the chunks that were written. -/
theorem C15_index_readable (t path : Path) (htf : t ≠ path) (flags : Flags.Word) (cmin cavg cmax : Nat) (cs : List (Bytes × Nat))
    (i : Index.Index) (hi : Index.newWrite flags cmin cavg cmax = .ok i) (hid : ∀ c ∈ cs, c.1.length = 32)
    (fs fs' : FS) (hw : WF fs) (choices : List Choice) (P' : Prog (Res Unit))
    (hr : runFor choices fs (idxSession t path i (cs.map (fun c => .chunk c.1 c.2) ++ [.eof])) = (fs', P')) :
    content fs' path = content fs path ∨
    (∃ b, content fs' path = some b ∧ (b.length < 2 ^ 64 → ∃ r, Index.readAll b = .ok (Index.Spec.deliver 0 cs, r))) := by
  have hv : (Job.index t path i (cs.map (fun c => IOp.chunk c.1 c.2) ++ [IOp.eof])).Valid := by
    unfold Index.newWrite at hi
    repeat' split at hi
    all_goals first
      | cases hi; exact ⟨rfl, rfl, fun h => by cases h⟩
      | cases hi
  rcases C15_install_crash (.index t path i (cs.map (fun c => IOp.chunk c.1 c.2) ++ [IOp.eof])) hv htf fs fs' hw choices P' hr path
    (Ne.symm htf) with h | ⟨_, b, ⟨i', h1, h2, h3⟩, hc⟩
  · exact Or.inl h
  · refine Or.inr ⟨b, hc, fun hlen => ?_⟩
    have key : ∀ (cs : List (Bytes × Nat)) (i : Index.Index), pureOps i (cs.map (fun c => IOp.chunk c.1 c.2) ++ [.eof]) = .ok i' →
        (Index.writeChunks i cs >>= fun i => Index.writeEof i) = .ok i' := by
      intro cs
      induction cs with
      | nil =>
        intro i h
        simp only [List.map_nil, List.nil_append, pureOps, applyOp] at h
        show Index.writeEof i = .ok i'
        split at h
        · rename_i j hj; cases h; exact hj
        · cases h
        · cases h
      | cons c cs ih =>
        intro i h
        simp only [List.map_cons, List.cons_append, pureOps, applyOp] at h
        split at h
        · rename_i j hj
          have := ih j h
          show ((Index.writeChunk i c.1 c.2 >>= fun i => Index.writeChunks i cs) >>= fun i => Index.writeEof i) = .ok i'
          rw [hj]
          exact this
        · cases h
        · cases h
    have hf : Index.writeFile flags cmin cavg cmax cs = .ok i' := by
      unfold Index.writeFile
      rw [hi]
      exact key cs i h1
    rw [h3] at hlen ⊢
    obtain ⟨f, r, _, _, h4, _⟩ := Index.C07_round_trip flags cmin cavg cmax cs i' hf hid hlen
    exact ⟨r, h4⟩

/-! ## Concurrency -/

/-- The inode of a temporary file has no other name. -/
def Excl (t : Path) (fs : FS) : Prop := ∀ i, fs.names t = some (.file i) → ∀ p, fs.names p = some (.file i) → p = t

theorem guarantee_rely {s s' : Job} (hne : s.temp ≠ s'.temp) (hf : s.temp ≠ s'.final) {fs fs' : FS} (hw : WF fs)
    (hx : Excl s.temp fs) (hg : G s'.temp s'.final s'.Complete fs fs') : Rely s.temp fs fs' := by
  refine ⟨hg.rename2, hg.link, hg.next, hg.wf, ?_⟩
  intro i hi
  have hsame : fs'.names s.temp = fs.names s.temp ∧ content fs' s.temp = content fs s.temp := by
    cases hg.others _ hne with
    | same h1 h2 => exact ⟨h1, h2⟩
    | install hp => exact absurd hp hf
  have hi' : fs'.names s.temp = some (.file i) := hsame.1.trans hi
  have hdist : fs.names s'.temp ≠ some (.file i) := fun h => hne (hx i hi _ h).symm
  refine ⟨hi', ?_, ?_⟩
  · have := hsame.2
    simp only [content, hi, hi'] at this
    exact Option.some.inj this
  · intro p
    by_cases hpt : p = s'.temp
    · subst hpt
      constructor
      · intro h
        rcases hg.temp with h' | h' | ⟨_, h'⟩
        · rw [h'] at h; exact h
        · rw [h'] at h; cases h
        · rw [h'] at h
          have := hw _ _ hi
          cases h
          omega
      · intro h; exact absurd h hdist
    · cases hg.others p hpt with
      | same h1 h2 => rw [h1]
      | install hp hn ht b hb hc =>
        constructor
        · intro h; rw [hn] at h; exact absurd h hdist
        · intro h
          have := hx i hi p h
          subst this
          exact absurd hp hf

theorem excl_self {s : Job} {fs fs' : FS} (hw : WF fs) (hx : Excl s.temp fs) (hg : G s.temp s.final s.Complete fs fs') :
    Excl s.temp fs' := by
  intro i hi p hp
  by_cases hpt : p = s.temp
  · exact hpt
  · have hcase : fs.names s.temp = some (.file i) ∨ i = fs.next := by
      rcases hg.temp with h | h | ⟨h1, h2⟩
      · exact Or.inl (h ▸ hi)
      · rw [h] at hi; cases hi
      · rw [h2] at hi; cases hi; exact Or.inr rfl
    cases hg.others p hpt with
    | same h1 h2 =>
      rw [h1] at hp
      rcases hcase with h | h
      · exact hx i h p hp
      · have := hw p i hp; omega
    | install hpf hn ht => rw [ht] at hi; cases hi

theorem excl_other {s s' : Job} (hne : s.temp ≠ s'.temp) (hf : s.temp ≠ s'.final) {fs fs' : FS}
    (hr : Rely s.temp fs fs') (hx : Excl s.temp fs) (hg : G s'.temp s'.final s'.Complete fs fs') : Excl s.temp fs' := by
  intro i hi p hp
  have h0 : fs.names s.temp = some (.file i) := by
    cases hg.others _ hne with
    | same h1 h2 => rw [h1] at hi; exact hi
    | install hp => exact absurd hp hf
  obtain ⟨_, _, h3⟩ := hr.own i h0
  exact hx i h0 p ((h3 p).1 hp)

theorem rely_trans {t : Path} {a b c : FS} (h : Rely t a b) (g : Rely t b c) : Rely t a c := by
  refine ⟨g.rename2.trans h.rename2, g.link.trans h.link, Nat.le_trans h.next g.next, fun w => g.wf (h.wf w), ?_⟩
  intro i hi
  obtain ⟨h1, h2, h3⟩ := h.own i hi
  obtain ⟨g1, g2, g3⟩ := g.own i h1
  exact ⟨g1, g2.trans h2, fun p => (g3 p).trans (h3 p)⟩

theorem wp_stable {α : Type} {t : Path} {G : FS → FS → Prop} (P : Prog α) (fs fs' : FS)
    (h : Os.wp (Rely t) G P (fun _ _ => True) fs) (hr : Rely t fs fs') : Os.wp (Rely t) G P (fun _ _ => True) fs' := by
  cases P with
  | ret a => exact True.intro
  | call c k =>
    intro f1 h1 ch
    exact h f1 (rely_trans hr h1) ch

/-- **C15** (any number of writers, of the same file or of different ones): schedule the system calls of the writers in any
order, fail any of them, and stop every writer anywhere. Then every name that is not the temporary name of a writer has the
same contents as in the beginning, or it is the final name of one of the writers and has exactly the complete contents of one
of the writers of that name: never a partial file and never a mixture. -/
theorem C15_install_concurrent (jobs : Nat → Job) (hv : ∀ j, (jobs j).Valid)
    (hd : ∀ i j, i ≠ j → (jobs i).temp ≠ (jobs j).temp) (htf : ∀ i j, (jobs i).temp ≠ (jobs j).final)
    (fs fs' : FS) (hw : WF fs) (hfree : ∀ j, fs.names (jobs j).temp = none) (schedule : List (Nat × Choice))
    (P' : Nat → Prog (Res Unit)) (hr : runPar schedule fs (fun j => (jobs j).prog) = (fs', P')) (p : Path)
    (hp : ∀ j, p ≠ (jobs j).temp) :
    content fs' p = content fs p ∨
    (∃ j b, p = (jobs j).final ∧ (jobs j).Complete b ∧ content fs' p = some b) := by
  have gen : ∀ (l : List (Nat × Choice)) (f : FS) (P : Nat → Prog (Res Unit)),
      WF f → (∀ j, Excl (jobs j).temp f) →
      (∀ j, Os.wp (Rely (jobs j).temp) (G (jobs j).temp (jobs j).final (jobs j).Complete) (P j) (fun _ _ => True) f) →
      Inv (fun s => ∃ j, s = jobs j) fs f p → Inv (fun s => ∃ j, s = jobs j) fs (runPar l f P).1 p := by
    intro l
    induction l with
    | nil => intro f P _ _ _ h; exact h
    | cons y l ih =>
      intro f P hwf hex hwp hI
      obtain ⟨j, ch⟩ := y
      cases hPj : P j with
      | ret a =>
        have : runPar ((j, ch) :: l) f P = runPar l f P := by rw [runPar, hPj]
        rw [this]
        exact ih f P hwf hex hwp hI
      | call c k =>
        have : runPar ((j, ch) :: l) f P =
            runPar l (sem f c ch).2 (fun i => if i = j then k (sem f c ch).1 else P i) := by rw [runPar, hPj]
        rw [this]
        have hj := hwp j
        rw [hPj] at hj
        obtain ⟨hG, hj'⟩ := hj f (rely_refl _ _) ch
        have hrel : ∀ i, i ≠ j → Rely (jobs i).temp f (sem f c ch).2 := fun i hij =>
          guarantee_rely (hd i j hij) (htf i j) hwf (hex i) hG
        refine ih _ _ (hG.wf hwf) ?_ ?_ ?_
        · intro i
          by_cases hij : i = j
          · subst hij; exact excl_self hwf (hex i) hG
          · exact excl_other (hd i j hij) (htf i j) (hrel i hij) (hex i) hG
        · intro i
          by_cases hij : i = j
          · subst hij
            simp only [if_true]
            exact hj'
          · simp only [if_neg hij]
            exact wp_stable _ f _ (hwp i) (hrel i hij)
        · exact Inv_step (jobs j) ⟨j, rfl⟩ hI (hG.others p (hp j))
  have := gen schedule fs (fun j => (jobs j).prog) hw (fun j i hi => by rw [hfree j] at hi; cases hi)
    (fun j => wp_mono _ fs (fun _ _ _ => True.intro) (wp_job (jobs j) (hv j) (htf j j) fs hw)) (Or.inl rfl)
  rw [hr] at this
  rcases this with h | ⟨_, ⟨j, rfl⟩, h1, b, h2, h3⟩
  · exact Or.inl h
  · exact Or.inr ⟨j, b, h1, h2, h3⟩

/-! ## Non-vacuity -/

/-- Writers of `/a` with temporary names `/.#a`, `/.#ax`, `/.#axx`, … -/
def exJobs (j : Nat) : Job :=
  .remote (47 :: 46 :: 35 :: 97 :: List.replicate j 120) [47, 97] [.data [1, 2], .data [3], .eof]

def exFS : FS := ⟨fun p => if p = [47, 97] then some (.file 0) else none, fun _ => [9], 1, true, true⟩

example : (∀ j, (exJobs j).Valid) ∧ (∀ i j, i ≠ j → (exJobs i).temp ≠ (exJobs j).temp) ∧
    (∀ i j, (exJobs i).temp ≠ (exJobs j).final) ∧ WF exFS ∧ (∀ j, exFS.names (exJobs j).temp = none) ∧
    (exJobs 0).Complete [1, 2, 3] := by
  refine ⟨fun j => True.intro, ?_, ?_, ?_, ?_, [[1, 2], [3]], rfl, rfl⟩
  · intro i j hij h
    have := congrArg List.length h
    simp [exJobs, Job.temp] at this
    exact hij this
  · intro i j h
    have := congrArg List.length h
    simp [exJobs, Job.temp, Job.final] at this
  · intro p i h
    simp only [exFS] at h
    split at h
    · cases h; exact Nat.one_pos
    · cases h
  · intro j
    simp only [exFS, exJobs, Job.temp]
    rw [if_neg]
    intro h
    have := congrArg List.length h
    simp at this

theorem runFor_loopWrite {β : Type} (n : Nat) (b : Bytes) (hb : b ≠ []) (f : Res Unit → Prog β) (fs : FS) (chs : List Choice) (m : Nat) (hm : m = b.length) :
    runFor (⟨none, m⟩ :: chs) fs (Prog.bind (loopWrite n b) f) =
      runFor chs { fs with data := fun j => if j = n then fs.data n ++ b else fs.data j } (f (.ok ())) := by
  subst hm
  have hl : 0 < b.length := List.length_pos_iff.2 hb
  have h1 : max 1 b.length = b.length := by omega
  rw [loopWrite.eq_def, dif_neg hb]
  simp only [Prog.bind, runFor, sem, if_neg hb, h1, Nat.min_self, List.take_length, List.drop_length]
  rw [loopWrite.eq_def, dif_pos rfl]
  rfl

/-- Without failures the session of `exJobs 0` replaces the old file: the old contents are `[9]`, then `[1, 2, 3]`. -/
example : content exFS [47, 97] = some [9] ∧
    (∃ fs', runFor [⟨none, 0⟩, ⟨none, 2⟩, ⟨none, 1⟩, ⟨none, 0⟩] exFS (exJobs 0).prog = (fs', .ret (.ok ())) ∧
      content fs' [47, 97] = some [1, 2, 3]) := by
  constructor
  · simp [content, exFS]
  · have hc : sem exFS (.creat [47, 46, 35, 97]) ⟨none, 0⟩ = (.fd 1, { setName exFS [47, 46, 35, 97] (some (.file 1)) with
        data := fun i => if i = 1 then [] else [9], next := 2 }) := by
      have hn : exFS.names [47, 46, 35, 97] = none := by decide
      simp only [sem, hn, if_true]
      rfl
    have hb : ∀ {α β γ : Type} (P : Prog α) (f : α → Prog β) (g : β → Prog γ),
        Prog.bind (Prog.bind P f) g = Prog.bind P (fun a => Prog.bind (f a) g) := by
      intro α β γ P f g
      induction P with
      | ret a => rfl
      | call c k ih => simp only [Prog.bind]; congr 1; funext a; exact ih a
    unfold exJobs Job.prog fileSession
    simp only [runFor, List.replicate, hc]
    simp only [fileMsgs, fileMsg, Bool.false_eq_true, if_false, hb]
    rw [runFor_loopWrite 1 [1, 2] (by simp) _ _ _ 2 rfl]
    simp only [Prog.bind, hb]
    simp only [Bool.false_eq_true, if_false, hb]
    rw [runFor_loopWrite 1 [3] (by simp) _ _ _ 1 rfl]
    simp only [Prog.bind, fileInstall, Bool.not_true, if_false, Bool.false_eq_true, runFor, sem, setName, exFS, fileFree]
    simp [content]
    exact ⟨_, ⟨rfl, rfl⟩, rfl⟩

/-- A new index writer is valid. -/
example : (Job.index [47, 98] [47, 97] { mode := .write, flags := 0, cmin := 1, cavg := 2, cmax := 3 } [.chunk (List.replicate 32 1) 3, .eof]).Valid :=
  ⟨rfl, rfl, fun h => by cases h⟩

end Casync.Install
