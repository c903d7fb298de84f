import Verif.Lemmas.Install
import Verif.Spec.Install
/-!
The three kinds of installation keep to their guarantee (auxiliary).
-/
namespace Casync.Install
open Casync Os ChunkFile

/-! ### Index: the file only grows -/

theorem writeHead_file {i i' : Index.Index} (h : Index.writeHead i = .ok i') : i.file <+: i'.file := by
  unfold Index.writeHead at h
  repeat' split at h
  all_goals first
    | cases h; exact List.prefix_refl _
    | cases h; exact List.prefix_append _ _
    | cases h

theorem parseHead_file {i i' : Index.Index} {b : Bytes} (h : Index.parseHead i b = .ok i') : i'.file = i.file := by
  unfold Index.parseHead at h
  simp only at h
  repeat' split at h
  all_goals first
    | cases h; rfl
    | cases h

theorem readHead_file {i i' : Index.Index} (h : Index.readHead i = .ok i') : i'.file = i.file := by
  unfold Index.readHead at h
  split at h
  · cases h; rfl
  split at h
  · cases h; rfl
  split at h
  · cases h
  split at h
  · cases h
  · cases h
  · cases h
  · simp only at h
    split at h
    · cases h
    · exact (parseHead_file h).trans rfl

theorem openIndex_file {i i' : Index.Index} (h : Index.openIndex i = .ok i') : i.file <+: i'.file := by
  unfold Index.openIndex at h
  split at h
  · exact writeHead_file h
  · cases h
  · cases h
  · rename_i j hj
    have := writeHead_file h
    rwa [readHead_file hj] at this

theorem Res.bind_ok {α β : Type} {x : Res α} {f : α → Res β} {b : β} (h : (x >>= f) = .ok b) : ∃ a, x = .ok a ∧ f a = .ok b := by
  cases x with
  | ok a => exact ⟨a, rfl, h⟩
  | err e => cases h
  | ub => cases h

theorem applyOp_file {i i' : Index.Index} {op : IOp} (h : applyOp i op = .ok i') : i.file <+: i'.file := by
  cases op with
  | chunk id size =>
    simp only [applyOp, Index.writeChunk] at h
    split at h
    · cases h
    split at h
    · cases h
    split at h
    · cases h
    obtain ⟨j, hj, h⟩ := Res.bind_ok h
    split at h
    · cases h
    · split at h
      · cases h
      · cases h
        exact List.IsPrefix.trans (openIndex_file hj) (List.prefix_append _ _)
  | eof =>
    simp only [applyOp, Index.writeEof] at h
    split at h
    · cases h
    split at h
    · cases h
    obtain ⟨j, hj, h⟩ := Res.bind_ok h
    cases h
    exact List.IsPrefix.trans (openIndex_file hj) (List.prefix_append _ _)
  | incWrite d =>
    simp only [applyOp, Index.incWrite] at h
    split at h
    · cases h
    split at h
    · cases h
    split at h
    · cases h
    obtain ⟨j, hj, h⟩ := Res.bind_ok h
    split at h
    · cases h
    · cases h
      exact List.IsPrefix.trans (openIndex_file hj) (List.prefix_append _ _)
  | incEof =>
    simp only [applyOp, Index.incEof] at h
    split at h
    · cases h
    split at h
    · cases h
    obtain ⟨j, hj, h⟩ := Res.bind_ok h
    cases h
    exact (openIndex_file hj : i.file <+: j.file)

/-! ### The index session -/

/-- The state of an index object whose calls all succeeded so far. -/
def IdxInv (t : Path) (i0 : Index.Index) (s : IdxFile) (fs : FS) : Prop :=
  (s.fd = none ∧ s.temp = false ∧ s.idx = i0 ∧ WF fs) ∨ (∃ n, s.fd = some n ∧ s.temp = true ∧ Own t n s.idx.file fs)

theorem IdxInv.wf {t : Path} {i0 : Index.Index} {s : IdxFile} {fs : FS} (h : IdxInv t i0 s fs) : WF fs := by
  rcases h with ⟨_, _, _, h⟩ | ⟨_, _, _, h⟩
  · exact h
  · exact h.wf

theorem wp_openFd {t fin : Path} {C : Bytes → Prop} {i0 : Index.Index} (h0 : i0.file = []) (s : IdxFile) (fs : FS)
    (Q : Res Nat × IdxFile → FS → Prop) (hI : IdxInv t i0 s fs)
    (hok : ∀ n s' fs', s'.fd = some n → s'.temp = true → s'.idx = s.idx → Own t n s.idx.file fs' → Q (.ok n, s') fs')
    (herr : ∀ e s' fs', WF fs' → Q (.err e, s') fs') :
    wp (Rely t) (G t fin C) (openFd t s) Q fs := by
  unfold openFd
  rcases hI with ⟨h1, h2, h3, h4⟩ | ⟨n, h1, h2, h3⟩
  · rw [h1]
    intro f1 hr ch
    have hw := hr.wf h4
    rcases creat_spec (t := t) (fin := fin) (C := C) f1 ch hw with ⟨e, h⟩ | ⟨i, fs', h, hg, ho⟩
    · rw [h]
      exact ⟨G_refl f1, herr e _ _ hw⟩
    · rw [h]
      refine ⟨hg, ?_⟩
      refine hok i _ fs' rfl rfl rfl ?_
      rw [h3, h0]
      exact ho
  · rw [h1]
    exact hok n s fs h1 h2 rfl h3

theorem wp_idxCall {t fin : Path} {C : Bytes → Prop} {i0 : Index.Index} (h0 : i0.file = []) (s : IdxFile) (op : IOp) (fs : FS)
    (Q : Res Unit × IdxFile → FS → Prop) (hI : IdxInv t i0 s fs)
    (hok : ∀ s' fs', applyOp s.idx op = .ok s'.idx → IdxInv t i0 s' fs' → s'.temp = true → Q (.ok (), s') fs')
    (herr : ∀ r s' fs', r ≠ .ok () → WF fs' → Q (r, s') fs') :
    wp (Rely t) (G t fin C) (idxCall t s op) Q fs := by
  unfold idxCall
  cases ha : applyOp s.idx op with
  | err e => exact herr _ _ _ (by simp) hI.wf
  | ub => exact herr _ _ _ (by simp) hI.wf
  | ok i =>
    apply wp_bind
    refine wp_openFd h0 s fs _ hI ?_ ?_
    · intro n s' fs' hfd htemp hidx ho
      apply wp_bind
      rw [hidx]
      refine wp_loopWrite n _ _ fs' _ ho ?_ ?_
      · intro fs'' ho''
        refine hok _ _ ha (Or.inr ⟨n, hfd, htemp, ?_⟩) htemp
        have : s.idx.file ++ i.file.drop s.idx.file.length = i.file := by
          obtain ⟨r, hr⟩ := applyOp_file ha
          rw [← hr, List.drop_left]
        rw [this] at ho''
        exact ho''
      · intro e fs'' acc ho''
        exact herr _ _ _ (by simp) ho''.wf
    · intro e s' fs' hw
      exact herr _ _ _ (by simp) hw

theorem wp_idxCalls {t fin : Path} {C : Bytes → Prop} {i0 : Index.Index} (h0 : i0.file = []) (ops : List IOp) :
    ∀ (s : IdxFile) (fs : FS) (Q : Res Unit × IdxFile → FS → Prop), IdxInv t i0 s fs →
    (∀ s' fs', pureOps s.idx ops = .ok s'.idx → IdxInv t i0 s' fs' → Q (.ok (), s') fs') →
    (∀ r s' fs', r ≠ .ok () → WF fs' → Q (r, s') fs') →
    wp (Rely t) (G t fin C) (idxCalls t s ops) Q fs := by
  induction ops with
  | nil => intro s fs Q hI hok _; exact hok s fs rfl hI
  | cons op ops ih =>
    intro s fs Q hI hok herr
    unfold idxCalls
    apply wp_bind
    refine wp_idxCall h0 s op fs _ hI ?_ ?_
    · intro s' fs' ha hI' _
      refine ih s' fs' Q hI' ?_ herr
      intro s'' fs'' hp
      refine hok s'' fs'' ?_
      rw [pureOps, ha]
      exact hp
    · intro r s' fs' hne hw
      cases r with
      | ok u => exact absurd rfl hne
      | err e => exact herr _ _ _ hne hw
      | ub => exact herr _ _ _ hne hw

theorem wp_idxUnref {t fin : Path} {C : Bytes → Prop} {α : Type} (s : IdxFile) (a : α) (fs : FS) (Q : α → FS → Prop) (hw : WF fs)
    (hq : ∀ fs', (s.temp = false → fs' = fs) → Q a fs') :
    wp (Rely t) (G t fin C) (Prog.bind (idxUnref t s) fun _ => .ret a) Q fs := by
  apply wp_bind
  unfold idxUnref
  cases hs : s.temp with
  | false => exact hq _ (fun _ => rfl)
  | true => exact wp_unlink _ _ _ hw (fun _ fs' => hq fs' (fun h => by rw [hs] at h; cases h))

theorem wp_idxSession (t fin : Path) (htf : t ≠ fin) (i0 : Index.Index) (h0 : i0.file = []) (hne : i0.wroteEof = false)
    (ops : List IOp) (fs : FS) (hw : WF fs) :
    wp (Rely t) (G t fin (fun b => ∃ i', pureOps i0 ops = .ok i' ∧ i'.wroteEof = true ∧ b = i'.file))
      (idxSession t fin i0 ops)
      (fun r fs' => r = .ok () → ∃ i', pureOps i0 ops = .ok i' ∧ i'.wroteEof = true ∧ Done t fin i'.file fs') fs := by
  unfold idxSession
  apply wp_bind
  refine wp_idxCalls h0 ops { idx := i0 } fs _ (Or.inl ⟨rfl, rfl, rfl, hw⟩) ?_ ?_
  · intro s fs' hp hI
    apply wp_bind
    unfold idxInstall
    split
    · exact wp_idxUnref _ _ _ _ hI.wf (fun _ _ h => by cases h)
    split
    · exact wp_idxUnref _ _ _ _ hI.wf (fun _ _ h => by cases h)
    rename_i hm he
    have he' : s.idx.wroteEof = true := by simpa using he
    rcases hI with ⟨h1, h2, h3, h4⟩ | ⟨n, h1, h2, h3⟩
    · rw [h3, hne] at he'
      cases he'
    · rw [if_neg (by simp [h2])]
      intro f1 hr ch
      have ho := h3.stable hr
      rcases rename_spec (C := fun b => ∃ i', pureOps i0 ops = .ok i' ∧ i'.wroteEof = true ∧ b = i'.file) htf f1 ch n s.idx.file
        ⟨s.idx, hp, he', rfl⟩ ho with ⟨e, h⟩ | ⟨fs'', h, hg, hd, hw''⟩
      · rw [h]
        exact ⟨G_refl _, wp_idxUnref _ _ _ _ ho.wf (fun _ _ h => by cases h)⟩
      · rw [h]
        refine ⟨hg, wp_idxUnref _ _ _ _ hw'' ?_⟩
        intro f3 hf _
        rw [hf rfl]
        exact ⟨s.idx, hp, he', hd⟩
  · intro r s fs' hr hw'
    cases r with
    | ok u => exact absurd rfl hr
    | err e => exact wp_idxUnref _ _ _ _ hw' (fun _ _ h => by cases h)
    | ub => exact wp_idxUnref _ _ _ _ hw' (fun _ _ h => by cases h)

/-! ### Received files -/

/-- The contents after some messages, and whether the file is complete. -/
def msgsResult : Bytes → Bool → List FMsg → Res (Bytes × Bool)
  | b, c, [] => .ok (b, c)
  | b, false, .data d :: ms => msgsResult (b ++ d) false ms
  | b, false, .eof :: ms => msgsResult b true ms
  | _, true, _ :: _ => .err .EBADMSG

theorem msgsResult_complete : ∀ (ms : List FMsg) (b b' : Bytes), msgsResult b false ms = .ok (b', true) →
    ∃ ds : List Bytes, ms = ds.map .data ++ [.eof] ∧ b' = b ++ ds.flatten
  | [], b, b', h => by cases h
  | .data d :: ms, b, b', h => by
    obtain ⟨ds, h1, h2⟩ := msgsResult_complete ms (b ++ d) b' h
    exact ⟨d :: ds, by simp [h1], by simp [h2]⟩
  | .eof :: [], b, b', h => by
    cases h
    exact ⟨[], rfl, by simp⟩
  | .eof :: _ :: _, b, b', h => by
    simp only [msgsResult] at h
    cases h

theorem msgsResult_of_complete (ds : List Bytes) : ∀ b, msgsResult b false (ds.map FMsg.data ++ [FMsg.eof]) = .ok (b ++ ds.flatten, true) := by
  induction ds with
  | nil => intro b; simp [msgsResult]
  | cons d ds ih => intro b; simp only [List.map_cons, List.cons_append, msgsResult, ih]; simp

theorem wp_fileMsgs {t fin : Path} {C : Bytes → Prop} (n : Nat) (ms : List FMsg) : ∀ (b : Bytes) (f : RFile) (fs : FS)
    (Q : Res Unit × RFile → FS → Prop), Own t n b fs →
    (∀ b' f' fs', f'.temp = f.temp → msgsResult b f.complete ms = .ok (b', f'.complete) → Own t n b' fs' → Q (.ok (), f') fs') →
    (∀ r f' fs', r ≠ .ok () → WF fs' → Q (r, f') fs') →
    wp (Rely t) (G t fin C) (fileMsgs n f ms) Q fs := by
  induction ms with
  | nil => intro b f fs Q ho hok _; exact hok b f fs rfl (by cases hc : f.complete <;> rfl) ho
  | cons m ms ih =>
    intro b f fs Q ho hok herr
    unfold fileMsgs
    apply wp_bind
    cases m with
    | data d =>
      unfold fileMsg
      cases hc : f.complete with
      | true =>
        rw [if_pos rfl]
        exact herr _ _ _ (by simp) ho.wf
      | false =>
        rw [if_neg (by simp)]
        apply wp_bind
        refine wp_loopWrite n d b fs _ ho ?_ ?_
        · intro fs' ho'
          refine ih _ f fs' Q ho' ?_ herr
          intro b' f' fs'' h1 h2 h3
          refine hok b' f' fs'' h1 ?_ h3
          rw [hc] at h2 ⊢
          exact h2
        · intro e fs' acc ho'
          exact herr _ _ _ (by simp) ho'.wf
    | eof =>
      unfold fileMsg
      cases hc : f.complete with
      | true =>
        rw [if_pos rfl]
        exact herr _ _ _ (by simp) ho.wf
      | false =>
        rw [if_neg (by simp)]
        refine ih b _ fs Q ho ?_ herr
        intro b' f' fs'' h1 h2 h3
        refine hok b' f' fs'' h1 ?_ h3
        rw [hc]
        exact h2

theorem wp_fileFree {t fin : Path} {C : Bytes → Prop} {α : Type} (f : RFile) (a : α) (fs : FS) (Q : α → FS → Prop) (hw : WF fs)
    (hq : ∀ fs', (f.temp = false → fs' = fs) → Q a fs') :
    wp (Rely t) (G t fin C) (Prog.bind (fileFree t f) fun _ => .ret a) Q fs := by
  apply wp_bind
  unfold fileFree
  cases hs : f.temp with
  | false => exact hq _ (fun _ => rfl)
  | true => exact wp_unlink _ _ _ hw (fun _ fs' => hq fs' (fun h => by rw [hs] at h; cases h))

theorem wp_fileSession (t fin : Path) (htf : t ≠ fin) (ms : List FMsg) (fs : FS) (hw : WF fs) :
    wp (Rely t) (G t fin (fun b => ∃ ds : List Bytes, ms = ds.map .data ++ [.eof] ∧ b = ds.flatten))
      (fileSession t fin ms)
      (fun r fs' => r = .ok () → ∀ ds : List Bytes, ms = ds.map .data ++ [.eof] → Done t fin ds.flatten fs') fs := by
  unfold fileSession
  intro f1 hr ch
  have hw1 := hr.wf hw
  rcases creat_spec (t := t) (fin := fin) (C := fun b => ∃ ds : List Bytes, ms = ds.map .data ++ [.eof] ∧ b = ds.flatten) f1 ch hw1
    with ⟨e, h⟩ | ⟨n, fs', h, hg, ho⟩
  · rw [h]
    exact ⟨G_refl _, wp_fileFree _ _ _ _ hw1 (fun _ _ h => by cases h)⟩
  · rw [h]
    refine ⟨hg, ?_⟩
    apply wp_bind
    refine wp_fileMsgs n ms [] { temp := true } fs' _ ho ?_ ?_
    · intro b' f' fs'' htemp hres ho'
      apply wp_bind
      unfold fileInstall
      cases hc : f'.complete with
      | false =>
        rw [if_pos (by simp)]
        refine wp_fileFree _ _ _ _ ho'.wf ?_
        intro _ _ _ ds hds
        rw [hds, hc] at hres
        have := msgsResult_of_complete ds []
        rw [this] at hres
        cases hres
      | true =>
        rw [if_neg (by simp), if_neg (by simp [htemp])]
        rw [hc] at hres
        obtain ⟨ds, h1, h2⟩ := msgsResult_complete ms [] b' hres
        intro f2 hr2 ch2
        have ho2 := ho'.stable hr2
        rcases rename_spec (C := fun b => ∃ ds : List Bytes, ms = ds.map .data ++ [.eof] ∧ b = ds.flatten) htf f2 ch2 n b'
          ⟨ds, h1, by simpa using h2⟩ ho2 with ⟨e, h⟩ | ⟨f3, h, hg, hd, hw3⟩
        · rw [h]
          exact ⟨G_refl _, wp_fileFree _ _ _ _ ho2.wf (fun _ _ h => by cases h)⟩
        · rw [h]
          refine ⟨hg, wp_fileFree _ _ _ _ hw3 ?_⟩
          intro f4 hf _ ds' hds'
          rw [hf rfl]
          rw [hds'] at hres
          rw [msgsResult_of_complete] at hres
          cases hres
          simpa using hd
    · intro r f' fs'' hne hw'
      cases r with
      | ok u => exact absurd rfl hne
      | err e => exact wp_fileFree _ _ _ _ hw' (fun _ _ h => by cases h)
      | ub => exact wp_fileFree _ _ _ _ hw' (fun _ _ h => by cases h)

/-! ### Archives -/

theorem wp_writePieces {t fin : Path} {C : Bytes → Prop} (n : Nat) (ps : List Bytes) : ∀ (b : Bytes) (fs : FS)
    (Q : Res Unit → FS → Prop), Own t n b fs → (∀ fs', Own t n (b ++ ps.flatten) fs' → Q (.ok ()) fs') →
    (∀ r fs', r ≠ .ok () → WF fs' → Q r fs') → wp (Rely t) (G t fin C) (writePieces n ps) Q fs := by
  induction ps with
  | nil => intro b fs Q ho hok _; exact hok fs (by simpa using ho)
  | cons p ps ih =>
    intro b fs Q ho hok herr
    unfold writePieces
    apply wp_bind
    refine wp_loopWrite n p b fs _ ho ?_ ?_
    · intro fs' ho'
      refine ih _ fs' Q ho' ?_ herr
      intro fs'' h
      exact hok fs'' (by simpa using h)
    · intro e fs' acc ho'
      exact herr _ _ (by simp) ho'.wf

theorem wp_archiveSession (t fin : Path) (htf : t ≠ fin) (ps : List Bytes) (fails : Option Nat) (fs : FS) (hw : WF fs) :
    wp (Rely t) (G t fin (fun b => fails = none ∧ b = ps.flatten)) (archiveSession t fin ps fails)
      (fun r fs' => r = .ok () → fails = none ∧ Done t fin ps.flatten fs') fs := by
  unfold archiveSession
  intro f1 hr ch
  have hw1 := hr.wf hw
  rcases creat_spec (t := t) (fin := fin) (C := fun b => fails = none ∧ b = ps.flatten) f1 ch hw1
    with ⟨e, h⟩ | ⟨n, fs', h, hg, ho⟩
  · rw [h]
    exact ⟨G_refl _, fun h => by cases h⟩
  · rw [h]
    refine ⟨hg, ?_⟩
    apply wp_bind
    refine wp_writePieces n _ [] fs' _ ho ?_ ?_
    · intro fs'' ho'
      cases fails with
      | some k =>
        simp only [Option.isSome_some, if_true]
        exact wp_unlink _ _ _ ho'.wf (fun _ _ h => by cases h)
      | none =>
        simp only [Option.isSome_none, Bool.false_eq_true, if_false]
        simp only [List.nil_append] at ho'
        intro f2 hr2 ch2
        have ho2 := ho'.stable hr2
        rcases rename_spec (C := fun b => (none : Option Nat) = none ∧ b = ps.flatten) htf f2 ch2 n ps.flatten
          ⟨rfl, rfl⟩ ho2 with ⟨e, h⟩ | ⟨f3, h, hg, hd, hw3⟩
        · rw [h]
          exact ⟨G_refl _, wp_unlink _ _ _ ho2.wf (fun _ _ h => by cases h)⟩
        · rw [h]
          exact ⟨by simpa using hg, fun _ => ⟨True.intro, hd⟩⟩
    · intro r fs'' hne hw'
      cases r with
      | ok u => exact absurd rfl hne
      | err e => exact wp_unlink _ _ _ hw' (fun _ _ h => by cases h)
      | ub => exact wp_unlink _ _ _ hw' (fun _ _ h => by cases h)

/-- All jobs. -/
theorem wp_job (j : Job) (hv : j.Valid) (htf : j.temp ≠ j.final) (fs : FS) (hw : WF fs) :
    wp (Rely j.temp) (G j.temp j.final j.Complete) j.prog
      (fun r fs' => r = .ok () → (∀ b, j.Complete b → Done j.temp j.final b fs')) fs := by
  cases j with
  | index t p i ops =>
    refine wp_mono _ fs ?_ (wp_idxSession t p htf i hv.1 hv.2.1 ops fs hw)
    intro r fs' h hr b hb
    obtain ⟨i', h1, h2, h3⟩ := h hr
    obtain ⟨i'', g1, g2, g3⟩ := hb
    rw [h1] at g1
    cases g1
    rw [g3]
    exact h3
  | remote t p ms =>
    refine wp_mono _ fs ?_ (wp_fileSession t p htf ms fs hw)
    intro r fs' h hr b hb
    obtain ⟨ds, h1, h2⟩ := hb
    rw [h2]
    exact h hr ds h1
  | archive t p ps fails =>
    refine wp_mono _ fs ?_ (wp_archiveSession t p htf ps fails fs hw)
    intro r fs' h hr b hb
    rw [hb.2]
    exact (h hr).2

end Casync.Install
