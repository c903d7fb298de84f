import Verif.Spec.Gc
import Verif.Spec.Store
import Verif.Lemmas.Exec
import Verif.Props.ChunkId
import Verif.Props.Index
/-!
C16: garbage collection.
-/
namespace Casync.Gc
open Casync Os ChunkFile

/-! ## The ids in use -/

theorem Res.bind_ok {α β : Type} {x : Res α} {f : α → Res β} {b : β} (h : (x >>= f) = .ok b) : ∃ a, x = .ok a ∧ f a = .ok b := by
  cases x with
  | ok a => exact ⟨a, rfl, h⟩
  | err e => cases h
  | ub => cases h

theorem addIndex_used {c c' : Coll} {f : Bytes} (h : addIndex c f = .ok c') :
    ∃ cs i, Index.readAll f = .ok (cs, i) ∧ c'.used = c.used ++ cs.map (·.id) ∧ c'.nUsed = c.nUsed + cs.length := by
  unfold addIndex at h
  split at h
  · cases h
  · cases h
  · split at h
    · rename_i cs i hr
      cases h
      exact ⟨cs, i, hr, rfl, rfl⟩
    · cases h

theorem addIndexes_used (files : List Bytes) : ∀ (c c' : Coll), addIndexes c files = .ok c' →
    (∀ f ∈ files, ∃ r, Index.readAll f = .ok r) ∧ ∀ id, id ∈ c'.used ↔ id ∈ c.used ∨ Referenced files id := by
  induction files with
  | nil =>
    intro c c' h
    cases h
    refine ⟨fun f hf => (by cases hf), fun id => ⟨Or.inl, ?_⟩⟩
    rintro (h | ⟨f, hf, _⟩)
    · exact h
    · cases hf
  | cons f fs ih =>
    intro c c' h
    obtain ⟨c1, h1, h2⟩ := Res.bind_ok h
    obtain ⟨cs, i, hr, hu, _⟩ := addIndex_used h1
    obtain ⟨g1, g2⟩ := ih c1 c' h2
    refine ⟨?_, ?_⟩
    · intro f' hf'
      rcases List.mem_cons.1 hf' with rfl | hf'
      · exact ⟨_, hr⟩
      · exact g1 f' hf'
    · intro id
      rw [g2 id, hu, List.mem_append, List.mem_map]
      constructor
      · rintro ((h | ⟨c, hc, rfl⟩) | ⟨f', hf', h⟩)
        · exact Or.inl h
        · exact Or.inr ⟨f, List.mem_cons_self, cs, i, hr, c, hc, rfl⟩
        · exact Or.inr ⟨f', List.mem_cons_of_mem _ hf', h⟩
      · rintro (h | ⟨f', hf', cs', i', hr', c, hc, rfl⟩)
        · exact Or.inl (Or.inl h)
        · rcases List.mem_cons.1 hf' with rfl | hf'
          · rw [hr] at hr'
            cases hr'
            exact Or.inl (Or.inr ⟨c, hc, rfl⟩)
          · exact Or.inr ⟨f', hf', cs', i', hr', c, hc, rfl⟩

/-! ## What may be removed -/

/-- `p` is a file that the clean-up may remove: a file in a directory that was listed, which looks like a chunk that is not in use. -/
def Collectable (root parent : Bytes) (used : List Bytes) (l : Listing) (p : Path) : Prop :=
  ∃ s ∈ l.subs, ∃ d ∈ s.entries, ∃ id, p = resolve root parent s.name ++ d.name ∧ Looks id d.name ∧ id ∉ used

/-- All system calls that a program may issue, whatever the answers are, satisfy `S`. -/
def Calls {α : Type} (S : Call → Prop) : Prog α → Prop
  | .ret _ => True
  | .call c k => S c ∧ ∀ a, Calls S (k a)

theorem takeWhile_parse {name id : Bytes} (hz : (0 : UInt8) ∉ name)
    (h : ChunkId.parse (name.takeWhile (· ≠ 46)) = .ok (some id)) : id.length = 32 ∧ name.takeWhile (· ≠ 46) = ChunkId.format id := by
  have hnul : ∀ c ∈ name.takeWhile (· ≠ 46), c ≠ 0 := by
    intro c hc h0
    subst h0
    exact hz (List.takeWhile_subset _ hc)
  obtain ⟨h1, h2⟩ := (ChunkId.C11_parse_iff _ id hnul).1 h
  have h3 := ChunkId.denotes_format h2
  rw [h3, ChunkId.format_length] at h1
  exact ⟨by omega, h3⟩

theorem format_no_dot : ∀ (id : Bytes), ∀ c ∈ ChunkId.format id, c ≠ 46 := by
  have key : ∀ x : UInt8, ChunkId.encodeChar x ≠ 46 := by
    intro x
    have : ∀ n : Fin 256, ChunkId.encodeChar (UInt8.ofNat n.val) ≠ 46 := by decide +kernel
    have h := this ⟨x.toNat, x.toNat_lt⟩
    rwa [UInt8.ofNat_toNat] at h
  intro id
  induction id with
  | nil => intro c hc; cases hc
  | cons b bs ih =>
    intro c hc
    simp only [ChunkId.format, List.mem_cons] at hc
    rcases hc with rfl | rfl | hc
    · exact key _
    · exact key _
    · exact ih c hc

theorem takeWhile_format (id rest : Bytes) : (ChunkId.format id ++ 46 :: rest).takeWhile (· ≠ 46) = ChunkId.format id := by
  rw [List.takeWhile_append_of_pos]
  · simp
  · intro c hc
    simpa using format_no_dot id c hc

theorem takeWhile_dot {name : Bytes} (h : (46 : UInt8) ∈ name) : ∃ rest, name = name.takeWhile (· ≠ 46) ++ 46 :: rest := by
  induction name with
  | nil => cases h
  | cons a as ih =>
    by_cases ha : a = 46
    · subst ha; exact ⟨as, by simp⟩
    · obtain ⟨rest, hr⟩ := ih (by
        rcases List.mem_cons.1 h with h | h
        · exact absurd h.symm ha
        · exact h)
      refine ⟨rest, ?_⟩
      rw [List.takeWhile_cons_of_pos (by simpa using ha), List.cons_append, ← hr]

theorem isChunkEntry_iff (d : Dirent) : isChunkEntry d = true ↔
    (d.type = .reg ∨ d.type = .lnk ∨ d.type = .unknown) ∧ d.name.head? ≠ some 46 ∧ cacnk <:+ d.name := by
  simp [isChunkEntry, List.isSuffixOf_iff_suffix, or_assoc, and_assoc]

theorem suffix_dot {name : Bytes} (h : cacnk <:+ name) : (46 : UInt8) ∈ name := by
  obtain ⟨t, rfl⟩ := h
  simp [cacnk]

theorem calls_removeDir {S : Call → Prop} {root sub : Bytes} {k : Prog (Res Unit)} (hd : S (.rmdir (root ++ sub)))
    (hk : Calls S k) : Calls S (removeDir root sub k) := by
  unfold removeDir
  split
  · exact hk
  · exact ⟨hd, fun _ => hk⟩

theorem calls_visit {S : Call → Prop} {root parent : Bytes} {used : List Bytes} {dry : Bool} {sub name : Bytes} {k : Prog (Res Unit)}
    (hz : (0 : UInt8) ∉ name) (hn : cacnk <:+ name)
    (hu : dry = false → ∀ id, Looks id name → id ∉ used → S (.unlink (resolve root parent sub ++ name)))
    (hd : dry = false → S (.rmdir (root ++ sub))) (hk : Calls S k) : Calls S (visit root parent used dry sub name k) := by
  unfold visit
  split
  · rename_i id hp
    split
    · exact hk
    · rename_i hc
      split
      · exact hk
      · rename_i hdry
        obtain ⟨h1, h2⟩ := takeWhile_parse hz hp
        obtain ⟨rest, hr⟩ := takeWhile_dot (suffix_dot hn)
        refine ⟨hu (by simpa using hdry) id ⟨h1, ⟨rest, by rw [← h2]; exact hr⟩, hn⟩ (by simpa using hc), ?_⟩
        intro a
        cases a with
        | err e => exact hk
        | ok => exact calls_removeDir (hd (by simpa using hdry)) hk
        | fd => exact calls_removeDir (hd (by simpa using hdry)) hk
        | count => exact calls_removeDir (hd (by simpa using hdry)) hk
        | data => exact calls_removeDir (hd (by simpa using hdry)) hk
  · exact hk
  · exact True.intro

theorem calls_visitEntries {S : Call → Prop} {root parent : Bytes} {used : List Bytes} {dry : Bool} {sub : Bytes} {k : Prog (Res Unit)}
    (hd : dry = false → S (.rmdir (root ++ sub))) (hk : Calls S k) : ∀ (ds : List Dirent),
    (∀ d ∈ ds, (0 : UInt8) ∉ d.name) →
    (dry = false → ∀ d ∈ ds, ∀ id, Looks id d.name → id ∉ used → S (.unlink (resolve root parent sub ++ d.name))) →
    Calls S (visitEntries root parent used dry sub k ds)
  | [], _, _ => hk
  | d :: ds, hz, hu => by
    unfold visitEntries
    have ih := calls_visitEntries hd hk ds (fun d hd => hz d (List.mem_cons_of_mem _ hd))
      (fun h d hd => hu h d (List.mem_cons_of_mem _ hd))
    split
    · rename_i hc
      exact calls_visit (hz d List.mem_cons_self) ((isChunkEntry_iff d).1 hc).2.2 (fun h => hu h d List.mem_cons_self) hd ih
    · exact ih

theorem calls_cleanupLoop {S : Call → Prop} {root parent : Bytes} {used : List Bytes} {dry : Bool} {err : Option Errno} :
    ∀ (ss : List Sub), (∀ s ∈ ss, ∀ d ∈ s.entries, (0 : UInt8) ∉ d.name) →
    (dry = false → ∀ s ∈ ss, S (.rmdir (root ++ s.name))) →
    (dry = false → ∀ s ∈ ss, ∀ d ∈ s.entries, ∀ id, Looks id d.name → id ∉ used → S (.unlink (resolve root parent s.name ++ d.name))) →
    Calls S (cleanupLoop root parent used dry err ss)
  | [], _, _, _ => by unfold cleanupLoop; exact True.intro
  | s :: ss, hz, hd, hu => by
    have ih := calls_cleanupLoop (S := S) (root := root) (parent := parent) (used := used) (dry := dry) (err := err) ss
      (fun s hs => hz s (List.mem_cons_of_mem _ hs)) (fun h s hs => hd h s (List.mem_cons_of_mem _ hs))
      (fun h s hs => hu h s (List.mem_cons_of_mem _ hs))
    unfold cleanupLoop
    split
    · exact ih
    · exact True.intro
    · refine calls_visitEntries (fun h => hd h s List.mem_cons_self) ?_ _ (hz s List.mem_cons_self) (fun h => hu h s List.mem_cons_self)
      split
      · exact True.intro
      · exact ih

/-- **C16** (safety, of every system call): whatever directory listings and answers the clean-up gets, also while other processes work on the
store, it only ever removes files whose name starts with the id of a chunk that no index references and ends in ".cacnk", in one of
the directories it listed, and tries to remove entries of the store directory that are empty directories. In a dry run it issues no system call at
all. -/
theorem C16_calls (root parent : Bytes) (indexes : List Bytes) (dry : Bool) (l : Listing) (hl : Names l) :
    Calls (fun c => dry = false ∧ ((∃ p, c = .unlink p ∧
        ∃ s ∈ l.subs, ∃ d ∈ s.entries, ∃ id, p = resolve root parent s.name ++ d.name ∧ Looks id d.name ∧ ¬ Referenced indexes id) ∨
      (∃ s ∈ l.subs, c = .rmdir (root ++ s.name)))) (gc root parent indexes dry l) := by
  unfold gc
  split
  · rename_i c hc
    have hu := (addIndexes_used indexes {} c hc).2
    refine calls_cleanupLoop _ (fun s hs d hd => (hl s hs d hd).2) ?_ ?_
    · intro h s hs
      exact ⟨h, Or.inr ⟨s, hs, rfl⟩⟩
    · intro h s hs d hd id hlk hid
      exact ⟨h, Or.inl ⟨_, rfl, s, hs, d, hd, id, rfl, hlk, fun hr => hid ((hu id).2 (Or.inr hr))⟩⟩
  · exact True.intro
  · exact True.intro

/-- Names disappear only as the system calls say. -/
theorem calls_runFor {α : Type} {S : Call → Prop} (R : Path → Prop)
    (hS : ∀ c, S c → (∃ p, c = .unlink p ∧ R p) ∨ (∃ p, c = .rmdir p))
    (chs : List Choice) : ∀ (P : Prog α) (fs fs' : FS) (P' : Prog α), Calls S P → runFor chs fs P = (fs', P') →
    fs'.data = fs.data ∧ ∀ p, fs'.names p = fs.names p ∨ (fs'.names p = none ∧ (R p ∨ fs.names p = some .dir)) := by
  induction chs with
  | nil => intro P fs fs' P' _ h; cases h; exact ⟨rfl, fun _ => Or.inl rfl⟩
  | cons ch chs ih =>
    intro P fs fs' P' hc h
    cases P with
    | ret a => cases h; exact ⟨rfl, fun _ => Or.inl rfl⟩
    | call c k =>
      obtain ⟨h1, h2⟩ := hc
      obtain ⟨g1, g2⟩ := ih _ _ _ _ (h2 _) h
      have step : (sem fs c ch).2.data = fs.data ∧ ∀ p, (sem fs c ch).2.names p = fs.names p ∨
          ((sem fs c ch).2.names p = none ∧ (R p ∨ fs.names p = some .dir)) := by
        rcases hS c h1 with ⟨p, rfl, hp⟩ | ⟨p, rfl⟩
        · unfold sem
          split
          · exact ⟨rfl, fun _ => Or.inl rfl⟩
          · simp only
            split
            · exact ⟨rfl, fun _ => Or.inl rfl⟩
            split
            · exact ⟨rfl, fun _ => Or.inl rfl⟩
            · refine ⟨rfl, fun q => ?_⟩
              by_cases hq : q = p
              · subst hq; exact Or.inr ⟨by simp [setName], Or.inl hp⟩
              · exact Or.inl (by simp [setName, hq])
        · unfold sem
          split
          · exact ⟨rfl, fun _ => Or.inl rfl⟩
          · simp only
            split
            · exact ⟨rfl, fun _ => Or.inl rfl⟩
            split
            · exact ⟨rfl, fun _ => Or.inl rfl⟩
            rename_i hdir
            split
            · exact ⟨rfl, fun _ => Or.inl rfl⟩
            · refine ⟨rfl, fun q => ?_⟩
              by_cases hq : q = p
              · subst hq; exact Or.inr ⟨by simp [setName], Or.inr (by simpa using hdir)⟩
              · exact Or.inl (by simp [setName, hq])
      refine ⟨g1.trans step.1, fun p => ?_⟩
      rcases g2 p with hp | ⟨hp, hr⟩
      · rcases step.2 p with hq | ⟨hq, hr⟩
        · exact Or.inl (hp.trans hq)
        · exact Or.inr ⟨hp.trans hq, hr⟩
      · rcases step.2 p with hq | ⟨hq, hr'⟩
        · rcases hr with hr | hr
          · exact Or.inr ⟨hp, Or.inl hr⟩
          · exact Or.inr ⟨hp, Or.inr (hq ▸ hr)⟩
        · exact Or.inr ⟨hp, hr'⟩

/-- **C16** (safety): stop the garbage collection anywhere, fail any system call. Every file that is gone afterwards is one in a listed
directory with the name `<id>.….cacnk` of a chunk that no index references; everything else has the same contents as before. -/
theorem C16_removes_only_unreferenced_partial (root parent : Bytes) (indexes : List Bytes) (dry : Bool) (l : Listing) (hl : Names l)
    (fs fs' : FS) (choices : List Choice) (P' : Prog (Res Unit))
    (hr : runFor choices fs (gc root parent indexes dry l) = (fs', P')) (p : Path) :
    content fs' p = content fs p ∨
    (∃ s ∈ l.subs, ∃ d ∈ s.entries, ∃ id, p = resolve root parent s.name ++ d.name ∧ Looks id d.name ∧ ¬ Referenced indexes id) := by
  obtain ⟨h1, h2⟩ := calls_runFor (fun p => ∃ s ∈ l.subs, ∃ d ∈ s.entries, ∃ id, p = resolve root parent s.name ++ d.name ∧
    Looks id d.name ∧ ¬ Referenced indexes id) (by
      rintro c ⟨_, ⟨p, rfl, hp⟩ | ⟨s, _, rfl⟩⟩
      · exact Or.inl ⟨p, rfl, hp⟩
      · exact Or.inr ⟨_, rfl⟩) choices _ fs fs' P' (C16_calls root parent indexes dry l hl) hr
  rcases h2 p with h | ⟨h, hR | hd⟩
  · left; simp only [content, h, h1]
  · exact Or.inr hR
  · left; simp only [content, h, hd]

/-- The last component of a path. -/
theorem append_noslash {a b c d : Bytes} (h : a ++ 47 :: b = c ++ d) (hb : (47 : UInt8) ∉ b) (hd : (47 : UInt8) ∉ d)
    (hc : c.getLast? = some 47) : b = d := by
  obtain ⟨c', rfl⟩ : ∃ c', c = c' ++ [47] := by
    rw [List.getLast?_eq_some_iff] at hc
    exact hc
  have h' : a ++ 47 :: b = c' ++ 47 :: d := by simpa using h
  induction a generalizing c' with
  | nil =>
    cases c' with
    | nil => simpa using h'
    | cons x xs =>
      simp only [List.nil_append, List.cons_append, List.cons.injEq] at h'
      exact absurd (h'.2 ▸ by simp) hb
  | cons y ys ih =>
    cases c' with
    | nil =>
      simp only [List.nil_append, List.cons_append, List.cons.injEq] at h'
      exact absurd (h'.2 ▸ by simp) hd
    | cons x xs =>
      simp only [List.cons_append, List.cons.injEq] at h'
      exact ih xs (by simpa using h'.2) (by simp) h'.2

theorem resolve_last (root parent sub : Bytes) (hr : root.getLast? = some 47) (hp : parent.getLast? = some 47) :
    (resolve root parent sub).getLast? = some 47 := by
  unfold resolve
  split
  · exact hr
  split
  · exact hp
  · simp

theorem formatPath_name (root id suf : Bytes) : ChunkId.formatPath root id suf =
    (root ++ (ChunkId.format id).take 4) ++ 47 :: (ChunkId.format id ++ suf) := by
  simp [ChunkId.formatPath]

theorem format_no_slash (id : Bytes) : (47 : UInt8) ∉ ChunkId.format id := by
  induction id with
  | nil => simp [ChunkId.format]
  | cons b bs ih =>
    simp only [ChunkId.format, List.mem_cons, not_or]
    exact ⟨fun h => (ChunkId.digit_ne_zero _).2 h.symm, fun h => (ChunkId.digit_ne_zero _).2 h.symm, ih⟩

/-- **C16** (safety): a chunk that one of the indexes references is never removed, compressed or not, whatever happens. -/
theorem C16_referenced_kept (root parent : Bytes) (hroot : root.getLast? = some 47) (hparent : parent.getLast? = some 47)
    (indexes : List Bytes) (dry : Bool) (l : Listing) (hl : Names l)
    (fs fs' : FS) (choices : List Choice) (P' : Prog (Res Unit))
    (hr : runFor choices fs (gc root parent indexes dry l) = (fs', P')) (id : Bytes) (hid : Referenced indexes id)
    (suf : Bytes) (hsuf : suf = cacnk ∨ suf = []) :
    content fs' (ChunkId.formatPath root id suf) = content fs (ChunkId.formatPath root id suf) := by
  rcases C16_removes_only_unreferenced_partial root parent indexes dry l hl fs fs' choices P' hr (ChunkId.formatPath root id suf) with
    h | ⟨s, hs, d, hd, id', hp, ⟨_, ⟨rest, hn⟩, hlk⟩, hnr⟩
  · exact h
  · exfalso
    rw [formatPath_name] at hp
    have hname := append_noslash hp (by
      rw [List.mem_append]
      rintro (h | h)
      · exact format_no_slash id h
      · rcases hsuf with rfl | rfl
        · revert h; decide
        · cases h) (hl s hs d hd).1 (resolve_last _ _ _ hroot hparent)
    rcases hsuf with rfl | rfl
    · have : (ChunkId.format id ++ cacnk).takeWhile (· ≠ 46) = ChunkId.format id := takeWhile_format id _
      rw [hname, hn, takeWhile_format] at this
      exact hnr (ChunkId.format_inj this ▸ hid)
    · rw [List.append_nil] at hname
      exact format_no_dot id 46 (by rw [hname, hn]; simp) rfl

/-- **C16**: uncompressed chunks, which have no suffix, are never removed. -/
theorem C16_uncompressed_kept (root parent : Bytes) (hroot : root.getLast? = some 47) (hparent : parent.getLast? = some 47)
    (indexes : List Bytes) (dry : Bool) (l : Listing) (hl : Names l)
    (fs fs' : FS) (choices : List Choice) (P' : Prog (Res Unit))
    (hr : runFor choices fs (gc root parent indexes dry l) = (fs', P')) (id : Bytes) :
    content fs' (ChunkId.formatPath root id []) = content fs (ChunkId.formatPath root id []) := by
  rcases C16_removes_only_unreferenced_partial root parent indexes dry l hl fs fs' choices P' hr (ChunkId.formatPath root id []) with
    h | ⟨s, hs, d, hd, id', hp, ⟨_, ⟨rest, hn⟩, hlk⟩, hnr⟩
  · exact h
  · exfalso
    rw [formatPath_name] at hp
    have hname := append_noslash hp (by
      rw [List.append_nil]
      exact format_no_slash id) (hl s hs d hd).1 (resolve_last _ _ _ hroot hparent)
    rw [List.append_nil] at hname
    exact format_no_dot id 46 (by rw [hname, hn]; simp) rfl

/-- **C16**: a dry run changes nothing. -/
theorem C16_dry_run (root parent : Bytes) (indexes : List Bytes) (l : Listing) (hl : Names l)
    (fs fs' : FS) (choices : List Choice) (P' : Prog (Res Unit))
    (hr : runFor choices fs (gc root parent indexes true l) = (fs', P')) : fs' = fs := by
  have hc := C16_calls root parent indexes true l hl
  cases hg : gc root parent indexes true l with
  | ret a =>
    rw [hg] at hr
    cases choices <;> (cases hr; rfl)
  | call c k =>
    rw [hg] at hc
    exact absurd hc.1.1 (by simp)

/-- **C16**: if one of the indexes cannot be read, nothing is removed. -/
theorem C16_bad_index (root parent : Bytes) (indexes : List Bytes) (dry : Bool) (l : Listing) (f : Bytes) (hf : f ∈ indexes)
    (hbad : ∀ r, Index.readAll f ≠ .ok r) (fs fs' : FS) (choices : List Choice) (P' : Prog (Res Unit))
    (hr : runFor choices fs (gc root parent indexes dry l) = (fs', P')) : fs' = fs := by
  unfold gc at hr
  split at hr
  · rename_i c hc
    obtain ⟨r, h⟩ := (addIndexes_used indexes {} c hc).1 f hf
    exact absurd h (hbad r)
  · cases choices <;> (cases hr; rfl)
  · cases choices <;> (cases hr; rfl)

/-! ## Completeness -/

/-- Names only disappear. -/
def Le (fs fs' : FS) : Prop := ∀ q, fs'.names q = fs.names q ∨ fs'.names q = none

theorem Le.refl (fs : FS) : Le fs fs := fun _ => Or.inl rfl
theorem Le.trans {a b c : FS} (h : Le a b) (g : Le b c) : Le a c := by
  intro q
  rcases g q with g | g
  · rcases h q with h | h
    · exact Or.inl (g.trans h)
    · exact Or.inr (g.trans h)
  · exact Or.inr g
theorem Le.none {a b : FS} (h : Le a b) {q : Path} (hq : a.names q = none) : b.names q = none := by
  rcases h q with h | h
  · exact h.trans hq
  · exact h
theorem Le.notdir {a b : FS} (h : Le a b) {q : Path} (hq : a.names q ≠ some .dir) : b.names q ≠ some .dir := by
  rcases h q with h | h
  · rw [h]; exact hq
  · rw [h]; simp

abbrev Faultless (ch : Choice) : Prop := ch.fail = none

theorem post_removeDir {root sub : Bytes} {k : Prog (Res Unit)} {Q : Res Unit → FS → Prop} {fs : FS}
    (hk : ∀ fs2, Le fs fs2 → post Faultless k Q fs2) : post Faultless (removeDir root sub k) Q fs := by
  unfold removeDir
  split
  · exact hk fs (Le.refl fs)
  · intro ch hch
    refine hk _ ?_
    unfold sem
    rw [hch]
    simp only
    split
    · exact Le.refl fs
    split
    · exact Le.refl fs
    split
    · exact Le.refl fs
    · intro q
      by_cases hq : q = root ++ sub
      · exact Or.inr (by simp [setName, hq])
      · exact Or.inl (by simp [setName, hq])

theorem looks_parse {name id : Bytes} (h : Looks id name) : ChunkId.parse (name.takeWhile (· ≠ 46)) = .ok (some id) := by
  obtain ⟨h1, ⟨rest, rfl⟩, _⟩ := h
  rw [takeWhile_format]
  exact ChunkId.C11_round_trip id h1

theorem post_visit {root parent : Bytes} {used : List Bytes} {sub name : Bytes} {k : Prog (Res Unit)} {Q : Res Unit → FS → Prop} {fs : FS}
    (hk : ∀ fs2, Le fs fs2 → (∀ id, Looks id name → id ∉ used → fs.names (resolve root parent sub ++ name) ≠ some .dir →
      fs2.names (resolve root parent sub ++ name) = none) → post Faultless k Q fs2) :
    post Faultless (visit root parent used false sub name k) Q fs := by
  unfold visit
  obtain ⟨r, hp⟩ := ChunkId.C11_parse_total (name.takeWhile (· ≠ 46))
  rw [hp]
  cases r with
  | none =>
    refine hk fs (Le.refl fs) ?_
    intro id hlk
    rw [looks_parse hlk] at hp
    cases hp
  | some id =>
    simp only
    split
    · rename_i hc
      refine hk fs (Le.refl fs) ?_
      intro id' hlk hn
      rw [looks_parse hlk] at hp
      cases hp
      exact absurd (by simpa using hc) hn
    · simp only [Bool.false_eq_true, if_false]
      intro ch hch
      by_cases h1 : fs.names (resolve root parent sub ++ name) = none
      · have : sem fs (.unlink (resolve root parent sub ++ name)) ch = (.err .ENOENT, fs) := by
          unfold sem; rw [hch]; simp only [if_pos h1]
        rw [this]
        exact hk fs (Le.refl fs) (fun _ _ _ _ => h1)
      · by_cases h2 : fs.names (resolve root parent sub ++ name) = some .dir
        · have : sem fs (.unlink (resolve root parent sub ++ name)) ch = (.err .EISDIR, fs) := by
            unfold sem; rw [hch]; simp only [if_neg h1, if_pos h2]
          rw [this]
          exact hk fs (Le.refl fs) (fun _ _ _ h => absurd h2 h)
        · have : sem fs (.unlink (resolve root parent sub ++ name)) ch = (.ok, setName fs (resolve root parent sub ++ name) none) := by
            unfold sem; rw [hch]; simp only [if_neg h1, if_neg h2]
          rw [this]
          refine post_removeDir ?_
          intro fs2 hle
          have hle1 : Le fs (setName fs (resolve root parent sub ++ name) none) := by
            intro q
            by_cases hq : q = resolve root parent sub ++ name
            · exact Or.inr (by simp [setName, hq])
            · exact Or.inl (by simp [setName, hq])
          refine hk fs2 (hle1.trans hle) ?_
          intro _ _ _ _
          exact hle.none (by simp [setName])

theorem post_visitEntries {root parent : Bytes} {used : List Bytes} {sub : Bytes} {k : Prog (Res Unit)} {Q : Res Unit → FS → Prop} :
    ∀ (ds : List Dirent) (fs : FS),
    (∀ fs2, Le fs fs2 → (∀ d ∈ ds, isChunkEntry d = true → ∀ id, Looks id d.name → id ∉ used →
      fs.names (resolve root parent sub ++ d.name) ≠ some .dir → fs2.names (resolve root parent sub ++ d.name) = none) →
      post Faultless k Q fs2) →
    post Faultless (visitEntries root parent used false sub k ds) Q fs
  | [], fs, hk => hk fs (Le.refl fs) (fun d hd => by cases hd)
  | d :: ds, fs, hk => by
    unfold visitEntries
    by_cases hc : isChunkEntry d = true
    · rw [if_pos hc]
      refine post_visit ?_
      intro fs2 hle hd
      refine post_visitEntries ds fs2 ?_
      intro fs3 hle3 hds
      refine hk fs3 (hle.trans hle3) ?_
      intro d' hd' hc' id hlk hn hnd
      rcases List.mem_cons.1 hd' with rfl | hd'
      · exact hle3.none (hd id hlk hn hnd)
      · exact hds d' hd' hc' id hlk hn (hle.notdir hnd)
    · rw [if_neg hc]
      refine post_visitEntries ds fs ?_
      intro fs3 hle3 hds
      refine hk fs3 hle3 ?_
      intro d' hd' hc' id hlk hn hnd
      rcases List.mem_cons.1 hd' with rfl | hd'
      · exact absurd hc' hc
      · exact hds d' hd' hc' id hlk hn hnd

theorem post_cleanupLoop {root parent : Bytes} {used : List Bytes} : ∀ (ss : List Sub) (fs : FS),
    (∀ s ∈ ss, s.openErr = none ∧ s.readErr = none) →
    post Faultless (cleanupLoop root parent used false none ss) (fun r fs' => r = .ok () ∧ Le fs fs' ∧
      ∀ s ∈ ss, ∀ d ∈ s.entries, isChunkEntry d = true → ∀ id, Looks id d.name → id ∉ used →
        fs.names (resolve root parent s.name ++ d.name) ≠ some .dir → fs'.names (resolve root parent s.name ++ d.name) = none) fs
  | [], fs, _ => ⟨rfl, Le.refl fs, fun s hs => by cases hs⟩
  | s :: ss, fs, hc => by
    obtain ⟨h1, h2⟩ := hc s List.mem_cons_self
    unfold cleanupLoop
    rw [h1, h2]
    refine post_visitEntries _ _ ?_
    intro fs2 hle hd
    refine post_mono _ _ ?_ (post_cleanupLoop ss fs2 (fun s hs => hc s (List.mem_cons_of_mem _ hs)))
    rintro r fs' ⟨g1, g2, g3⟩
    refine ⟨g1, hle.trans g2, ?_⟩
    intro s' hs' d hd' hce id hlk hn hnd
    rcases List.mem_cons.1 hs' with rfl | hs'
    · exact g2.none (hd d hd' hce id hlk hn hnd)
    · exact g3 s' hs' d hd' hce id hlk hn (hle.notdir hnd)

theorem chunkName_looks (id : Bytes) (h : id.length = 32) : Looks id (chunkName id) :=
  ⟨h, ⟨_, rfl⟩, List.suffix_append _ _⟩

theorem chunkName_head (id : Bytes) (h : id.length = 32) : (chunkName id).head? ≠ some 46 := by
  cases id with
  | nil => cases h
  | cons b bs =>
    simp only [chunkName, ChunkId.format, List.cons_append, List.head?_cons, ne_eq, Option.some.injEq]
    exact format_no_dot (b :: bs) _ (by simp [ChunkId.format])

theorem take4_ne_dots (id : Bytes) (h : id.length = 32) : (ChunkId.format id).take 4 ≠ [46] ∧ (ChunkId.format id).take 4 ≠ [46, 46] := by
  have hl : ((ChunkId.format id).take 4).length = 4 := by
    rw [List.length_take, ChunkId.format_length, h]
    decide
  constructor <;> (intro he; rw [he] at hl; cases hl)

theorem resolve_chunk (root parent id : Bytes) (h : id.length = 32) :
    resolve root parent ((ChunkId.format id).take 4) ++ chunkName id = ChunkId.formatPath root id cacnk := by
  unfold resolve
  rw [if_neg (take4_ne_dots id h).1, if_neg (take4_ne_dots id h).2, formatPath_name, chunkName]
  simp

/-- **C16** (completeness): if the indexes can be read, the store can be listed and no system call fails, then afterwards there is no compressed chunk
left in the store that no index references (a directory with such a name excepted). -/
theorem C16_removes_all_unreferenced (root parent : Bytes) (indexes : List Bytes) (l : Listing) (fs : FS) (env : Nat → Choice) (t : Nat)
    (hidx : ∀ f ∈ indexes, ∃ r, Index.readAll f = .ok r) (hclean : Clean l) (hcov : Covers root fs l) (henv : Store.NoFaults env)
    (id : Bytes) (hid : id.length = 32) (hun : ¬ Referenced indexes id)
    (hnd : fs.names (ChunkId.formatPath root id cacnk) ≠ some .dir) :
    (exec env t fs (gc root parent indexes false l)).1 = .ok () ∧
    (exec env t fs (gc root parent indexes false l)).2.names (ChunkId.formatPath root id cacnk) = none := by
  have hall : ∀ (files : List Bytes) (c : Coll), (∀ f ∈ files, ∃ r, Index.readAll f = .ok r) → ∃ c', addIndexes c files = .ok c' := by
    intro files
    induction files with
    | nil => intro c _; exact ⟨c, rfl⟩
    | cons f fs ih =>
      intro c hf
      obtain ⟨⟨cs, i⟩, hr⟩ := hf f List.mem_cons_self
      have : ∃ j, Index.openIndex (Index.newRead f) = .ok j := by
        cases ho : Index.openIndex (Index.newRead f) with
        | ok j => exact ⟨j, rfl⟩
        | err e =>
          simp only [Index.readAll, Index.readLoop, Index.readChunk, ho] at hr
          cases hr
        | ub =>
          simp only [Index.readAll, Index.readLoop, Index.readChunk, ho] at hr
          cases hr
      obtain ⟨j, hj⟩ := this
      obtain ⟨c', hc'⟩ := ih { nUsed := c.nUsed + cs.length, used := c.used ++ cs.map (·.id) } (fun f hf' => hf f (List.mem_cons_of_mem _ hf'))
      refine ⟨c', ?_⟩
      show (addIndex c f >>= fun c => addIndexes c fs) = .ok c'
      have : addIndex c f = .ok { nUsed := c.nUsed + cs.length, used := c.used ++ cs.map (·.id) } := by
        unfold addIndex; rw [hj, hr]
      rw [this]
      exact hc'
  obtain ⟨c, hc⟩ := hall indexes {} hidx
  have hu := (addIndexes_used indexes {} c hc).2
  have hg : gc root parent indexes false l = cleanupLoop root parent c.used false none l.subs := by
    unfold gc cleanup
    rw [hc, hclean.1]
  rw [hg]
  obtain ⟨h1, h2, h3⟩ := post_exec _ _ (post_cleanupLoop (root := root) (parent := parent) (used := c.used) l.subs fs
    (fun s hs => ⟨(hclean.2 s hs).1, (hclean.2 s hs).2⟩)) env henv t
  refine ⟨h1, ?_⟩
  by_cases hex : fs.names (ChunkId.formatPath root id cacnk) = none
  · exact h2.none hex
  · obtain ⟨s, hs, hsn, d, hd, hdn, hdt⟩ := hcov id hid hex
    have := h3 s hs d hd ((isChunkEntry_iff d).2 ⟨hdt, by rw [hdn]; exact chunkName_head id hid, by rw [hdn]; exact List.suffix_append _ _⟩)
      id (by rw [hdn]; exact chunkName_looks id hid) (by
        intro h
        rcases (hu id).1 h with h | h
        · cases h
        · exact hun h)
    rw [hsn, hdn, resolve_chunk root parent id hid] at this
    exact this hnd

/-! ## A second run -/

theorem nothing_to_do {root parent : Bytes} {used : List Bytes} {sub : Bytes} {k : Prog (Res Unit)} : ∀ (ds : List Dirent),
    (∀ d ∈ ds, isChunkEntry d = true → (0 : UInt8) ∉ d.name ∧ ∀ id, Looks id d.name → id ∈ used) →
    visitEntries root parent used false sub k ds = k
  | [], _ => rfl
  | d :: ds, h => by
    unfold visitEntries
    have ih := nothing_to_do (root := root) (parent := parent) (used := used) (sub := sub) (k := k) ds
      (fun d hd => h d (List.mem_cons_of_mem _ hd))
    by_cases hc : isChunkEntry d = true
    · rw [if_pos hc, ih]
      unfold visit
      obtain ⟨r, hp⟩ := ChunkId.C11_parse_total (d.name.takeWhile (· ≠ 46))
      rw [hp]
      cases r with
      | none => rfl
      | some id =>
        have hz := (h d List.mem_cons_self hc).1
        obtain ⟨h1, h2⟩ := takeWhile_parse hz hp
        have hsuf := ((isChunkEntry_iff d).1 hc).2.2
        obtain ⟨rest, hr⟩ := takeWhile_dot (suffix_dot hsuf)
        have := (h d List.mem_cons_self hc).2 id ⟨h1, ⟨rest, by rw [← h2]; exact hr⟩, hsuf⟩
        simp [this]
    · rw [if_neg hc, ih]

theorem nothing_to_do_loop {root parent : Bytes} {used : List Bytes} {err : Option Errno} : ∀ (ss : List Sub),
    (∀ s ∈ ss, ∀ d ∈ s.entries, isChunkEntry d = true → (0 : UInt8) ∉ d.name ∧ ∀ id, Looks id d.name → id ∈ used) →
    ∃ r, cleanupLoop root parent used false err ss = .ret r
  | [], _ => by unfold cleanupLoop; exact ⟨_, rfl⟩
  | s :: ss, h => by
    unfold cleanupLoop
    split
    · exact nothing_to_do_loop ss (fun s hs => h s (List.mem_cons_of_mem _ hs))
    · exact ⟨_, rfl⟩
    · rw [nothing_to_do _ (h s List.mem_cons_self)]
      split
      · exact ⟨_, rfl⟩
      · exact nothing_to_do_loop ss (fun s hs => h s (List.mem_cons_of_mem _ hs))

/-- **C16**: a second run with the same indexes removes nothing, whatever fails in it. The second listing shows only files that are there after the
first run and are in the first listing (no process has added any), with the type they have; no name in question is a directory. -/
theorem C16_second_run (root parent : Bytes) (indexes : List Bytes) (l l' : Listing) (hl' : Names l') (fs : FS) (env : Nat → Choice) (t : Nat)
    (hclean : Clean l) (henv : Store.NoFaults env)
    (hsub : ∀ s ∈ l'.subs, ∀ d ∈ s.entries, ∃ s0 ∈ l.subs, s0.name = s.name ∧ d ∈ s0.entries ∧
      fs.names (resolve root parent s.name ++ d.name) ≠ some .dir)
    (hsound : Sound root parent (exec env t fs (gc root parent indexes false l)).2 l')
    (fs' : FS) (choices : List Choice) (P' : Prog (Res Unit))
    (hr : runFor choices (exec env t fs (gc root parent indexes false l)).2 (gc root parent indexes false l') = (fs', P')) :
    fs' = (exec env t fs (gc root parent indexes false l)).2 := by
  have hret : ∀ (a : Res Unit) (f : FS), runFor choices f (.ret a) = (fs', P') → fs' = f := by
    intro a f h
    cases choices <;> (cases h; rfl)
  cases hc : addIndexes {} indexes with
  | err e =>
    have : gc root parent indexes false l' = .ret (.err e) := by unfold gc; rw [hc]
    rw [this] at hr
    exact hret _ _ hr
  | ub =>
    have : gc root parent indexes false l' = .ret .ub := by unfold gc; rw [hc]
    rw [this] at hr
    exact hret _ _ hr
  | ok c =>
    have hg : ∀ x, gc root parent indexes false x = cleanupLoop root parent c.used false x.err x.subs := by
      intro x
      unfold gc cleanup
      rw [hc]
    rw [hg l, hclean.1] at hsound hr ⊢
    rw [hg l'] at hr
    obtain ⟨_, _, h3⟩ := post_exec _ _ (post_cleanupLoop (root := root) (parent := parent) (used := c.used) l.subs fs
      (fun s hs => ⟨(hclean.2 s hs).1, (hclean.2 s hs).2⟩)) env henv t
    obtain ⟨r, hr'⟩ := nothing_to_do_loop (root := root) (parent := parent) (used := c.used) (err := l'.err) l'.subs (by
      intro s hs d hd hce
      refine ⟨(hl' s hs d hd).2, ?_⟩
      intro id hlk
      obtain ⟨s0, hs0, hn, hd0, hnd⟩ := hsub s hs d hd
      by_cases hm : id ∈ c.used
      · exact hm
      · have := h3 s0 hs0 d hd0 hce id hlk hm (by rw [hn]; exact hnd)
        rw [hn] at this
        exact absurd this (hsound s hs d hd))
    rw [hr'] at hr
    exact hret _ _ hr

/-! ## Where the property is violated -/

def zeros : Bytes := List.replicate 32 0
/-- A store in `/s/` whose parent directory `/` contains a file with the name of a chunk: every directory has the entry "..". -/
def exListing : Listing := ⟨[⟨[46], none, [], none⟩, ⟨[46, 46], none, [⟨chunkName zeros, .reg⟩], none⟩], none⟩
def exFS : FS := ⟨fun p => if p = 47 :: chunkName zeros then some (.file 0) else none, fun _ => [1], 1, true, true⟩

theorem gc_zeros (l : Listing) (h : l.err = none) (root parent : Bytes) :
    gc root parent [] false l = cleanupLoop root parent [] false none l.subs := by
  unfold gc cleanup; simp only [addIndexes, h]

/-- **C16** is violated: files outside the store are removed. The store directory is listed with its entries "." and "..", so that a file with the
name of an unreferenced chunk in the directory that contains the store is removed as well. -/
theorem C16_outside_violated : ∃ (root parent : Bytes) (l : Listing) (fs fs' : FS) (p : Path),
    Names l ∧ Clean l ∧ Sound root parent fs l ∧ ¬ (root <+: p) ∧ content fs p ≠ none ∧
    runFor [⟨none, 0⟩] fs (gc root parent [] false l) = (fs', .ret (.ok ())) ∧ content fs' p = none := by
  refine ⟨[47, 115, 47], [47], exListing, exFS, setName exFS (47 :: chunkName zeros) none, 47 :: chunkName zeros, ?_, ?_, ?_, ?_, ?_, ?_, ?_⟩
  · intro s hs d hd
    simp only [exListing, List.mem_cons, List.not_mem_nil, or_false] at hs
    rcases hs with rfl | rfl
    · cases hd
    · simp only [List.mem_cons, List.not_mem_nil, or_false] at hd
      subst hd
      exact ⟨by decide, by decide⟩
  · refine ⟨rfl, ?_⟩
    intro s hs
    simp only [exListing, List.mem_cons, List.not_mem_nil, or_false] at hs
    rcases hs with rfl | rfl <;> exact ⟨rfl, rfl⟩
  · intro s hs d hd
    simp only [exListing, List.mem_cons, List.not_mem_nil, or_false] at hs
    rcases hs with rfl | rfl
    · cases hd
    · simp only [List.mem_cons, List.not_mem_nil, or_false] at hd
      subst hd
      decide
  · decide
  · decide
  · rw [gc_zeros _ rfl]
    have hv : cleanupLoop [47, 115, 47] [47] [] false none exListing.subs =
        visit [47, 115, 47] [47] [] false [46, 46] (chunkName zeros) (.ret (.ok ())) := by
      have : isChunkEntry ⟨chunkName zeros, .reg⟩ = true := by decide
      simp only [exListing, cleanupLoop, visitEntries, this, if_true]
    rw [hv]
    unfold visit
    have hp : ChunkId.parse ((chunkName zeros).takeWhile (· ≠ 46)) = .ok (some zeros) := looks_parse (chunkName_looks zeros rfl)
    have hres : resolve [47, 115, 47] [47] [46, 46] ++ chunkName zeros = 47 :: chunkName zeros := by decide
    rw [hp, hres]
    have hsem : sem exFS (.unlink (47 :: chunkName zeros)) ⟨none, 0⟩ = (.ok, setName exFS (47 :: chunkName zeros) none) := by
      have hn : exFS.names (47 :: chunkName zeros) = some (.file 0) := by simp [exFS]
      simp [sem, hn]
    simp only [List.contains_nil, Bool.false_eq_true, if_false, runFor, hsem]
    simp [removeDir]
  · simp [content, setName]

/-- A file `<id>.x.cacnk` in the subdirectory of the chunk. -/
def exName : Bytes := ChunkId.format zeros ++ [46, 120] ++ cacnk

/-- **C16** is violated: a file that is not a chunk file, since its name is not that of any chunk, but has the id of an unreferenced chunk before
its first dot, is removed. -/
theorem C16_other_file_violated : ∃ (root parent : Bytes) (sub name : Bytes) (fs fs' : FS),
    (∀ id, name ≠ chunkName id) ∧ content fs (root ++ sub ++ [47] ++ name) ≠ none ∧
    runFor [⟨none, 0⟩, ⟨some .EIO, 0⟩] fs (gc root parent [] false ⟨[⟨sub, none, [⟨name, .reg⟩], none⟩], none⟩) = (fs', .ret (.ok ())) ∧
    content fs' (root ++ sub ++ [47] ++ name) = none := by
  let p : Path := [47, 115, 47] ++ [48, 48, 48, 48] ++ [47] ++ exName
  let fs : FS := ⟨fun q => if q = p then some (.file 0) else none, fun _ => [1], 1, true, true⟩
  refine ⟨[47, 115, 47], [47], [48, 48, 48, 48], exName, fs, setName fs p none, ?_, ?_, ?_, ?_⟩
  · intro id h
    have h2 := congrArg (fun l => l.takeWhile (· ≠ 46)) h
    have e1 : exName = ChunkId.format zeros ++ 46 :: (120 :: cacnk) := by decide
    simp only [e1, chunkName] at h2
    rw [takeWhile_format] at h2
    have e2 : (ChunkId.format id ++ cacnk).takeWhile (· ≠ 46) = ChunkId.format id := takeWhile_format id _
    rw [e2] at h2
    have := congrArg List.length h
    simp [exName, chunkName, h2] at this
  · simp [content, fs, p]
  · rw [gc_zeros _ rfl]
    have hv : cleanupLoop [47, 115, 47] [47] [] false none [⟨[48, 48, 48, 48], none, [⟨exName, .reg⟩], none⟩] =
        visit [47, 115, 47] [47] [] false [48, 48, 48, 48] exName (.ret (.ok ())) := by
      have : isChunkEntry ⟨exName, .reg⟩ = true := by decide
      simp only [cleanupLoop, visitEntries, this, if_true]
    rw [hv]
    unfold visit
    have hp : ChunkId.parse (exName.takeWhile (· ≠ 46)) = .ok (some zeros) := looks_parse ⟨rfl, ⟨120 :: cacnk, by decide⟩, by decide⟩
    have hres : resolve [47, 115, 47] [47] [48, 48, 48, 48] ++ exName = p := by decide
    rw [hp, hres]
    have hsem : sem fs (.unlink p) ⟨none, 0⟩ = (.ok, setName fs p none) := by
      have hn : fs.names p = some (.file 0) := by simp [fs]
      simp [sem, hn]
    simp only [List.contains_nil, Bool.false_eq_true, if_false, runFor, hsem]
    simp [removeDir, runFor, sem]
  · have hp : ([47, 115, 47] ++ [48, 48, 48, 48] ++ [47] ++ exName : Bytes) = p := rfl
    rw [hp]
    simp [content, setName]

/-! ## Non-vacuity -/

/-- A store with one chunk that no index references. -/
def exStoreListing : Listing := ⟨[⟨[46], none, [], none⟩, ⟨[48, 48, 48, 48], none, [⟨chunkName zeros, .reg⟩], none⟩], none⟩
def exStoreFS : FS :=
  ⟨fun p => if p = ChunkId.formatPath [47, 115, 47] zeros cacnk then some (.file 0) else none, fun _ => [1], 1, true, true⟩

example : Names exStoreListing ∧ Clean exStoreListing ∧ Covers [47, 115, 47] exStoreFS exStoreListing ∧
    exStoreFS.names (ChunkId.formatPath [47, 115, 47] zeros cacnk) ≠ none ∧ ¬ Referenced [] zeros := by
  refine ⟨?_, ⟨rfl, ?_⟩, ?_, by simp [exStoreFS], fun ⟨f, hf, _⟩ => by cases hf⟩
  · intro s hs d hd
    simp only [exStoreListing, List.mem_cons, List.not_mem_nil, or_false] at hs
    rcases hs with rfl | rfl
    · cases hd
    · simp only [List.mem_cons, List.not_mem_nil, or_false] at hd
      subst hd
      exact ⟨by decide, by decide⟩
  · intro s hs
    simp only [exStoreListing, List.mem_cons, List.not_mem_nil, or_false] at hs
    rcases hs with rfl | rfl <;> exact ⟨rfl, rfl⟩
  · intro id hid h
    have : ChunkId.formatPath [47, 115, 47] id cacnk = ChunkId.formatPath [47, 115, 47] zeros cacnk := by
      simp only [exStoreFS] at h
      split at h
      · assumption
      · exact absurd rfl h
    have := (ChunkId.C11_path_injective _ id zeros _ _ hid rfl this).1
    subst this
    exact ⟨⟨[48, 48, 48, 48], none, [⟨chunkName zeros, .reg⟩], none⟩, by simp [exStoreListing], by decide, _, List.mem_cons_self, rfl, Or.inl rfl⟩

end Casync.Gc
