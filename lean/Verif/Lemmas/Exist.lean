import Verif.Props.StorePut
/-!
When `ca_store_put` says that the chunk exists already (auxiliary; nothing to trust).
-/
namespace Casync.Store
open Casync Os ChunkFile

/-- What holds for all complete runs holds for `post`. -/
theorem exec_shift {α : Type} (env : Nat → Choice) (P : Prog α) : ∀ (fs : FS) (t : Nat), exec env (t + 1) fs P = exec (fun n => env (n + 1)) t fs P := by
  induction P with
  | ret a => intro fs t; rfl
  | call c k ih => intro fs t; exact ih _ _ _

theorem post_of_exec {α : Type} {C : Choice → Prop} (P : Prog α) : ∀ {Q : α → FS → Prop} (fs : FS),
    (∀ env, (∀ t, C (env t)) → Q (exec env 0 fs P).1 (exec env 0 fs P).2) → (∃ ch, C ch) → post C P Q fs := by
  induction P with
  | ret a => intro Q fs h ⟨ch, hc⟩; exact h (fun _ => ch) (fun _ => hc)
  | call c k ih =>
    intro Q fs h hex ch hc
    apply ih _ _ _ hex
    intro env he
    have := h (fun n => match n with | 0 => ch | n + 1 => env n) (by intro t; cases t with | zero => exact hc | succ t => exact he t)
    have e : ∀ (env' : Nat → Choice), exec env' 0 fs (.call c k) = exec env' 1 (sem fs c (env' 0)).2 (k (sem fs c (env' 0)).1) := fun _ => rfl
    rw [e, exec_shift] at this
    exact this

theorem injected_eexist (e : Errno) : injected e ≠ .EEXIST := by cases e <;> decide

theorem post_loopWrite_names (C : Choice → Prop) (i : Nat) (p : Bytes) : ∀ (fs : FS),
    post C (loopWrite i p) (fun r g => g.names = fs.names ∧ r ≠ .err .EEXIST) fs := by
  generalize hn : p.length = n
  induction n using Nat.strongRecOn generalizing p with
  | ind n ih =>
    intro fs
    rw [loopWrite]
    split
    · exact ⟨rfl, by simp⟩
    · rename_i hp
      intro ch _
      cases hf : ch.fail with
      | some e =>
        have : sem fs (.write i p) ch = (.err (injected e), fs) := by unfold sem; rw [hf]
        rw [this]
        exact ⟨rfl, by intro h; injection h with h; exact injected_eexist e h⟩
      | none =>
        have : ∃ m g, sem fs (.write i p) ch = (.count m, g) ∧ g.names = fs.names := by
          unfold sem; rw [hf]; simp only; rw [if_neg hp]; exact ⟨_, _, rfl, rfl⟩
        obtain ⟨m, g, hs, hg⟩ := this
        rw [hs]
        simp only
        have hl : 0 < p.length := List.length_pos_iff.2 hp
        refine post_mono _ _ ?_ (ih _ (by rw [List.length_drop]; omega) (p.drop (max 1 m)) rfl g)
        rintro r g' ⟨h1, h2⟩
        exact ⟨h1.trans hg, h2⟩

theorem post_saveBlocks_names (C : Choice → Prop) (i : Nat) (d : Bytes) : ∀ (cnt : Nat) (fs : FS),
    post C (saveBlocks i cnt d) (fun r g => g.names = fs.names ∧ r ≠ .err .EEXIST) fs := by
  generalize hn : d.length = n
  induction n using Nat.strongRecOn generalizing d with
  | ind n ih =>
    intro cnt fs
    rw [saveBlocks]
    apply post_bind
    refine post_mono _ _ ?_ (post_loopWrite_names C i (d.take BUF) fs)
    rintro r g ⟨h1, h2⟩
    cases r with
    | err e => exact ⟨h1, h2⟩
    | ub => exact ⟨h1, by simp⟩
    | ok u =>
      simp only
      split
      · exact ⟨h1, by simp⟩
      · split
        · refine ⟨h1, ?_⟩
          split <;> simp
        · rename_i hb
          simp only [BUF] at hb
          refine post_mono _ _ ?_ (ih _ (by rw [List.length_drop]; simp only [BUF]; omega) (d.drop BUF) rfl _ g)
          rintro r g' ⟨a, b⟩
          exact ⟨a.trans h1, b⟩

/-- An answer that is neither `EEXIST` nor unexpected. -/
def Plain (x : Ans × FS) (fs : FS) : Prop := (∃ e, e ≠ .EEXIST ∧ x = (.err e, fs)) ∨ ∃ g, x = (.ok, g)

theorem sem_rename2_plain (fs : FS) (a b : Path) (ch : Choice) (hb : fs.names b = none) : Plain (sem fs (.rename2 a b) ch) fs := by
  unfold sem
  cases hf : ch.fail with
  | some e => exact .inl ⟨_, injected_eexist e, rfl⟩
  | none =>
    simp only
    by_cases h1 : (!fs.hasRename2) = true
    · rw [if_pos h1]; exact .inl ⟨_, by decide, rfl⟩
    · rw [if_neg h1]
      by_cases h2 : fs.names a = none
      · rw [if_pos h2]; exact .inl ⟨_, by decide, rfl⟩
      · rw [if_neg h2, if_neg (by rw [hb]; simp)]; exact .inr ⟨_, rfl⟩

theorem sem_link_plain (fs : FS) (a b : Path) (ch : Choice) (hb : fs.names b = none) : Plain (sem fs (.link a b) ch) fs := by
  unfold sem
  cases hf : ch.fail with
  | some e => exact .inl ⟨_, injected_eexist e, rfl⟩
  | none =>
    simp only
    by_cases h1 : (!fs.hasLink) = true
    · rw [if_pos h1]; exact .inl ⟨_, by decide, rfl⟩
    · rw [if_neg h1]
      by_cases h2 : fs.names a = none
      · rw [if_pos h2]; exact .inl ⟨_, by decide, rfl⟩
      · rw [if_neg h2]
        by_cases h3 : fs.names a = some .dir
        · rw [if_pos h3]; exact .inl ⟨_, by decide, rfl⟩
        · rw [if_neg h3, if_neg (by rw [hb]; simp)]; exact .inr ⟨_, rfl⟩

theorem sem_unlink_plain (fs : FS) (a : Path) (ch : Choice) : Plain (sem fs (.unlink a) ch) fs := by
  unfold sem
  cases hf : ch.fail with
  | some e => exact .inl ⟨_, injected_eexist e, rfl⟩
  | none =>
    simp only
    by_cases h1 : fs.names a = none
    · rw [if_pos h1]; exact .inl ⟨_, by decide, rfl⟩
    · rw [if_neg h1]
      by_cases h3 : fs.names a = some .dir
      · rw [if_pos h3]; exact .inl ⟨_, by decide, rfl⟩
      · rw [if_neg h3]; exact .inr ⟨_, rfl⟩

theorem sem_rename_plain (fs : FS) (a b : Path) (ch : Choice) : Plain (sem fs (.rename a b) ch) fs := by
  unfold sem
  cases hf : ch.fail with
  | some e => exact .inl ⟨_, injected_eexist e, rfl⟩
  | none =>
    simp only
    by_cases h1 : fs.names a = none
    · rw [if_pos h1]; exact .inl ⟨_, by decide, rfl⟩
    · rw [if_neg h1]
      by_cases h3 : fs.names b = some .dir
      · rw [if_pos h3]; exact .inl ⟨_, by decide, rfl⟩
      · rw [if_neg h3]
        by_cases h4 : fs.names a = fs.names b
        · rw [if_pos h4]; exact .inr ⟨_, rfl⟩
        · rw [if_neg h4]; exact .inr ⟨_, rfl⟩

theorem post_rename_names (C : Choice → Prop) (a b : Path) (fs : FS) (hb : fs.names b = none) :
    post C (renameNoreplace a b) (fun r _ => r ≠ .err .EEXIST) fs := by
  have no : ∀ (e : Errno), e ≠ .EEXIST → (Res.err e : Res Unit) ≠ .err .EEXIST := by
    intro e h h'; injection h' with h'; exact h h'
  unfold renameNoreplace
  intro ch _
  rcases sem_rename2_plain fs a b ch hb with ⟨e, he, h⟩ | ⟨g, h⟩
  · rw [h]
    simp only
    split
    · exact no e he
    · intro ch1 _
      rcases sem_link_plain fs a b ch1 hb with ⟨e, he, h⟩ | ⟨g, h⟩
      · rw [h]
        simp only
        split
        · exact no e he
        · intro ch2 _
          cases hf2 : ch2.fail with
          | some e2 =>
            have : sem fs (.access b) ch2 = (.err (injected e2), fs) := by unfold sem; rw [hf2]
            rw [this]
            have hn : injected e2 ≠ .ENOENT := by cases e2 <;> decide
            have hi := no _ (injected_eexist e2)
            revert hn hi
            generalize injected e2 = e3
            intro hn hi
            cases e3 <;> first | exact absurd rfl hn | exact hi
          | none =>
            have : sem fs (.access b) ch2 = (.err .ENOENT, fs) := by unfold sem; rw [hf2]; simp only; rw [if_pos hb]
            rw [this]
            intro ch3 _
            rcases sem_rename_plain fs a b ch3 with ⟨e, he, h⟩ | ⟨g, h⟩
            · rw [h]; exact no e he
            · rw [h]; exact fun h => (by cases h)
      · rw [h]
        intro ch2 _
        rcases sem_unlink_plain g a ch2 with ⟨e, he, h⟩ | ⟨g', h⟩
        · rw [h]; intro ch3 _; exact no e he
        · rw [h]; exact fun h => (by cases h)
  · rw [h]; exact fun h => (by cases h)

theorem post_any {α : Type} {C : Choice → Prop} {Q : α → Prop} (P : Prog α) (fs : FS) (h : ∀ a, Q a) : post C P (fun a _ => Q a) fs := by
  induction P generalizing fs with
  | ret a => exact h a
  | call c k ih => intro ch _; exact ih _ _

theorem post_fail {C : Choice → Prop} (pre id tmp : Bytes) (e : Errno) (he : e ≠ .EEXIST) (fs : FS) :
    post C (Prog.bind (fileUnlink pre id tmp) fun _ => Prog.ret (Res.err e : Res Unit)) (fun r _ => r ≠ .err .EEXIST) fs := by
  apply post_bind
  exact post_any (Q := fun _ => (Res.err e : Res Unit) ≠ .err .EEXIST) _ fs (fun _ h => he (by injection h))

/-- A save of an uncompressed chunk says `EEXIST` only if a file of the chunk was there, or the temporary file. -/
theorem post_fileSave_eexist (C : Choice → Prop) (cd : Codec) (s : Saver) (hv : s.Valid) (he : s.eff = .uncompressed) (pre : Bytes) (fs : FS)
    (ht : fs.names (s.temp pre) = none) (hp : ¬ Present fs pre s.id) :
    post C (s.prog cd pre) (fun r _ => r ≠ .err .EEXIST) fs := by
  unfold Saver.prog fileSave
  rw [he, if_neg (by decide)]
  split
  · intro h; injection h with h; cases h
  apply post_bind
  apply post_fileTest
  · rw [decide_eq_false (show ¬ (_ ∨ _) from hp)]
    simp only
    apply post_bind
    have hfin : ∀ suf, suf ≠ s.tmp → ChunkId.formatPath pre s.id suf ≠ s.temp pre := by
      intro suf h1 h2
      exact h1 (formatPath_suffix _ _ _ _ _ hv.1 hv.1 h2).1
    have hne1 := hfin [] (Ne.symm hv.2.1)
    have hne2 := hfin cacnk (Ne.symm hv.2.2)
    have rest : ∀ (g : FS) (ino : Nat), g.names (ChunkId.formatPath pre s.id []) = none → g.names (ChunkId.formatPath pre s.id cacnk) = none →
        post C ((Prog.bind (saveData cd s.algorithm ino .uncompressed (if s.des = .asIs then .uncompressed else s.des) s.data) fun
              | .err e => Prog.bind (fileUnlink pre s.id s.tmp) fun _ => .ret (.err e)
              | .ub => .ret .ub
              | .ok () =>
                Prog.bind (renameNoreplace (ChunkId.formatPath pre s.id s.tmp)
                    (ChunkId.formatPath pre s.id (if (if s.des = .asIs then Compression.uncompressed else s.des) = .compressed then cacnk else []))) fun
                  | .err e => Prog.bind (fileUnlink pre s.id s.tmp) fun _ => .ret (.err e)
                  | .ub => .ret .ub
                  | .ok () => .ret (.ok ())) : Prog (Res Unit)) (fun r _ => r ≠ .err .EEXIST) g := by
      intro g ino h1 h2
      apply post_bind
      have hsd : post C (saveData cd s.algorithm ino .uncompressed (if s.des = .asIs then .uncompressed else s.des) s.data)
          (fun r g' => g'.names = g.names ∧ r ≠ .err .EEXIST) g := by
        unfold saveData
        have hdes : (if s.des = .asIs then Compression.uncompressed else s.des) = .uncompressed ∨ (if s.des = .asIs then Compression.uncompressed else s.des) = .compressed := by
          cases s.des <;> simp
        rcases hdes with h | h
        · rw [h, if_pos rfl]; exact post_loopWrite_names C ino s.data g
        · rw [h, if_neg (by decide), if_pos rfl]
          unfold saveAndCompressFd
          split
          · exact ⟨rfl, by simp⟩
          · exact post_saveBlocks_names C ino _ 0 g
      refine post_mono _ _ ?_ hsd
      rintro r g' ⟨a, b⟩
      cases r with
      | err e => exact post_fail pre s.id s.tmp e (fun h => b (by rw [h])) g'
      | ub => exact fun h => (by cases h)
      | ok u =>
        apply post_bind
        refine post_mono _ _ ?_ (post_rename_names C _ _ g' ?_)
        · intro r g'' hr
          cases r with
          | err e => exact post_fail pre s.id s.tmp e (fun h => hr (by rw [h])) g''
          | ub => exact fun h => (by cases h)
          | ok u => exact fun h => (by cases h)
        · rw [a]
          generalize (if s.des = .asIs then Compression.uncompressed else s.des) = f
          cases f <;> first | exact h1 | exact h2
    have hp1 : fs.names (ChunkId.formatPath pre s.id cacnk) = none := Classical.not_not.1 (fun h => hp (Or.inl h))
    have hp2 : fs.names (ChunkId.formatPath pre s.id []) = none := Classical.not_not.1 (fun h => hp (Or.inr h))
    -- creating the temporary file
    have creat : ∀ (g : FS) (k : Ans → Prog (Res Nat)) (Q : Res Nat → FS → Prop), g.names (s.temp pre) = none → g.names (ChunkId.formatPath pre s.id []) = none → g.names (ChunkId.formatPath pre s.id cacnk) = none →
        (∀ i g', g'.names (ChunkId.formatPath pre s.id []) = none → g'.names (ChunkId.formatPath pre s.id cacnk) = none → post C (k (.fd i)) Q g') →
        (∀ e, e ≠ .EEXIST → post C (k (.err e)) Q g) →
        post C (.call (.creat (ChunkId.formatPath pre s.id s.tmp)) k) Q g := by
      intro g k Q g1 g2 g3 k1 k2 ch _
      cases hf : ch.fail with
      | some e =>
        have : sem g (.creat (ChunkId.formatPath pre s.id s.tmp)) ch = (.err (injected e), g) := by unfold sem; rw [hf]
        rw [this]
        exact k2 _ (injected_eexist e)
      | none =>
        obtain ⟨g', a1, a2⟩ := sem_creat_ok g _ ch hf g1
        have a1 : sem g (.creat (ChunkId.formatPath pre s.id s.tmp)) ch = (.fd g.next, g') := a1
        rw [a1]
        apply k1
        · rw [a2]; simp only; rw [if_neg hne1]; exact g2
        · rw [a2]; simp only; rw [if_neg hne2]; exact g3
    unfold fileCreate
    intro ch _
    rcases sem_mkdir fs (dirOf pre s.id) ch with ⟨e, hf, h⟩ | ⟨_, hn, h⟩ | ⟨_, hn, h⟩
    · rw [h]
      simp only
      rw [if_pos (injected_eexist e)]
      intro h'; injection h' with h'; exact injected_eexist e h'
    · rw [h]
      simp only
      have hd : ∀ suf, (setName fs (dirOf pre s.id) (some .dir)).names (ChunkId.formatPath pre s.id suf) = fs.names (ChunkId.formatPath pre s.id suf) := by
        intro suf
        show (if _ then _ else _) = _
        rw [if_neg (formatPath_ne_dirOf _ _ _ _ hv.1 hv.1)]
      refine creat _ _ _ ((hd _).trans ht) ((hd _).trans hp2) ((hd _).trans hp1) ?_ ?_
      · intro i g' a b; exact rest g' i a b
      · intro e he' ch2 _ h'; injection h' with h'; exact he' h'
    · rw [h]
      simp only
      rw [if_neg (by simp)]
      refine creat _ _ _ ht hp2 hp1 ?_ ?_
      · intro i g' a b; exact rest g' i a b
      · intro e he' h'; injection h' with h'; exact he' h'
  · intro ch e _ _ h'; injection h' with h'; exact injected_eexist e h'

/-- A put of an uncompressed chunk says `EEXIST` only if a file of the chunk was there, unless the temporary name was taken. -/
theorem put_eexist (cd : Codec) (c : PutCall) (hv : c.Valid) (fs : FS) (he : c.eff = .uncompressed) (ht : fs.names (c.saver.temp c.root) = none)
    (hr : (c.run cd fs).1.1 = .err .EEXIST) : Present fs c.root c.id := by
  apply Classical.byContradiction
  intro hp
  revert hr
  refine post_exec (C := fun _ => True) _ (Q := fun (r : Res Unit × Store) _ => r.1 ≠ .err .EEXIST) fs ?_ c.env (fun _ => True.intro) 0
  apply post_put
  · intro g hg
    refine post_mono _ _ ?_ (post_fileSave_eexist _ cd c.saver hv he c.root g ?_ ?_)
    · intro r g' h s' _; exact h
    · exact (hg.names _ (path_ne_root c.root c.saver.id _ hv.1)).1.trans ht
    · unfold Present
      rw [(hg.names _ (path_ne_root c.root c.saver.id cacnk hv.1)).1, (hg.names _ (path_ne_root c.root c.saver.id [] hv.1)).1]
      exact hp
  · intro _ _ h; cases h
  · intro ch e s' _ _ h; injection h with h; exact injected_eexist e h

end Casync.Store
