import Verif.Spec.Os
import Verif.Lemmas.Os
import Verif.Model.ChunkFile
/-!
`ca_chunk_file_save` satisfies its guarantee (auxiliary).
-/
namespace Casync.ChunkFile
open Casync Os

/-- Parameters of a save. -/
structure Par where
  busy : Prop
  n0 : Nat
  t : Path
  fin : Path
  dir : Path
  complete : Bytes
  tf : t ≠ fin
  td : t ≠ dir
  fd : fin ≠ dir

variable (x : Par)

def Par.R (fs fs' : FS) : Prop := Rely x.t fs fs' ∧ (¬ x.busy → fs' = fs)
def Par.G (fs fs' : FS) : Prop := Guarantee x.busy x.n0 x.t x.fin x.dir x.complete fs fs'

/-- Basic assertion. -/
def Par.Ok (fs : FS) : Prop := WF fs ∧ x.n0 ≤ fs.next

/-- The temporary file is ours, is inode `i` and contains `b`; no other name refers to it. -/
structure Par.Own (i : Nat) (b : Bytes) (fs : FS) : Prop where
  ok : x.Ok fs
  name : fs.names x.t = some (.file i)
  ge : x.n0 ≤ i
  data : fs.data i = b
  excl : ∀ p, fs.names p = some (.file i) → p = x.t

theorem Par.Ok.stable {x : Par} {fs fs' : FS} (h : x.Ok fs) (hr : x.R fs fs') : x.Ok fs' :=
  ⟨hr.1.wf h.1, Nat.le_trans h.2 hr.1.next⟩

theorem Par.Own.stable {x : Par} {i : Nat} {b : Bytes} {fs fs' : FS} (h : x.Own i b fs) (hr : x.R fs fs') :
    x.Own i b fs' := by
  obtain ⟨h1, h2, h3⟩ := hr.1.own i h.name
  exact ⟨h.ok.stable hr, h1, h.ge, h2.trans h.data, fun p hp => h.excl p ((h3 p).1 hp)⟩

theorem G_refl (fs : FS) : x.G fs fs :=
  ⟨rfl, rfl, Nat.le_refl _, id, Or.inl rfl, fun _ _ => .same rfl rfl⟩

theorem content_setName_ne (fs : FS) {p q : Path} (n : Option Node) (h : q ≠ p) : content (setName fs p n) q = content fs q := by
  simp [content, setName, h]

/-- Changing names between nothing and directory. -/
theorem G_dir {fs : FS} (p : Path) (hp : p ≠ x.t) (hpd : p = x.dir) (n : Option Node) (h : DirChange (fs.names p) n) :
    x.G fs (setName fs p n) := by
  refine ⟨rfl, rfl, Nat.le_refl _, ?_, Or.inl (by simp [setName, Ne.symm hp]), ?_⟩
  · intro hw q i hq
    by_cases hqp : q = p
    · subst hqp
      rcases h.2 with h' | h' <;> simp [setName, h'] at hq
    · simp only [setName, hqp, if_false] at hq
      exact hw q i hq
  · intro q _
    by_cases hqp : q = p
    · subst hqp
      exact .dir hpd (by simpa [setName] using h)
    · exact .same (by simp [setName, hqp]) (content_setName_ne _ _ hqp)

theorem Ok_dir {fs : FS} (p : Path) (hp : p ≠ x.t) (hpd : p = x.dir) (n : Option Node) (h : DirChange (fs.names p) n) (ho : x.Ok fs) :
    x.Ok (setName fs p n) := ⟨(G_dir x p hp hpd n h).wf ho.1, ho.2⟩

/-- `access` changes nothing. -/
theorem sem_access_fs (fs : FS) (p : Path) (ch : Choice) : (sem fs (.access p) ch).2 = fs := by
  unfold sem; split
  · rfl
  · simp only; split <;> rfl

theorem sem_rmdir_fs (fs : FS) (p : Path) (ch : Choice) :
    (sem fs (.rmdir p) ch).2 = fs ∨ (fs.names p = some .dir ∧ (sem fs (.rmdir p) ch).2 = setName fs p none) := by
  unfold sem; split
  · exact Or.inl rfl
  · simp only
    split
    · exact Or.inl rfl
    · split
      · exact Or.inl rfl
      · split
        · exact Or.inl rfl
        · rename_i h _; exact Or.inr ⟨Classical.not_not.1 h, rfl⟩

theorem sem_mkdir_fs (fs : FS) (p : Path) (ch : Choice) :
    (sem fs (.mkdir p) ch).2 = fs ∨ (fs.names p = none ∧ (sem fs (.mkdir p) ch).2 = setName fs p (some .dir)) := by
  unfold sem; split
  · exact Or.inl rfl
  · simp only
    split
    · rename_i h; exact Or.inr ⟨h, rfl⟩
    · exact Or.inl rfl

theorem G_rmdir (fs : FS) (ch : Choice) (ho : x.Ok fs) :
    x.G fs (sem fs (.rmdir x.dir) ch).2 ∧ x.Ok (sem fs (.rmdir x.dir) ch).2 := by
  rcases sem_rmdir_fs fs x.dir ch with h | ⟨h1, h⟩
  · rw [h]; exact ⟨G_refl x fs, ho⟩
  · rw [h]
    have hd : DirChange (fs.names x.dir) none := ⟨Or.inr h1, Or.inl rfl⟩
    exact ⟨G_dir x _ (Ne.symm x.td) rfl _ hd, Ok_dir x _ (Ne.symm x.td) rfl _ hd ho⟩

theorem G_mkdir (fs : FS) (ch : Choice) (ho : x.Ok fs) :
    x.G fs (sem fs (.mkdir x.dir) ch).2 ∧ x.Ok (sem fs (.mkdir x.dir) ch).2 := by
  rcases sem_mkdir_fs fs x.dir ch with h | ⟨h1, h⟩
  · rw [h]; exact ⟨G_refl x fs, ho⟩
  · rw [h]
    have hd : DirChange (fs.names x.dir) (some .dir) := ⟨Or.inl h1, Or.inr rfl⟩
    exact ⟨G_dir x _ (Ne.symm x.td) rfl _ hd, Ok_dir x _ (Ne.symm x.td) rfl _ hd ho⟩

/-- Assertion trivially true at the end of failing paths. -/
abbrev Anything : FS → Prop := fun _ => True

/-- Creating the temporary file. -/
theorem creat_spec (fs : FS) (ch : Choice) (ho : x.Ok fs) :
    ((∃ e, sem fs (.creat x.t) ch = (.err e, fs))) ∨
    (∃ i fs', sem fs (.creat x.t) ch = (.fd i, fs') ∧ x.G fs fs' ∧ x.Own i [] fs') := by
  unfold sem
  split
  · exact Or.inl ⟨_, rfl⟩
  · simp only
    split
    · rename_i hn
      refine Or.inr ⟨_, _, rfl, ?_, ?_⟩
      · refine ⟨rfl, rfl, Nat.le_succ _, ?_, Or.inr (Or.inr ⟨hn, by simp [setName]⟩), ?_⟩
        · intro hw p i hp
          by_cases hpt : p = x.t
          · subst hpt
            simp [setName] at hp
            simp only; omega
          · simp only [setName, hpt, if_false] at hp
            have := hw p i hp
            simp only; omega
        · intro p hp
          refine .same (by simp [setName, hp]) ?_
          simp only [content, setName, hp, if_false]
          cases hq : fs.names p with
          | none => rfl
          | some n =>
            cases n with
            | dir => rfl
            | symlink => rfl
            | file i =>
              have := ho.1 p i hq
              have : i ≠ fs.next := by omega
              simp [this]
      · refine ⟨⟨?_, ?_⟩, ?_, ho.2, ?_, ?_⟩
        · intro p i hp
          by_cases hpt : p = x.t
          · subst hpt
            simp [setName] at hp
            simp only; omega
          · simp only [setName, hpt, if_false] at hp
            have := ho.1 p i hp
            simp only; omega
        · have := ho.2; simp only; omega
        · simp [setName]
        · simp
        · intro p hp
          by_cases hpt : p = x.t
          · exact hpt
          · simp only [setName, hpt, if_false] at hp
            have := ho.1 p _ hp
            omega
    · exact Or.inl ⟨_, rfl⟩

/-- Writing to the temporary file. -/
theorem write_spec (fs : FS) (ch : Choice) (i : Nat) (b acc : Bytes) (hb : b ≠ []) (ho : x.Own i acc fs) :
    ((∃ e, sem fs (.write i b) ch = (.err e, fs))) ∨
    (∃ n fs', 1 ≤ n ∧ n ≤ b.length ∧ sem fs (.write i b) ch = (.count n, fs') ∧ x.G fs fs' ∧
      x.Own i (acc ++ b.take n) fs') := by
  unfold sem
  split
  · exact Or.inl ⟨_, rfl⟩
  · simp only [if_neg hb]
    have hl : 0 < b.length := List.length_pos_iff.2 hb
    refine Or.inr ⟨_, _, ?_, ?_, rfl, ?_, ?_⟩
    · omega
    · omega
    · refine ⟨rfl, rfl, Nat.le_refl _, fun h => h, Or.inl rfl, ?_⟩
      intro p hp
      refine .same rfl ?_
      simp only [content]
      cases hq : fs.names p with
      | none => rfl
      | some n =>
        cases n with
        | dir => rfl
        | symlink => rfl
        | file j =>
          have : j ≠ i := by
            intro h; subst h; exact hp (ho.excl p hq)
          simp [this]
    · refine ⟨ho.ok, ho.name, ho.ge, ?_, ho.excl⟩
      simp only [if_true, ho.data]

theorem wp_loopWrite (i : Nat) (p : Bytes) : ∀ (acc : Bytes) (fs : FS) (Q : Res Unit → FS → Prop),
    x.Own i acc fs → (∀ fs', x.Own i (acc ++ p) fs' → Q (.ok ()) fs') →
    (∀ e fs' acc', x.Own i acc' fs' → Q (.err e) fs') → wp x.R x.G (loopWrite i p) Q fs := by
  induction hn : p.length using Nat.strongRecOn generalizing p with
  | _ n ih =>
    intro acc fs Q ho hok herr
    rw [loopWrite.eq_def]
    by_cases hp : p = []
    · rw [dif_pos hp]
      subst hp
      exact hok fs (by simpa using ho)
    · rw [dif_neg hp]
      intro f1 hr ch
      have ho1 := ho.stable hr
      rcases write_spec x f1 ch i p acc hp ho1 with ⟨e, h⟩ | ⟨k, fs', h1, h2, h, hg, ho'⟩
      · rw [h]
        exact ⟨G_refl x f1, herr e _ _ ho1⟩
      · rw [h]
        refine ⟨hg, ?_⟩
        have hk : max 1 k = k := by omega
        show wp x.R x.G (loopWrite i (p.drop (max 1 k))) Q fs'
        rw [hk]
        refine ih (p.drop k).length (by rw [List.length_drop]; omega) _ rfl _ fs' Q ho' ?_ herr
        intro fs'' h''
        refine hok _ ?_
        rw [List.append_assoc, List.take_append_drop] at h''
        exact h''

theorem wp_saveBlocks (i : Nat) (d : Bytes) : ∀ (cnt : Nat) (acc : Bytes) (fs : FS) (Q : Res Unit → FS → Prop),
    x.Own i acc fs → (∀ fs', x.Own i (acc ++ d) fs' → Q (.ok ()) fs') →
    (∀ e fs' acc', x.Own i acc' fs' → Q (.err e) fs') → wp x.R x.G (saveBlocks i cnt d) Q fs := by
  induction hn : d.length using Nat.strongRecOn generalizing d with
  | _ n ih =>
    intro cnt acc fs Q ho hok herr
    rw [saveBlocks.eq_def]
    apply wp_bind
    refine wp_loopWrite x i _ acc fs _ ho ?_ ?_
    · intro fs' ho'
      show wp x.R x.G (if cnt + (d.take BUF).length ≥ MAX then _ else _) Q fs'
      split
      · exact herr _ _ _ ho'
      · split
        · rename_i hle
          have ht : d.take BUF = d := List.take_of_length_le hle
          rw [ht] at ho'
          split
          · exact herr _ _ _ ho'
          · exact hok _ ho'
        · rename_i hle
          refine ih (d.drop BUF).length (by simp only [BUF] at hle ⊢; rw [List.length_drop]; omega) _ rfl _ _ fs' Q ho' ?_ herr
          intro fs'' h''
          rw [List.append_assoc, List.take_append_drop] at h''
          exact hok _ h''
    · intro e fs' acc' ho'
      exact herr e fs' acc' ho'

/-- What a save stores: the data as it is, compressed or decompressed. -/
def stored (cd : Codec) (t : Nat) (eff des : Compression) (p : Bytes) : Res Bytes :=
  if des = eff then .ok p
  else if des = .compressed then .ok (cd.enc t p)
  else cd.dec p

theorem wp_saveData (cd : Codec) (t : Nat) (i : Nat) (eff des : Compression) (p : Bytes) (fs : FS)
    (Q : Res Unit → FS → Prop) (ho : x.Own i [] fs)
    (hok : ∀ b fs', stored cd t eff des p = .ok b → x.Own i b fs' → Q (.ok ()) fs')
    (herr : ∀ e fs' acc', x.Own i acc' fs' → Q (.err e) fs')
    (hub : ∀ fs' acc', x.Own i acc' fs' → Q .ub fs') : wp x.R x.G (saveData cd t i eff des p) Q fs := by
  unfold saveData
  by_cases h1 : des = eff
  · rw [if_pos h1]
    exact wp_loopWrite x i p [] fs Q ho (fun fs' h => hok p fs' (by rw [stored, if_pos h1]) (by simpa using h)) herr
  · rw [if_neg h1]
    by_cases h2 : des = .compressed
    · rw [if_pos h2, saveAndCompressFd]
      split
      · exact herr _ _ _ ho
      · exact wp_saveBlocks x i _ 0 [] fs Q ho
          (fun fs' h => hok _ fs' (by rw [stored, if_neg h1, if_pos h2]) (by simpa using h)) herr
    · rw [if_neg h2, saveAndDecompressFd]
      split
      · exact herr _ _ _ ho
      · split
        · rename_i u hu
          exact wp_saveBlocks x i _ 0 [] fs Q ho
            (fun fs' h => hok _ fs' (by rw [stored, if_neg h1, if_neg h2, hu]) (by simpa using h)) herr
        · exact herr _ _ _ ho
        · exact hub _ _ ho

/-- Removing the temporary name. -/
theorem unlink_t_spec (fs : FS) (ch : Choice) (ho : x.Ok fs) :
    ((∃ e, sem fs (.unlink x.t) ch = (.err e, fs))) ∨
    (sem fs (.unlink x.t) ch = (.ok, setName fs x.t none) ∧ x.G fs (setName fs x.t none) ∧ x.Ok (setName fs x.t none)) := by
  have hwf : WF (setName fs x.t none) := by
    intro p i hp
    by_cases hpt : p = x.t
    · subst hpt; simp [setName] at hp
    · simp only [setName, hpt, if_false] at hp
      exact ho.1 p i hp
  unfold sem
  split
  · exact Or.inl ⟨_, rfl⟩
  · simp only
    split
    · exact Or.inl ⟨_, rfl⟩
    · split
      · exact Or.inl ⟨_, rfl⟩
      · refine Or.inr ⟨rfl, ⟨rfl, rfl, Nat.le_refl _, fun _ => hwf, Or.inr (Or.inl (by simp [setName])), ?_⟩, hwf, ho.2⟩
        intro p hp
        exact .same (by simp [setName, hp]) (content_setName_ne _ _ hp)

/-- The temporary file is installed under its final name as well. -/
structure Par.Linked (i : Nat) (fs : FS) : Prop where
  ok : x.Ok fs
  name : fs.names x.t = some (.file i)
  fin : fs.names x.fin = some (.file i)
  ge : x.n0 ≤ i
  data : fs.data i = x.complete
  link : fs.hasLink = true

theorem Par.Linked.stable {x : Par} {i : Nat} {fs fs' : FS} (h : x.Linked i fs) (hr : x.R fs fs') : x.Linked i fs' := by
  obtain ⟨h1, h2, h3⟩ := hr.1.own i h.name
  exact ⟨h.ok.stable hr, h1, (h3 _).2 h.fin, h.ge, h2.trans h.data, hr.1.link.trans h.link⟩

/-- Contents at the end of a successful save. -/
def Par.Done (fs : FS) : Prop := content fs x.fin = some x.complete ∧ fs.names x.t = none

/-- Moving the temporary file to its final name. -/
theorem move_spec (fs : FS) (i : Nat) (ho : x.Own i x.complete fs)
    (hf : fs.names x.fin = none ∨ (x.busy ∧ fs.hasRename2 = false ∧ fs.hasLink = false)) :
    x.G fs (setName (setName fs x.fin (fs.names x.t)) x.t none) ∧
    x.Ok (setName (setName fs x.fin (fs.names x.t)) x.t none) ∧
    x.Done (setName (setName fs x.fin (fs.names x.t)) x.t none) := by
  have hwf : WF (setName (setName fs x.fin (fs.names x.t)) x.t none) := by
    intro p j hp
    by_cases hpt : p = x.t
    · subst hpt; simp [setName] at hp
    · by_cases hpf : p = x.fin
      · subst hpf
        simp only [setName, hpt, if_false, if_true] at hp
        exact ho.ok.1 _ j hp
      · simp only [setName, hpt, hpf, if_false] at hp
        exact ho.ok.1 p j hp
  have hfin : content (setName (setName fs x.fin (fs.names x.t)) x.t none) x.fin = some x.complete := by
    simp [content, setName, Ne.symm x.tf, ho.name, ho.data]
  refine ⟨⟨rfl, rfl, Nat.le_refl _, fun _ => hwf, Or.inr (Or.inl (by simp [setName])), ?_⟩, ⟨hwf, ho.ok.2⟩, hfin, by simp [setName]⟩
  intro p hp
  by_cases hpf : p = x.fin
  · subst hpf
    exact .install rfl (by simp [setName, hp]) hfin (Or.inl (by simp [setName])) hf
  · exact .same (by simp [setName, hp, hpf]) (by simp [content, setName, hp, hpf])

theorem rename2_spec (fs : FS) (ch : Choice) (i : Nat) (ho : x.Own i x.complete fs) :
    ((∃ e, sem fs (.rename2 x.t x.fin) ch = (.err e, fs) ∧ (unsupported e = true → fs.hasRename2 = false))) ∨
    (∃ fs', sem fs (.rename2 x.t x.fin) ch = (.ok, fs') ∧ x.G fs fs' ∧ x.Ok fs' ∧ x.Done fs') := by
  unfold sem
  split
  · rename_i e _
    refine Or.inl ⟨_, rfl, ?_⟩
    intro h; exfalso; revert h; cases e <;> decide
  · simp only
    split
    · rename_i h
      exact Or.inl ⟨_, rfl, fun _ => by simpa using h⟩
    · split
      · exact Or.inl ⟨_, rfl, fun h => by cases h⟩
      · split
        · exact Or.inl ⟨_, rfl, fun h => by cases h⟩
        · rename_i h
          obtain ⟨h1, h2, h3⟩ := move_spec x fs i ho (Or.inl (Classical.not_not.1 h))
          exact Or.inr ⟨_, rfl, h1, h2, h3⟩

theorem link_spec (fs : FS) (ch : Choice) (i : Nat) (ho : x.Own i x.complete fs) :
    ((∃ e, sem fs (.link x.t x.fin) ch = (.err e, fs) ∧ (unsupported e = true → fs.hasLink = false))) ∨
    (∃ fs', sem fs (.link x.t x.fin) ch = (.ok, fs') ∧ x.G fs fs' ∧ x.Linked i fs') := by
  unfold sem
  split
  · rename_i e _
    refine Or.inl ⟨_, rfl, ?_⟩
    intro h; exfalso; revert h; cases e <;> decide
  · simp only
    split
    · rename_i h
      exact Or.inl ⟨_, rfl, fun _ => by simpa using h⟩
    · rename_i hlk
      split
      · exact Or.inl ⟨_, rfl, fun h => by cases h⟩
      · split
        · exact Or.inl ⟨_, rfl, fun h => by cases h⟩
        · split
          · exact Or.inl ⟨_, rfl, fun h => by cases h⟩
          · rename_i h
            have hnf := Classical.not_not.1 h
            have hwf : WF (setName fs x.fin (fs.names x.t)) := by
              intro p j hp
              by_cases hpf : p = x.fin
              · subst hpf
                simp only [setName, if_true] at hp
                exact ho.ok.1 _ j hp
              · simp only [setName, hpf, if_false] at hp
                exact ho.ok.1 p j hp
            refine Or.inr ⟨_, rfl, ⟨rfl, rfl, Nat.le_refl _, fun _ => hwf, Or.inl (by simp [setName, x.tf]), ?_⟩,
              ⟨hwf, ho.ok.2⟩, by simp [setName, x.tf, ho.name], by simp [setName, ho.name], ho.ge, ho.data, by simpa [setName] using hlk⟩
            intro p hp
            by_cases hpf : p = x.fin
            · subst hpf
              exact .install rfl (by simp [setName]) (by simp [content, setName, ho.name, ho.data])
                (Or.inr (by simpa using hlk)) (Or.inl hnf)
            · exact .same (by simp [setName, hpf]) (content_setName_ne _ _ hpf)

/-- Taking the file back if the temporary name cannot be removed. -/
theorem unlink_fin_spec (fs : FS) (ch : Choice) (i : Nat) (ho : x.Linked i fs) :
    x.G fs (sem fs (.unlink x.fin) ch).2 ∧ x.Ok (sem fs (.unlink x.fin) ch).2 := by
  have hwf : WF (setName fs x.fin none) := by
    intro p j hp
    by_cases hpf : p = x.fin
    · subst hpf; simp [setName] at hp
    · simp only [setName, hpf, if_false] at hp
      exact ho.ok.1 p j hp
  unfold sem
  split
  · exact ⟨G_refl x fs, ho.ok⟩
  · simp only
    split
    · exact ⟨G_refl x fs, ho.ok⟩
    · split
      · exact ⟨G_refl x fs, ho.ok⟩
      · refine ⟨⟨rfl, rfl, Nat.le_refl _, fun _ => hwf, Or.inl (by simp [setName, x.tf]), ?_⟩, hwf, ho.ok.2⟩
        intro p hp
        by_cases hpf : p = x.fin
        · subst hpf
          exact .takeBack rfl ho.link i ho.ge ho.name ho.fin (by simp [setName])
        · exact .same (by simp [setName, hpf]) (content_setName_ne _ _ hpf)

/-- The plain rename of the last fallback, right after `access` said that the name is free. -/
theorem rename_spec (fs : FS) (ch : Choice) (i : Nat) (ho : x.Own i x.complete fs)
    (hf : fs.names x.fin = none ∨ (x.busy ∧ fs.hasRename2 = false ∧ fs.hasLink = false)) :
    ((∃ e, sem fs (.rename x.t x.fin) ch = (.err e, fs))) ∨
    (∃ fs', sem fs (.rename x.t x.fin) ch = (.ok, fs') ∧ x.G fs fs' ∧ x.Ok fs' ∧ x.Done fs') := by
  unfold sem
  split
  · exact Or.inl ⟨_, rfl⟩
  · simp only
    split
    · exact Or.inl ⟨_, rfl⟩
    · split
      · exact Or.inl ⟨_, rfl⟩
      · split
        · rename_i h
          rw [ho.name] at h
          exact absurd (ho.excl _ h.symm) (Ne.symm x.tf)
        · obtain ⟨h1, h2, h3⟩ := move_spec x fs i ho hf
          exact Or.inr ⟨_, rfl, h1, h2, h3⟩

theorem access_spec (fs : FS) (p : Path) (ch : Choice) :
    (∃ e, e ≠ .ENOENT ∧ sem fs (.access p) ch = (.err e, fs)) ∨ (sem fs (.access p) ch = (.ok, fs)) ∨
    (fs.names p = none ∧ sem fs (.access p) ch = (.err .ENOENT, fs)) := by
  unfold sem
  split
  · rename_i e _
    refine Or.inl ⟨_, ?_, rfl⟩
    cases e <;> decide
  · simp only
    split
    · rename_i h; exact Or.inr (Or.inr ⟨h, rfl⟩)
    · exact Or.inr (Or.inl rfl)

theorem wp_renameNoreplace (i : Nat) (fs : FS) (Q : Res Unit → FS → Prop) (ho : x.Own i x.complete fs)
    (hok : ∀ fs', x.Ok fs' → x.Done fs' → Q (.ok ()) fs')
    (herr : ∀ e fs', x.Ok fs' → Q (.err e) fs') :
    wp x.R x.G (renameNoreplace x.t x.fin) Q fs := by
  unfold renameNoreplace
  intro f1 hr ch
  have ho1 := ho.stable hr
  rcases rename2_spec x f1 ch i ho1 with ⟨e, h, hu⟩ | ⟨fs', h, hg, hk, hd⟩
  · rw [h]
    refine ⟨G_refl x f1, ?_⟩
    show wp x.R x.G (if !unsupported e then _ else _) Q f1
    split
    · exact herr _ _ ho1.ok
    · rename_i hus
      have hnr : f1.hasRename2 = false := hu (by simpa using hus)
      intro f2 hr2 ch2
      have ho2 := ho1.stable hr2
      have hnr2 : f2.hasRename2 = false := hr2.1.rename2.trans hnr
      rcases link_spec x f2 ch2 i ho2 with ⟨e', h', hu'⟩ | ⟨fs', h', hg', hk'⟩
      · rw [h']
        refine ⟨G_refl x f2, ?_⟩
        show wp x.R x.G (if !unsupported e' then _ else _) Q f2
        split
        · exact herr _ _ ho2.ok
        · rename_i hus'
          have hnl : f2.hasLink = false := hu' (by simpa using hus')
          intro f3 hr3 ch3
          have ho3 := ho2.stable hr3
          rcases access_spec f3 x.fin ch3 with ⟨e3, hne, h3⟩ | h3 | ⟨hn3, h3⟩
          · rw [h3]
            refine ⟨G_refl x f3, ?_⟩
            have : ∀ (A : Prog (Res Unit)) (B : Errno → Prog (Res Unit)),
                (match (Ans.err e3) with | .err .ENOENT => A | .err e => B e | _ => .ret (.err .EEXIST)) = B e3 := by
              intro A B
              cases e3 <;> first | rfl | exact absurd rfl hne
            show wp x.R x.G (match (Ans.err e3) with | .err .ENOENT => _ | .err e => .ret (.err e) | _ => .ret (.err .EEXIST)) Q f3
            rw [this]
            exact herr _ _ ho3.ok
          · rw [h3]
            exact ⟨G_refl x f3, herr _ _ ho3.ok⟩
          · rw [h3]
            refine ⟨G_refl x f3, ?_⟩
            intro f4 hr4 ch4
            have ho4 := ho3.stable hr4
            have hf4 : f4.names x.fin = none ∨ (x.busy ∧ f4.hasRename2 = false ∧ f4.hasLink = false) := by
              by_cases hb : x.busy
              · exact Or.inr ⟨hb, hr4.1.rename2.trans (hr3.1.rename2.trans hnr2), hr4.1.link.trans (hr3.1.link.trans hnl)⟩
              · rw [hr4.2 hb]; exact Or.inl hn3
            rcases rename_spec x f4 ch4 i ho4 hf4 with ⟨e4, h4⟩ | ⟨fs', h4, hg4, hk4, hd4⟩
            · rw [h4]; exact ⟨G_refl x f4, herr _ _ ho4.ok⟩
            · rw [h4]; exact ⟨hg4, hok _ hk4 hd4⟩
      · rw [h']
        refine ⟨hg', ?_⟩
        intro f3 hr3 ch3
        have hl3 := hk'.stable hr3
        rcases unlink_t_spec x f3 ch3 hl3.ok with ⟨e3, h3⟩ | ⟨h3, hg3, hk3⟩
        · rw [h3]
          refine ⟨G_refl x f3, ?_⟩
          intro f4 hr4 ch4
          have hl4 := hl3.stable hr4
          obtain ⟨h5, h6⟩ := unlink_fin_spec x f4 ch4 i hl4
          exact ⟨h5, herr _ _ h6⟩
        · rw [h3]
          refine ⟨hg3, hok _ hk3 ⟨?_, by simp [setName]⟩⟩
          rw [content_setName_ne _ _ (Ne.symm x.tf)]
          simp [content, hl3.fin, hl3.data]
  · rw [h]; exact ⟨hg, hok _ hk hd⟩

theorem wp_call_same {α : Type} (c : Call) (k : Ans → Prog α) (Q : α → FS → Prop) (fs : FS) (ho : x.Ok fs)
    (hs : ∀ f1 ch, (sem f1 c ch).2 = f1) (h : ∀ f1 ch, x.Ok f1 → wp x.R x.G (k (sem f1 c ch).1) Q f1) :
    wp x.R x.G (.call c k) Q fs := by
  intro f1 hr ch
  rw [hs]
  exact ⟨G_refl x f1, h f1 ch (ho.stable hr)⟩

theorem wp_fileAccess (pre id suf : Bytes) (fs : FS) (Q : Res Bool → FS → Prop) (ho : x.Ok fs)
    (h : ∀ r fs', x.Ok fs' → Q r fs') : wp x.R x.G (fileAccess pre id suf) Q fs := by
  unfold fileAccess
  refine wp_call_same x _ _ _ fs ho (fun f1 ch => sem_access_fs f1 _ ch) ?_
  intro f1 ch ho1
  rcases access_spec f1 (ChunkId.formatPath pre id suf) ch with ⟨e, hne, h3⟩ | h3 | ⟨hn3, h3⟩
  · rw [h3]
    cases e <;> first | exact h _ _ ho1 | exact absurd rfl hne
  · rw [h3]; exact h _ _ ho1
  · rw [h3]; exact h _ _ ho1

theorem wp_fileTest (pre id : Bytes) (fs : FS) (Q : Res Bool → FS → Prop) (ho : x.Ok fs)
    (h : ∀ r fs', x.Ok fs' → Q r fs') : wp x.R x.G (fileTest pre id) Q fs := by
  unfold fileTest
  apply wp_bind
  refine wp_fileAccess x pre id cacnk fs _ ho ?_
  intro r fs' ho'
  cases r with
  | ok b => cases b with
    | true => exact h _ _ ho'
    | false => exact wp_fileAccess x pre id [] fs' Q ho' h
  | err e => exact h _ _ ho'
  | ub => exact h _ _ ho'

theorem wp_fileCreate (pre id suf : Bytes) (ht : ChunkId.formatPath pre id suf = x.t) (hd : dirOf pre id = x.dir) (fs : FS)
    (Q : Res Nat → FS → Prop) (ho : x.Ok fs) (hok : ∀ i fs', x.Own i [] fs' → Q (.ok i) fs')
    (herr : ∀ e fs', x.Ok fs' → Q (.err e) fs') : wp x.R x.G (fileCreate pre id suf) Q fs := by
  unfold fileCreate
  rw [ht, hd]
  intro f1 hr ch
  obtain ⟨hg, ho1⟩ := G_mkdir x f1 ch (ho.stable hr)
  refine ⟨hg, ?_⟩
  generalize (sem f1 (.mkdir x.dir) ch).2 = f2 at *
  have hcr : ∀ (P : Errno → Prog (Res Nat)), (∀ e f, x.Ok f → wp x.R x.G (P e) Q f) →
      wp x.R x.G (.call (.creat x.t) fun
        | .fd i => .ret (.ok i)
        | .err e => P e
        | _ => .ret .ub) Q f2 := by
    intro P hP f3 hr3 ch3
    rcases creat_spec x f3 ch3 (ho1.stable hr3) with ⟨e, h⟩ | ⟨i, fs', h, hg', ho'⟩
    · rw [h]; exact ⟨G_refl x f3, hP e f3 (ho1.stable hr3)⟩
    · rw [h]; exact ⟨hg', hok i fs' ho'⟩
  have h2 := hcr (fun e => .call (.rmdir x.dir) fun _ => .ret (.err e)) (by
    intro e f hf f3 hr3 ch3
    obtain ⟨hg', ho'⟩ := G_rmdir x f3 ch3 (hf.stable hr3)
    exact ⟨hg', herr e _ ho'⟩)
  generalize (sem f1 (.mkdir x.dir) ch).1 = a
  cases a with
  | err e =>
    show wp x.R x.G (if e ≠ .EEXIST then _ else _) Q f2
    split
    · exact herr _ _ ho1
    · exact hcr (fun e => .ret (.err e)) (fun e f hf => herr e f hf)
  | ok => exact h2
  | fd i => exact h2
  | count n => exact h2
  | data b => exact h2

theorem wp_fileUnlink (pre id suf : Bytes) (ht : ChunkId.formatPath pre id suf = x.t) (hd : dirOf pre id = x.dir) (fs : FS)
    (Q : Res Unit → FS → Prop) (ho : x.Ok fs) (h : ∀ r fs', x.Ok fs' → Q r fs') :
    wp x.R x.G (fileUnlink pre id suf) Q fs := by
  unfold fileUnlink
  rw [ht, hd]
  intro f1 hr ch
  have ho1 := ho.stable hr
  rcases unlink_t_spec x f1 ch ho1 with ⟨e3, h3⟩ | ⟨h3, hg3, hk3⟩
  · rw [h3]; exact ⟨G_refl x f1, h _ _ ho1⟩
  · rw [h3]
    refine ⟨hg3, ?_⟩
    intro f4 hr4 ch4
    obtain ⟨hg', ho'⟩ := G_rmdir x f4 ch4 (hk3.stable hr4)
    exact ⟨hg', h _ _ ho'⟩

/-- The main lemma: a save makes only steps in its guarantee, and success means that the final name has the complete
contents. -/
theorem wp_fileSave (cd : Codec) (pre id : Bytes) (eff des : Compression) (t : Nat) (tmp p : Bytes)
    (ht : ChunkId.formatPath pre id tmp = x.t) (hd : dirOf pre id = x.dir)
    (hf : ChunkId.formatPath pre id (if (if des = .asIs then eff else des) = .compressed then cacnk else []) = x.fin)
    (hc : ∀ b, stored cd t eff (if des = .asIs then eff else des) p = .ok b → b = x.complete)
    (fs : FS) (ho : x.Ok fs) :
    wp x.R x.G (fileSave cd pre id eff des t tmp p) (fun r fs' => r = .ok () → x.Done fs') fs := by
  unfold fileSave
  split
  · intro h; cases h
  · split
    · intro h; cases h
    · apply wp_bind
      refine wp_fileTest x pre id fs _ ho ?_
      intro r f1 ho1
      cases r with
      | err e => intro h; cases h
      | ub => intro h; cases h
      | ok b =>
        cases b with
        | true => intro h; cases h
        | false =>
          apply wp_bind
          refine wp_fileCreate x pre id tmp ht hd f1 _ ho1 ?_ ?_
          · intro i f2 ho2
            have hfail : ∀ e f, x.Ok f → wp x.R x.G (Prog.bind (fileUnlink pre id tmp) fun _ => .ret (.err e))
                (fun r fs' => r = Res.ok () → x.Done fs') f := by
              intro e f hf
              apply wp_bind
              refine wp_fileUnlink x pre id tmp ht hd f _ hf ?_
              intro _ _ _ h; cases h
            apply wp_bind
            refine wp_saveData x cd t i eff _ p f2 _ ho2 ?_ ?_ ?_
            · intro b f3 hb ho3
              have := hc b hb
              subst this
              apply wp_bind
              rw [ht, hf]
              refine wp_renameNoreplace x i f3 _ ho3 ?_ ?_
              · intro f4 _ hd4 _; exact hd4
              · intro e f4 ho4; exact hfail e f4 ho4
            · intro e f3 acc ho3; exact hfail e f3 ho3.ok
            · intro f3 acc _ h; cases h
          · intro e f2 _ h; cases h

end Casync.ChunkFile
