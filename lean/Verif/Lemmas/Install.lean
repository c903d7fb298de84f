import Verif.Spec.Os
import Verif.Lemmas.Os
import Verif.Model.Install
/-!
Programs that write a temporary file and rename it: rely/guarantee proofs (auxiliary).
-/
namespace Casync.Install
open Casync Os ChunkFile

/-- What one system call of an installer may do to a name other than its temporary name `t`: nothing, or give the final
name `fin` its complete contents, by renaming the temporary file. -/
inductive Change (t fin : Path) (C : Bytes → Prop) (fs fs' : FS) (p : Path) : Prop
  | same (h : fs'.names p = fs.names p) (hc : content fs' p = content fs p)
  | install (hp : p = fin) (hn : fs'.names p = fs.names t) (ht : fs'.names t = none) (b : Bytes) (hb : C b)
      (hc : content fs' p = some b)

structure G (t fin : Path) (C : Bytes → Prop) (fs fs' : FS) : Prop where
  rename2 : fs'.hasRename2 = fs.hasRename2
  link : fs'.hasLink = fs.hasLink
  next : fs.next ≤ fs'.next
  wf : WF fs → WF fs'
  temp : fs'.names t = fs.names t ∨ fs'.names t = none ∨ (fs.names t = none ∧ fs'.names t = some (.file fs.next))
  others : ∀ p, p ≠ t → Change t fin C fs fs' p

/-- The temporary file is ours, is inode `i` and contains `b`; no other name refers to it. -/
structure Own (t : Path) (i : Nat) (b : Bytes) (fs : FS) : Prop where
  wf : WF fs
  name : fs.names t = some (.file i)
  data : fs.data i = b
  excl : ∀ p, fs.names p = some (.file i) → p = t

variable {t fin : Path} {C : Bytes → Prop}

theorem Own.stable {i : Nat} {b : Bytes} {fs fs' : FS} (h : Own t i b fs) (hr : Rely t fs fs') : Own t i b fs' := by
  obtain ⟨h1, h2, h3⟩ := hr.own i h.name
  exact ⟨hr.wf h.wf, h1, h2.trans h.data, fun p hp => h.excl p ((h3 p).1 hp)⟩

theorem G_refl (fs : FS) : G t fin C fs fs := ⟨rfl, rfl, Nat.le_refl _, id, Or.inl rfl, fun _ _ => .same rfl rfl⟩

theorem creat_spec (fs : FS) (ch : Choice) (ho : WF fs) :
    ((∃ e, sem fs (.creat t) ch = (.err e, fs))) ∨
    (∃ i fs', sem fs (.creat t) ch = (.fd i, fs') ∧ G t fin C fs fs' ∧ Own t i [] fs') := by
  unfold sem
  split
  · exact Or.inl ⟨_, rfl⟩
  · simp only
    split
    · rename_i hn
      have hwf : WF { setName fs t (some (.file fs.next)) with
            data := fun i => if i = fs.next then [] else fs.data i, next := fs.next + 1 } := by
        intro p i hp
        by_cases hpt : p = t
        · subst hpt
          simp [setName] at hp
          simp only; omega
        · simp only [setName, hpt, if_false] at hp
          have := ho p i hp
          simp only; omega
      refine Or.inr ⟨_, _, rfl, ⟨rfl, rfl, Nat.le_succ _, fun _ => hwf, Or.inr (Or.inr ⟨hn, by simp [setName]⟩), ?_⟩, hwf, ?_, ?_, ?_⟩
      · intro p hp
        refine .same (by simp [setName, hp]) ?_
        simp only [content, setName, hp, if_false]
        cases hq : fs.names p with
        | none => rfl
        | some n =>
          cases n with
          | dir => rfl
          | symlink => rfl
          | file i =>
            have := ho p i hq
            have : i ≠ fs.next := by omega
            simp [this]
      · simp [setName]
      · simp
      · intro p hp
        by_cases hpt : p = t
        · exact hpt
        · simp only [setName, hpt, if_false] at hp
          have := ho p _ hp
          omega
    · exact Or.inl ⟨_, rfl⟩

theorem write_spec (fs : FS) (ch : Choice) (i : Nat) (b acc : Bytes) (hb : b ≠ []) (ho : Own t i acc fs) :
    ((∃ e, sem fs (.write i b) ch = (.err e, fs))) ∨
    (∃ n fs', 1 ≤ n ∧ n ≤ b.length ∧ sem fs (.write i b) ch = (.count n, fs') ∧ G t fin C fs fs' ∧
      Own t i (acc ++ b.take n) fs') := by
  unfold sem
  split
  · exact Or.inl ⟨_, rfl⟩
  · simp only [if_neg hb]
    have hl : 0 < b.length := List.length_pos_iff.2 hb
    refine Or.inr ⟨_, _, ?_, ?_, rfl, ?_, ?_⟩
    · omega
    · omega
    · refine ⟨rfl, rfl, Nat.le_refl _, fun h => h, Or.inl rfl, ?_⟩
      intro p hp
      refine .same rfl ?_
      simp only [content]
      cases hq : fs.names p with
      | none => rfl
      | some n =>
        cases n with
        | dir => rfl
        | symlink => rfl
        | file j =>
          have : j ≠ i := by
            intro h; subst h; exact hp (ho.excl p hq)
          simp [this]
    · refine ⟨ho.wf, ho.name, ?_, ho.excl⟩
      simp only [if_true, ho.data]

theorem wp_loopWrite (i : Nat) (p : Bytes) : ∀ (acc : Bytes) (fs : FS) (Q : Res Unit → FS → Prop),
    Own t i acc fs → (∀ fs', Own t i (acc ++ p) fs' → Q (.ok ()) fs') →
    (∀ e fs' acc', Own t i acc' fs' → Q (.err e) fs') → wp (Rely t) (G t fin C) (loopWrite i p) Q fs := by
  induction hn : p.length using Nat.strongRecOn generalizing p with
  | _ n ih =>
    intro acc fs Q ho hok herr
    rw [loopWrite.eq_def]
    by_cases hp : p = []
    · rw [dif_pos hp]
      subst hp
      exact hok fs (by simpa using ho)
    · rw [dif_neg hp]
      intro f1 hr ch
      have ho1 := ho.stable hr
      rcases write_spec (fin := fin) (C := C) f1 ch i p acc hp ho1 with ⟨e, h⟩ | ⟨k, fs', h1, h2, h, hg, ho'⟩
      · rw [h]
        exact ⟨G_refl f1, herr e _ _ ho1⟩
      · rw [h]
        refine ⟨hg, ?_⟩
        have hk : max 1 k = k := by omega
        show wp (Rely t) (G t fin C) (loopWrite i (p.drop (max 1 k))) Q fs'
        rw [hk]
        refine ih (p.drop k).length (by rw [List.length_drop]; omega) _ rfl _ fs' Q ho' ?_ herr
        intro fs'' h''
        refine hok _ ?_
        rw [List.append_assoc, List.take_append_drop] at h''
        exact h''

theorem unlink_spec (fs : FS) (ch : Choice) (hw : WF fs) :
    G t fin C fs (sem fs (.unlink t) ch).2 := by
  unfold sem
  split
  · exact G_refl fs
  · simp only
    split
    · exact G_refl fs
    · split
      · exact G_refl fs
      · have hwf : WF (setName fs t none) := by
          intro p i hp
          by_cases hpt : p = t
          · subst hpt; simp [setName] at hp
          · simp only [setName, hpt, if_false] at hp
            exact hw p i hp
        refine ⟨rfl, rfl, Nat.le_refl _, fun _ => hwf, Or.inr (Or.inl (by simp [setName])), ?_⟩
        intro p hp
        exact .same (by simp [setName, hp]) (by simp [content, setName, hp])

/-- After a successful rename. -/
def Done (t fin : Path) (b : Bytes) (fs : FS) : Prop := content fs fin = some b ∧ fs.names t = none

theorem rename_spec (htf : t ≠ fin) (fs : FS) (ch : Choice) (i : Nat) (b : Bytes) (hb : C b) (ho : Own t i b fs) :
    (∃ e, sem fs (.rename t fin) ch = (.err e, fs)) ∨
    (∃ fs', sem fs (.rename t fin) ch = (.ok, fs') ∧ G t fin C fs fs' ∧ Done t fin b fs' ∧ WF fs') := by
  unfold sem
  split
  · exact Or.inl ⟨_, rfl⟩
  · simp only
    rw [if_neg (by rw [ho.name]; simp)]
    split
    · exact Or.inl ⟨_, rfl⟩
    · rw [if_neg (by rw [ho.name]; intro h; exact htf.symm (ho.excl _ h.symm))]
      have hwf : WF (setName (setName fs fin (fs.names t)) t none) := by
        intro p j hp
        by_cases hpt : p = t
        · subst hpt; simp [setName] at hp
        · by_cases hpf : p = fin
          · subst hpf
            simp only [setName, hpt, if_false, if_true] at hp
            exact ho.wf _ j hp
          · simp only [setName, hpt, hpf, if_false] at hp
            exact ho.wf p j hp
      have hfin : content (setName (setName fs fin (fs.names t)) t none) fin = some b := by
        simp [content, setName, Ne.symm htf, ho.name, ho.data]
      refine Or.inr ⟨_, rfl, ⟨rfl, rfl, Nat.le_refl _, fun _ => hwf, Or.inr (Or.inl (by simp [setName])), ?_⟩, ⟨hfin, by simp [setName]⟩, hwf⟩
      intro p hp
      by_cases hpf : p = fin
      · subst hpf
        exact .install rfl (by simp [setName, hp]) (by simp [setName]) b hb hfin
      · exact .same (by simp [setName, hp, hpf]) (by simp [content, setName, hp, hpf])

/-- The last call: removing the temporary file. -/
theorem wp_unlink {α : Type} (k : Ans → Prog α) (Q : α → FS → Prop) (fs : FS) (hw : WF fs)
    (hk : ∀ a fs', wp (Rely t) (G t fin C) (k a) Q fs') : wp (Rely t) (G t fin C) (.call (.unlink t) k) Q fs := by
  intro f1 hr ch
  exact ⟨unlink_spec f1 ch (hr.wf hw), hk _ _⟩

end Casync.Install
