import Verif.Lemmas.ChunkFileLoad
import Verif.Lemmas.ChunkFileSave
/-!
Complete runs of the chunk file functions (auxiliary).
-/
namespace Casync.ChunkFile
open Casync Os

theorem sem_access (fs : FS) (p : Path) (ch : Choice) :
    (∃ e, ch.fail = some e ∧ sem fs (.access p) ch = (.err (injected e), fs)) ∨
    (ch.fail = none ∧ fs.names p = none ∧ sem fs (.access p) ch = (.err .ENOENT, fs)) ∨
    (ch.fail = none ∧ fs.names p ≠ none ∧ sem fs (.access p) ch = (.ok, fs)) := by
  unfold sem
  cases h : ch.fail with
  | some e => exact Or.inl ⟨e, rfl, rfl⟩
  | none =>
    by_cases hn : fs.names p = none
    · exact Or.inr (Or.inl ⟨rfl, hn, by simp [hn]⟩)
    · exact Or.inr (Or.inr ⟨rfl, hn, by simp [hn]⟩)

theorem injected_ne (e : Errno) : injected e ≠ .ENOENT ∧ injected e ≠ .EEXIST := by
  cases e <;> decide

/-- `ca_chunk_file_access` tells whether the name exists, or fails. -/
theorem post_fileAccess (C : Choice → Prop) (pre id suf : Bytes) (fs : FS) (Q : Res Bool → FS → Prop)
    (hok : Q (.ok (decide (fs.names (ChunkId.formatPath pre id suf) ≠ none))) fs)
    (herr : ∀ ch e, C ch → ch.fail = some e → Q (.err (injected e)) fs) :
    post C (fileAccess pre id suf) Q fs := by
  unfold fileAccess
  intro ch hc
  rcases sem_access fs (ChunkId.formatPath pre id suf) ch with ⟨e, he, h⟩ | ⟨_, hn, h⟩ | ⟨_, hn, h⟩
  · rw [h]
    have h1 := (injected_ne e).1
    have h2 := herr ch e hc he
    revert h1 h2
    generalize injected e = e'
    intro h1 h2
    cases e' <;> first | exact h2 | exact absurd rfl h1
  · rw [h]
    simp only [hn, ne_eq, not_true, decide_false] at hok
    exact hok
  · rw [h]
    simp only [hn, ne_eq, not_false_eq_true, decide_true] at hok
    exact hok

/-- `ca_chunk_file_test` tells whether one of the names exists, or fails. -/
theorem post_fileTest (C : Choice → Prop) (pre id : Bytes) (fs : FS) (Q : Res Bool → FS → Prop)
    (hok : Q (.ok (decide (fs.names (ChunkId.formatPath pre id cacnk) ≠ none ∨ fs.names (ChunkId.formatPath pre id []) ≠ none))) fs)
    (herr : ∀ ch e, C ch → ch.fail = some e → Q (.err (injected e)) fs) :
    post C (fileTest pre id) Q fs := by
  unfold fileTest
  apply post_bind
  apply post_fileAccess
  · by_cases h : fs.names (ChunkId.formatPath pre id cacnk) = none
    · simp only [h, ne_eq, not_true, decide_false]
      apply post_fileAccess
      · simpa [h] using hok
      · exact herr
    · simp only [h, ne_eq, not_false_eq_true, decide_true]
      have hok' : Q (.ok true) fs := by simpa [h] using hok
      exact hok'
  · exact herr

/-- Saving a chunk that is there fails and changes nothing. -/
theorem post_fileSave_exists (C : Choice → Prop) (cd : Codec) (pre id : Bytes) (eff des : Compression) (t : Nat) (tmp p : Bytes) (fs : FS)
    (hex : fs.names (ChunkId.formatPath pre id cacnk) ≠ none ∨ fs.names (ChunkId.formatPath pre id []) ≠ none)
    (Q : Res Unit → FS → Prop)
    (h1 : eff ≠ .asIs → p ≠ [] → Q (.err .EEXIST) fs)
    (h2 : ∀ ch e, C ch → ch.fail = some e → Q (.err (injected e)) fs)
    (h3 : (eff = .asIs ∨ p = []) → Q (.err .EINVAL) fs) :
    post C (fileSave cd pre id eff des t tmp p) Q fs := by
  unfold fileSave
  split
  · rename_i h; exact h3 (Or.inl h)
  · rename_i he
    split
    · rename_i h; exact h3 (Or.inr h)
    · rename_i hp
      apply post_bind
      apply post_fileTest
      · rw [decide_eq_true hex]; exact h1 he hp
      · exact h2

/-- A successful save found neither name. -/
theorem post_fileSave_was_free (C : Choice → Prop) (cd : Codec) (pre id : Bytes) (eff des : Compression) (t : Nat) (tmp p : Bytes) (fs : FS) :
    post C (fileSave cd pre id eff des t tmp p) (fun r _ => r = .ok () →
      fs.names (ChunkId.formatPath pre id cacnk) = none ∧ fs.names (ChunkId.formatPath pre id []) = none) fs := by
  by_cases hex : fs.names (ChunkId.formatPath pre id cacnk) ≠ none ∨ fs.names (ChunkId.formatPath pre id []) ≠ none
  · apply post_fileSave_exists C cd pre id eff des t tmp p fs hex
    · intro _ _ h; cases h
    · intro _ _ _ _ h; cases h
    · intro _ h; cases h
  · have h' : fs.names (ChunkId.formatPath pre id cacnk) = none ∧ fs.names (ChunkId.formatPath pre id []) = none := by
      constructor
      · exact Classical.not_not.1 (fun h => hex (Or.inl h))
      · exact Classical.not_not.1 (fun h => hex (Or.inr h))
    have triv : ∀ (P : Prog (Res Unit)) (g : FS), post C P (fun r _ => r = .ok () →
        fs.names (ChunkId.formatPath pre id cacnk) = none ∧ fs.names (ChunkId.formatPath pre id []) = none) g := by
      intro P
      induction P with
      | ret a => intro g _; exact h'
      | call c k ih => intro g ch _; exact ih _ _
    exact triv _ _

theorem sem_openRd (fs : FS) (p : Path) (ch : Choice) (hc : ch.fail = none) :
    (fs.names p = none → sem fs (.openRd p) ch = (.err .ENOENT, fs)) ∧
    (∀ i, fs.names p = some (.file i) → sem fs (.openRd p) ch = (.fd i, fs)) := by
  unfold sem
  rw [hc]
  exact ⟨fun h => by simp [h], fun i h => by simp [h]⟩

/-- Suffix of a chunk file. -/
def sufOf (c : Compression) : Bytes := if c = .compressed then cacnk else []

/-- What `ca_chunk_file_load` delivers for a file of compression `fc` with contents `b`. -/
def loaded (cd : Codec) (t : Nat) (des fc : Compression) (b : Bytes) : Res Bytes :=
  if des = .uncompressed ∧ fc = .compressed then
    if MAX ≤ b.length then .err .EBADMSG
    else if b = [] then .err .EPIPE
    else match cd.dec b with
      | .ok d => if d.length ≥ MAX then .err .EBADMSG else if d.length < 1 then .err .EBADMSG else .ok d
      | .err e => .err e
      | .ub => .ub
  else if des = .compressed ∧ fc = .uncompressed then
    if MAX ≤ b.length then .err .EBADMSG
    else if (cd.enc t b).length ≥ MAX then .err .EBADMSG
    else if (cd.enc t b).length < 1 ∨ b.length < 1 then .err .EBADMSG
    else .ok (cd.enc t b)
  else if b.length < 1 ∨ MAX ≤ b.length then .err .EBADMSG else .ok b

theorem post_weaken {α : Type} {C C' : Choice → Prop} (hcc : ∀ ch, C' ch → C ch) (P : Prog α) (Q : α → FS → Prop) (fs : FS)
    (h : post C P Q fs) : post C' P Q fs := by
  induction P generalizing fs with
  | ret a => exact h
  | call c k ih => intro ch hc; exact ih _ _ (h ch (hcc ch hc))

theorem post_loadFile (cd : Codec) (t : Nat) (des fc : Compression) (ino : Nat) (fs : FS) (Q : Res Bytes → FS → Prop)
    (h : Q (loaded cd t des fc (fs.data ino)) fs) :
    post Full (if des = .uncompressed ∧ fc = .compressed then loadAndDecompressFd cd ino
       else if des = .compressed ∧ fc = .uncompressed then loadAndCompressFd cd t ino
       else loadFd ino) Q fs := by
  have hM : 0 < MAX := by simp only [MAX]; omega
  unfold loaded at h
  split
  · rename_i h1
    rw [if_pos h1] at h
    unfold loadAndDecompressFd
    apply post_bind
    refine post_weaken (C := Good) (fun ch hc => hc.1) _ _ _ ?_
    refine post_slurpLoop ino fs _ [] (fs.data ino) rfl hM (by simp) _ ?_
    by_cases h2 : MAX ≤ (fs.data ino).length
    · rw [if_pos h2] at h ⊢; exact h
    · rw [if_neg h2] at h ⊢
      simp only
      split
      · rename_i h3; rw [if_pos h3] at h; exact h
      · rename_i h3
        rw [if_neg h3] at h
        revert h
        cases cd.dec (fs.data ino) with
        | ok d => intro h; exact h
        | err e => intro h; exact h
        | ub => intro h; exact h
  · rename_i h1
    rw [if_neg h1] at h
    split
    · rename_i h2
      rw [if_pos h2] at h
      unfold loadAndCompressFd
      apply post_bind
      refine post_slurpShortLoop ino fs _ [] (fs.data ino) rfl hM (by simp) _ ?_
      by_cases h3 : MAX ≤ (fs.data ino).length
      · rw [if_pos h3] at h ⊢; exact h
      · rw [if_neg h3] at h ⊢; exact h
    · rename_i h2
      rw [if_neg h2] at h
      exact post_weaken (C := Good) (fun ch hc => hc.1) _ _ _ (post_loadFd ino fs Q h)

/-- Loading a chunk of which exactly one file exists. -/
theorem post_fileLoad (cd : Codec) (pre id : Bytes) (des fc : Compression) (t : Nat) (fs : FS) (ino : Nat) (hfc : fc ≠ .asIs)
    (hn : fs.names (ChunkId.formatPath pre id (sufOf fc)) = some (.file ino))
    (ho : fs.names (ChunkId.formatPath pre id (if fc = .compressed then [] else cacnk)) = none)
    (Q : Res (Bytes × Compression) → FS → Prop)
    (h : Q (match loaded cd t des fc (fs.data ino) with
      | .ok d => .ok (d, if des = .asIs then fc else des)
      | .err e => .err e
      | .ub => .ub) fs) :
    post Full (fileLoad cd pre id des t) Q fs := by
  unfold fileLoad
  simp only
  have hload : ∀ (f : Res Bytes → Prog (Res (Bytes × Compression))),
      (∀ d, f (.ok d) = .ret (.ok (d, if des = .asIs then fc else des))) → (∀ e, f (.err e) = .ret (.err e)) →
      f .ub = .ret .ub →
      post Full (Prog.bind (if des = .uncompressed ∧ fc = .compressed then loadAndDecompressFd cd ino
       else if des = .compressed ∧ fc = .uncompressed then loadAndCompressFd cd t ino
       else loadFd ino) f) Q fs := by
    intro f e1 e2 e3
    apply post_bind
    apply post_loadFile cd t des fc ino fs
    cases hl : loaded cd t des fc (fs.data ino) with
    | ok d => rw [hl] at h; rw [e1]; exact h
    | err e => rw [hl] at h; rw [e2]; exact h
    | ub => rw [hl] at h; rw [e3]; exact h
  by_cases hfirst : sufOf fc = (if des = .uncompressed then [] else cacnk)
  · -- the first name is the one that exists
    have hfc1 : (if des = Compression.uncompressed then Compression.uncompressed else .compressed) = fc := by
      cases fc <;> cases des <;> simp_all [sufOf]
    apply post_bind
    unfold fileOpen
    intro ch hc
    rw [← hfirst, (sem_openRd fs _ ch hc.1).2 ino hn]
    simp only [post]
    rw [hfc1]
    exact hload _ (fun _ => rfl) (fun _ => rfl) rfl
  · have hfc1 : (if des = Compression.uncompressed then Compression.compressed else .uncompressed) = fc := by
      cases fc <;> cases des <;> simp_all [sufOf]
    have hs1 : (if fc = .compressed then [] else cacnk) = (if des = .uncompressed then [] else cacnk) := by
      cases fc <;> cases des <;> simp_all [sufOf]
    have hs2 : sufOf fc = (if des = .uncompressed then cacnk else []) := by
      cases fc <;> cases des <;> simp_all [sufOf]
    apply post_bind
    unfold fileOpen
    intro ch hc
    rw [← hs1, (sem_openRd fs _ ch hc.1).1 ho]
    simp only [post]
    apply post_bind
    intro ch hc
    rw [← hs2, (sem_openRd fs _ ch hc.1).2 ino hn]
    simp only [post]
    rw [hfc1]
    exact hload _ (fun _ => rfl) (fun _ => rfl) rfl

end Casync.ChunkFile
