import Verif.Lemmas.Index
import Verif.Props.Flags
namespace Casync.Index
open Casync Casync.Index.Spec

/-- A writer that has written the head and `k` items. -/
def wstate (h : Header) (k prev : Nat) (file : Bytes) : Index :=
  { mode := .write, startOffset := 64, cooked := 64 + 40 * k, itemPos := k, prev := prev,
    cmin := h.cmin, cavg := h.cavg, cmax := h.cmax, flags := h.flags, file := file, pos := file.length }

/-- A fresh writer. -/
def wfresh (h : Header) : Index :=
  { mode := .write, cmin := h.cmin, cavg := h.cavg, cmax := h.cmax, flags := h.flags }

theorem openIndex_wstate (h : Header) (k prev : Nat) (file : Bytes) :
    openIndex (wstate h k prev file) = .ok (wstate h k prev file) := by
  have h1 : readHead (wstate h k prev file) = .ok (wstate h k prev file) := by
    unfold readHead
    rw [if_pos (by simp [wstate])]
  unfold openIndex
  rw [h1]
  show writeHead _ = _
  unfold writeHead
  rw [if_neg (by simp [wstate]), if_pos (by simp [wstate])]

theorem openIndex_wfresh_ok {h : Header} (hf : h.flags ≠ Flags.none64) (h0 : 1 ≤ h.cmin)
    (h1 : h.cmin ≤ h.cavg) (h2 : h.cavg ≤ h.cmax) :
    openIndex (wfresh h) = .ok (wstate h 0 0 (encHead h)) := by
  have h3 : readHead (wfresh h) = .ok (wfresh h) := by
    unfold readHead
    rw [if_pos (by simp [wfresh])]
  unfold openIndex
  rw [h3]
  show writeHead _ = _
  unfold writeHead
  have e1 : ¬ ((wfresh h).cmin = 0 ∨ (wfresh h).cavg = 0 ∨ (wfresh h).cmax = 0) := by
    simp only [wfresh]; omega
  have e2 : ¬¬ ((wfresh h).cmin ≤ (wfresh h).cavg ∧ (wfresh h).cavg ≤ (wfresh h).cmax) := by
    simp only [wfresh]; omega
  have e3 : (wfresh h).flags ≠ Flags.none64 := hf
  rw [if_neg (by simp [wfresh]), if_neg (by simp [wfresh]), if_neg e3, if_neg e1, if_neg e2,
    if_neg (by simp [wfresh])]
  have eh : le64 48 ++ le64 tIndex ++ le64 (wfresh h).flags.toNat ++ le64 (wfresh h).cmin ++
      le64 (wfresh h).cavg ++ le64 (wfresh h).cmax ++ le64 u64max ++ le64 tTable = encHead h := by
    rw [List.append_assoc, List.append_assoc, List.append_assoc, List.append_assoc, List.append_assoc,
      List.append_assoc]
    rfl
  rw [eh]
  have el := encHead_length h
  have ea : fdAppend (wfresh h) (encHead h) =
      { wfresh h with file := encHead h, pos := (encHead h).length } := by
    unfold fdAppend
    have e4 : (wfresh h).file ++ encHead h = encHead h := nilapp rfl
    have e5 : (wfresh h).pos + (encHead h).length = (encHead h).length := Nat.zero_add _
    rw [e4, e5]
  simp only [ea, el]
  unfold wstate
  rw [el]
  rfl

theorem openIndex_wfresh_inv {h : Header} {i : Index} (hi : openIndex (wfresh h) = .ok i) :
    h.cmin ≤ h.cavg ∧ h.cavg ≤ h.cmax := by
  have h3 : readHead (wfresh h) = .ok (wfresh h) := by
    unfold readHead
    rw [if_pos (by simp [wfresh])]
  unfold openIndex at hi
  rw [h3] at hi
  change writeHead _ = _ at hi
  unfold writeHead at hi
  rw [if_neg (by simp [wfresh]), if_neg (by simp [wfresh])] at hi
  split at hi
  · cases hi
  · split at hi
    · cases hi
    · split at hi
      · cases hi
      · rename_i h5
        simpa [wfresh] using h5

theorem writeChunk_wstate {h : Header} {k prev : Nat} {file id : Bytes} {size : Nat}
    (hs : 1 ≤ size) (hm : size ≤ h.cmax) (ht : prev + size < 2 ^ 64) :
    writeChunk (wstate h k prev file) id size =
      .ok (wstate h (k + 1) (prev + size) (file ++ (le64 (prev + size) ++ id))) := by
  unfold writeChunk
  rw [if_neg (by omega), if_neg (by simp [wstate]), if_neg (by simp [wstate]), openIndex_wstate, Res.bind_ok]
  have e1 : ¬ size > (wstate h k prev file).cmax := by simp only [wstate]; omega
  have e2 : ((wstate h k prev file).prev + size) % 2 ^ 64 = prev + size := Nat.mod_eq_of_lt ht
  have e3 : ¬ prev + size < (wstate h k prev file).prev := by simp only [wstate]; omega
  simp only [e2]
  rw [if_neg e1, if_neg e3]
  have e4 : (file ++ (le64 (prev + size) ++ id)).length = file.length + (le64 (prev + size) ++ id).length :=
    List.length_append
  unfold wstate fdAppend
  rw [e4]
  rfl

theorem writeChunk_wstate_inv {h : Header} {k prev : Nat} {file id : Bytes} {size : Nat} {i : Index}
    (hp : prev < 2 ^ 64) (hc : h.cmax ≤ 128 * 1024 * 1024)
    (hw : writeChunk (wstate h k prev file) id size = .ok i) :
    1 ≤ size ∧ size ≤ h.cmax ∧ prev + size < 2 ^ 64 := by
  unfold writeChunk at hw
  split at hw
  · cases hw
  · rw [if_neg (by simp [wstate]), if_neg (by simp [wstate]), openIndex_wstate, Res.bind_ok] at hw
    split at hw
    · cases hw
    · rename_i h1 h2
      have h2' : size ≤ h.cmax := by simpa [wstate] using h2
      have hp' : (wstate h k prev file).prev = prev := rfl
      rw [hp'] at hw
      simp only at hw
      split at hw
      · cases hw
      · rename_i h3
        refine ⟨by omega, h2', ?_⟩
        rcases Nat.lt_or_ge (prev + size) (2 ^ 64) with h4 | h4
        · exact h4
        · exfalso; apply h3
          rw [Nat.mod_eq_sub_mod h4, Nat.mod_eq_of_lt (by omega)]
          omega

theorem writeChunks_wstate {h : Header} (cs : List (Bytes × Nat)) : ∀ (k prev : Nat) (file : Bytes),
    (∀ c ∈ cs, 1 ≤ c.2 ∧ c.2 ≤ h.cmax) → prev + total cs < 2 ^ 64 →
    writeChunks (wstate h k prev file) cs =
      .ok (wstate h (k + cs.length) (prev + total cs) (file ++ encItems prev cs)) := by
  induction cs with
  | nil =>
    intro k prev file _ _
    rw [encItems_nil, List.append_nil, writeChunks]
    rfl
  | cons c cs ih =>
    obtain ⟨id, size⟩ := c
    intro k prev file hv ht
    rw [total_cons] at ht
    have h1 := hv (id, size) (by simp)
    have hw := writeChunk_wstate (k := k) (file := file) (id := id) h1.1 h1.2 (show prev + size < 2 ^ 64 by omega)
    rw [writeChunks, hw, Res.bind_ok]
    rw [ih (k + 1) (prev + size) _ (fun c hc => hv c (by simp [hc])) (by omega), total_cons, encItems_cons,
      List.append_assoc, List.length_cons, Nat.add_assoc, Nat.add_assoc, Nat.add_comm 1 cs.length]

theorem writeChunks_wstate_inv {h : Header} (hc : h.cmax ≤ 128 * 1024 * 1024) (cs : List (Bytes × Nat)) :
    ∀ (k prev : Nat) (file : Bytes) (i : Index), prev < 2 ^ 64 →
    writeChunks (wstate h k prev file) cs = .ok i →
    (∀ c ∈ cs, 1 ≤ c.2 ∧ c.2 ≤ h.cmax) ∧ prev + total cs < 2 ^ 64 := by
  induction cs with
  | nil => intro k prev file i hp _; exact ⟨by simp, by simpa [total] using hp⟩
  | cons c cs ih =>
    obtain ⟨id, size⟩ := c
    intro k prev file i hp hw
    rw [writeChunks, Res.bind_eq_ok] at hw
    obtain ⟨j, h1, h2⟩ := hw
    have h3 := writeChunk_wstate_inv hp hc h1
    rw [writeChunk_wstate h3.1 h3.2.1 h3.2.2] at h1
    injection h1 with h1
    subst h1
    have h4 := ih _ _ _ i h3.2.2 h2
    refine ⟨?_, by rw [total_cons]; omega⟩
    intro c hcm
    rcases List.mem_cons.1 hcm with rfl | hcm
    · exact ⟨h3.1, h3.2.1⟩
    · exact h4.1 c hcm

theorem writeEof_wstate {h : Header} {k prev : Nat} {file : Bytes} :
    writeEof (wstate h k prev file) = .ok { wstate h (k + 1) prev (file ++ encTail k) with
      itemPos := k, wroteEof := true } := by
  unfold writeEof
  rw [if_neg (by simp [wstate]), if_neg (by simp [wstate]), openIndex_wstate, Res.bind_ok]
  have et : le64 0 ++ le64 0 ++ le64 48 ++ le64 (16 + (wstate h k prev file).itemPos * 40 + 40) ++
      le64 tailMarker = encTail k := by
    rw [List.append_assoc, List.append_assoc, List.append_assoc,
      show (wstate h k prev file).itemPos * 40 = 40 * k from Nat.mul_comm _ _]
    rfl
  simp only [et]
  have e4 : (file ++ encTail k).length = file.length + (encTail k).length := List.length_append
  unfold fdAppend wstate
  rw [e4]
  rfl

/-- Before the head is written the first operation behaves as right after it. -/
theorem writeAll_fresh {h : Header} (cs : List (Bytes × Nat))
    (ho : openIndex (wfresh h) = .ok (wstate h 0 0 (encHead h))) :
    (writeChunks (wfresh h) cs >>= fun i => writeEof i) =
      (writeChunks (wstate h 0 0 (encHead h)) cs >>= fun i => writeEof i) := by
  cases cs with
  | nil =>
    rw [writeChunks, writeChunks, Res.bind_ok, Res.bind_ok]
    unfold writeEof
    rw [ho, openIndex_wstate]
    rfl
  | cons c cs =>
    obtain ⟨id, size⟩ := c
    rw [writeChunks, writeChunks]
    have : writeChunk (wfresh h) id size = writeChunk (wstate h 0 0 (encHead h)) id size := by
      unfold writeChunk
      rw [ho, openIndex_wstate]
      rfl
    rw [this]

theorem newWrite_eq_ok {flags a b c i} : newWrite flags a b c = .ok i ↔
    ∃ f, Flags.normalize flags = .ok f ∧ 1 ≤ a ∧ a ≤ limitMax ∧ 1 ≤ b ∧ b ≤ limitMax ∧ 1 ≤ c ∧ c ≤ limitMax ∧
      i = wfresh ⟨f, a, b, c⟩ := by
  unfold newWrite
  cases hn : Flags.normalize flags with
  | err e => simp
  | ub => simp
  | ok f =>
    simp only [Res.ok.injEq]
    split
    · rename_i h
      constructor
      · intro h; cases h
      · rintro ⟨f', _, h'⟩; omega
    · rename_i h
      constructor
      · intro h'; injection h' with h'
        exact ⟨f, rfl, by omega, by omega, by omega, by omega, by omega, by omega, h'.symm⟩
      · rintro ⟨f', h1, _, _, _, _, _, _, h2⟩
        subst h1; rw [h2]; rfl

theorem writeFile_ok {flags f a b c cs} (hn : Flags.normalize flags = .ok f) (h1 : 1 ≤ a) (h2 : a ≤ b)
    (h3 : b ≤ c) (h4 : c ≤ 128 * 1024 * 1024) (hv : ∀ x ∈ cs, 1 ≤ x.2 ∧ x.2 ≤ c) (ht : total cs < 2 ^ 64) :
    ∃ i, writeFile flags a b c cs = .ok i ∧ i.file = encode ⟨f, a, b, c⟩ cs := by
  have hnw : newWrite flags a b c = .ok (wfresh ⟨f, a, b, c⟩) := by
    rw [newWrite_eq_ok]
    exact ⟨f, hn, by omega, by simp only [limitMax]; omega, by omega, by simp only [limitMax]; omega, by omega,
      by simp only [limitMax]; omega, rfl⟩
  have hne : f ≠ Flags.none64 := by
    have := Flags.C17_result_is_normalized _ _ hn
    rintro rfl
    revert this
    decide
  have ho := openIndex_wfresh_ok (h := ⟨f, a, b, c⟩) hne h1 h2 h3
  refine ⟨{ wstate ⟨f, a, b, c⟩ (0 + cs.length + 1) (0 + total cs)
      (encHead ⟨f, a, b, c⟩ ++ encItems 0 cs ++ encTail (0 + cs.length)) with
      itemPos := 0 + cs.length, wroteEof := true }, ?_, ?_⟩
  · unfold writeFile
    rw [hnw, Res.bind_ok, writeAll_fresh cs ho, writeChunks_wstate cs 0 0 _ hv (by omega), Res.bind_ok,
      writeEof_wstate]
  · show encHead ⟨f, a, b, c⟩ ++ encItems 0 cs ++ encTail (0 + cs.length) = _
    rw [Nat.zero_add, List.append_assoc]
    rfl

theorem writeFile_inv {flags a b c cs i} (hw : writeFile flags a b c cs = .ok i) :
    ∃ f, Flags.normalize flags = .ok f ∧ 1 ≤ a ∧ a ≤ b ∧ b ≤ c ∧ c ≤ 128 * 1024 * 1024 ∧
      (∀ x ∈ cs, 1 ≤ x.2 ∧ x.2 ≤ c) ∧ total cs < 2 ^ 64 := by
  unfold writeFile at hw
  rw [Res.bind_eq_ok] at hw
  obtain ⟨j, h1, h2⟩ := hw
  obtain ⟨f, hn, ha, ha', hb, hb', hc, hc', rfl⟩ := newWrite_eq_ok.1 h1
  have hopen : ∃ j, openIndex (wfresh ⟨f, a, b, c⟩) = .ok j := by
    rw [Res.bind_eq_ok] at h2
    obtain ⟨k, h3, h4⟩ := h2
    cases cs with
    | nil =>
      rw [writeChunks] at h3; injection h3 with h3; subst h3
      unfold writeEof at h4
      rw [if_neg (by simp [wfresh]), if_neg (by simp [wfresh]), Res.bind_eq_ok] at h4
      exact ⟨_, h4.choose_spec.1⟩
    | cons x xs =>
      obtain ⟨id, size⟩ := x
      rw [writeChunks, Res.bind_eq_ok] at h3
      obtain ⟨l, h5, _⟩ := h3
      unfold writeChunk at h5
      split at h5
      · cases h5
      · rw [if_neg (by simp [wfresh]), if_neg (by simp [wfresh]), Res.bind_eq_ok] at h5
        exact ⟨_, h5.choose_spec.1⟩
  obtain ⟨j, hj⟩ := hopen
  have ho := openIndex_wfresh_inv hj
  have hne : f ≠ Flags.none64 := by
    have := Flags.C17_result_is_normalized _ _ hn
    rintro rfl
    revert this
    decide
  have hoo := openIndex_wfresh_ok (h := ⟨f, a, b, c⟩) hne ha ho.1 ho.2
  rw [writeAll_fresh cs hoo, Res.bind_eq_ok] at h2
  obtain ⟨k, h3, _⟩ := h2
  have := writeChunks_wstate_inv (h := ⟨f, a, b, c⟩) hc' cs 0 0 _ k (by omega) h3
  exact ⟨f, hn, ha, ho.1, ho.2, hc', this.1, by omega⟩

end Casync.Index
