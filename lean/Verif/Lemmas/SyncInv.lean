import Verif.Lemmas.SyncRead
namespace Casync.Sync
open Casync Casync.Index Casync.Index.Spec

/-- The index of a reader: the file (or the part `F` that arrived, with `rest` still to come) positioned in front of chunk `q`. -/
inductive At (hd : Header) (cs : List (Bytes × Nat)) (enc rest : Bytes) : Index.Index → Nat → Prop
  | newFile : At hd cs enc rest (newRead enc) 0
  | newInc (F : Bytes) (e : Bool) : F ++ rest = enc → (e = true → rest = []) → At hd cs enc rest (ustate F e) 0
  | mid (s : Src) (q : Nat) : Src.Good enc rest s → q ≤ cs.length → s.Reached q → At hd cs enc rest (rst hd s q (E cs q)) q
  | fin (s : Src) (prev : Nat) : Src.Good enc rest s → s.complete = true → At hd cs enc rest (est hd s cs.length prev) cs.length

def Complete (i : Index.Index) : Prop := i.mode = .read ∨ i.wroteEof = true

theorem complete_src {s : Src} {hd p c i v} : Complete (gst hd s p c i v) ↔ s.complete = true := by
  unfold Complete Src.complete gst; simp

variable {hd : Header} {cs : List (Bytes × Nat)} {enc rest : Bytes}

theorem Src.Good.len {s : Src} (c : Canon hd cs enc) (hg : Src.Good enc rest s) {q : Nat} (hq : q ≤ cs.length) (hr : s.Reached q) :
    64 + 40 * q ≤ s.F.length := by
  have hl := c.len
  cases hg with
  | file => show _ ≤ enc.length; omega
  | inc F e hF he h64 =>
    rcases hr with h | h | h
    · have : F = enc := Good.file_of_complete (.inc F e hF he h64) h
      show _ ≤ F.length
      rw [this]; omega
    · show _ ≤ F.length
      omega
    · have h : 64 + 40 * q + 1 ≤ F.length := h
      show _ ≤ F.length
      omega

theorem Src.Good.lt63 {s : Src} (c : Canon hd cs enc) (hg : Src.Good enc rest s) : s.F.length < 2 ^ 63 := by
  have hl := c.len
  have hll := c.hl
  cases hg with
  | file => show enc.length < _; omega
  | inc F e hF he h64 =>
    have : F.length ≤ enc.length := by rw [← hF, List.length_append]; omega
    show F.length < _
    omega

theorem At.le (c : Canon hd cs enc) {i q} (h : At hd cs enc rest i q) : q ≤ i.file.length ∧ q ≤ cs.length := by
  cases h with
  | newFile => exact ⟨Nat.zero_le _, Nat.zero_le _⟩
  | newInc => exact ⟨Nat.zero_le _, Nat.zero_le _⟩
  | mid s _ hg hq hr =>
    refine ⟨?_, hq⟩
    have := hg.len c hq hr
    show q ≤ s.F.length
    omega
  | fin s prev hg hc =>
    refine ⟨?_, Nat.le_refl _⟩
    have := hg.len c (Nat.le_refl _) (.inl hc)
    show cs.length ≤ s.F.length
    omega

theorem Canon.open (c : Canon hd cs enc) : openIndex (newRead enc) = .ok (rst hd ⟨.read, false, 0, enc⟩ 0 0) := by
  rw [c.hf]
  exact openIndex_newRead_encHead c.hv (encItems 0 cs ++ encTail cs.length)

theorem open_ustate (c : Canon hd cs enc) {F : Bytes} {e : Bool} (hF : F ++ rest = enc) (he : e = true → rest = [])
    (h : 64 ≤ F.length ∨ e = true) : openIndex (ustate F e) = .ok (rst hd ⟨.incRead, e, F.length, F⟩ 0 0) := by
  have ho := Canon.open c
  rw [← hF] at ho
  have h' : 64 ≤ F.length ∨ (e = true ∧ rest = []) := by
    rcases h with h | h
    · exact .inl h
    · exact .inr ⟨h, he h⟩
  rcases openIndex_ustate h' with ⟨hd', hv, h1, h2⟩ | ⟨er, _, _, h2⟩
  · rw [ho] at h2
    injection h2 with h2
    have : hd' = hd := by
      have a1 := congrArg Index.Index.flags h2
      have a2 := congrArg Index.Index.cmin h2
      have a3 := congrArg Index.Index.cavg h2
      have a4 := congrArg Index.Index.cmax h2
      cases hd; cases hd'
      simp only [rst, rstate] at a1 a2 a3 a4
      rw [a1, a2, a3, a4]
    subst this
    exact h1
  · rw [ho] at h2; cases h2

theorem readHead_new_wait {F : Bytes} (h : F.length < 64) : readHead (ustate F false) = .err .EAGAIN := by
  unfold readHead
  rw [if_neg (by simp [ustate]), if_neg (by simp [ustate]), if_neg (by simp [ustate])]
  have : enoughData (ustate F false) 64 = .ok false := by
    unfold enoughData
    simp [ustate]; omega
  rw [this]

theorem readHead_of_open {i j : Index.Index} (h : openIndex i = .ok j) (hm : i.mode = .read ∨ i.mode = .incRead) (hne : readHead i ≠ .err .EAGAIN) :
    readHead i = .ok j := by
  unfold openIndex at h
  cases hr : readHead i with
  | ub => rw [hr] at h; cases h
  | err e =>
    rw [hr] at h hne
    exfalso
    cases e <;> first | exact hne rfl | cases h
  | ok k =>
    rw [hr] at h
    have h : writeHead k = .ok j := h
    have hk : k.mode = i.mode := by
      unfold readHead at hr
      rw [if_neg (by rcases hm with h | h <;> simp [h])] at hr
      split at hr
      · injection hr with hr; rw [hr]
      · split at hr
        · cases hr
        · split at hr
          · cases hr
          · cases hr
          · cases hr
          · simp only at hr
            split at hr
            · cases hr
            · unfold parseHead at hr
              simp only at hr
              split at hr
              · cases hr
              · split at hr
                · cases hr
                · cases hr
                · cases hr
                · repeat (split at hr; cases hr)
                  injection hr with hr
                  rw [← hr]; rfl
    unfold writeHead at h
    rw [if_pos (by rw [hk]; rcases hm with h | h <;> simp [h])] at h
    exact h

theorem readChunk_congr {i j : Index.Index} (h1 : openIndex i = .ok j) (h2 : openIndex j = .ok j) : readChunk i = readChunk j := by
  unfold readChunk
  rw [h1, h2]

theorem rst_E0 (s : Src) : rst hd s 0 0 = rst hd s 0 (E cs 0) := by rw [E_zero]

theorem reached_zero (s : Src) : s.Reached 0 := .inr (.inl rfl)

/-- An index is either not opened yet because there is not enough of it, or opening it gives an opened one. -/
theorem At.opened (c : Canon hd cs enc) {i q} (h : At hd cs enc rest i q) :
    (∃ F, i = ustate F false ∧ F ++ rest = enc ∧ F.length < 64 ∧ q = 0) ∨
    (∃ s, Src.Good enc rest s ∧ (Complete i ↔ s.complete = true) ∧ s.F = i.file ∧ ∃ p ck v, openIndex i = .ok (gst hd s p ck q v) ∧ readHead i = .ok (gst hd s p ck q v) ∧
      ((p = 64 + 40 * q ∧ ck = 64 + 40 * q ∧ v = E cs q ∧ s.Reached q) ∨ (q = cs.length ∧ p = 64 + 40 * q + 40 ∧ ck = 64 + 40 * q ∧ s.complete = true))) := by
  have hl := c.len
  cases h with
  | newFile =>
    right
    refine ⟨⟨.read, false, 0, enc⟩, .file, by simp [Complete, newRead, Src.complete], rfl, _, _, _, Canon.open c, ?_,
      .inl ⟨rfl, rfl, (E_zero cs).symm, reached_zero _⟩⟩
    refine readHead_of_open (Canon.open c) (.inl rfl) ?_
    rw [readHead_newRead]
    split
    · simp
    · exact parseHead_ne_again _ _
  | newInc F e hF he =>
    by_cases hw : 64 ≤ F.length ∨ e = true
    · right
      have h64 : 64 ≤ F.length := by
        rcases hw with h | h
        · exact h
        · have := he h
          rw [this, List.append_nil] at hF
          rw [hF]; omega
      have ho := open_ustate c hF he hw
      refine ⟨⟨.incRead, e, F.length, F⟩, .inc F e hF he h64, by simp [Complete, ustate, Src.complete], rfl, _, _, _, ho, ?_,
        .inl ⟨rfl, rfl, (E_zero cs).symm, reached_zero _⟩⟩
      refine readHead_of_open ho (.inr rfl) ?_
      unfold readHead
      rw [if_neg (by simp [ustate]), if_neg (by simp [ustate]), if_neg (by simp [ustate])]
      have : enoughData (ustate F e) 64 = .ok true := by
        unfold enoughData
        simp [ustate, h64]
      rw [this]
      simp only
      split
      · simp
      · exact parseHead_ne_again _ _
    · left
      have he' : e = false := by cases e with | true => exact absurd (.inr rfl) hw | false => rfl
      subst he'
      exact ⟨F, rfl, hF, by omega, rfl⟩
  | mid s _ hg hq hr =>
    right
    exact ⟨s, hg, complete_src, rfl, _, _, _, openIndex_gst hg _ _ _ _, readHead_gst hg _ _ _ _, .inl ⟨rfl, rfl, rfl, hr⟩⟩
  | fin s prev hg hc =>
    right
    exact ⟨s, hg, complete_src, rfl, _, _, _, openIndex_gst hg _ _ _ _, readHead_gst hg _ _ _ _, .inr ⟨rfl, rfl, rfl, hc⟩⟩

theorem read_new_short (c : Canon hd cs enc) {F : Bytes} (hF : F ++ rest = enc) (hl : F.length < 64) :
    readChunk (ustate F false) = .err (if F.length < 41 then .EAGAIN else .EBADMSG) := by
  unfold readChunk
  rw [readHead_ustate_wait hl, Res.bind_ok, if_neg (by simp [ustate])]
  by_cases h : F.length < 41
  · have : enoughData (ustate F false) 41 = .ok false := by
      unfold enoughData
      simp [ustate]; omega
    rw [this, if_pos h]
  · have : enoughData (ustate F false) 41 = .ok true := by
      unfold enoughData
      simp [ustate]; omega
    rw [this, if_neg h]
    have hb : (fdRead (ustate F false) 40).1 = F.take 40 := rfl
    have hlen : (F.take 40).length = 40 := by rw [List.length_take]; omega
    simp only [hb]
    rw [if_neg (by omega)]
    have f0 : field (F.take 40) 0 = 48 := by
      have e1 : F.take 40 = enc.take 40 := by rw [← hF, List.take_append_of_le_length (by omega)]
      rw [e1, c.hf]
      unfold encode encHead
      rw [List.append_assoc]
      unfold field
      rw [Nat.mul_zero, List.drop_zero, List.take_take, show min 8 40 = 8 from rfl, List.take_append_of_le_length (by simp),
        List.take_of_length_le (by simp), rdLE_le64 (by decide)]
    generalize hx : (fdRead (ustate F false) 40).2 = x
    have hp : x.prev = 0 := by rw [← hx]; rfl
    have hm : x.cmax = 0 := by rw [← hx]; rfl
    unfold parseRecord
    rw [if_neg (by rw [f0]; omega), if_neg (by rw [f0, hp]; omega), if_pos (by rw [f0, hp, hm]; decide)]

/-- Reading the next chunk. -/
theorem read_at (c : Canon hd cs enc) {i q} (h : At hd cs enc rest i q) :
    (∃ e, readChunk i = .err e ∧ (Complete i → q = cs.length) ∧ (e = .EAGAIN → ¬ Complete i)) ∨
    (∃ (hlt : q < cs.length) (i' : Index.Index), readChunk i = .ok (some { id := cs[q].1, endOffset := E cs (q + 1), size := cs[q].2 }, i') ∧
      At hd cs enc rest i' (q + 1) ∧ (Complete i' ↔ Complete i) ∧ i'.file = i.file) ∨
    (q = cs.length ∧ ∃ i', readChunk i = .ok (none, i') ∧ At hd cs enc rest i' q ∧ (Complete i' ↔ Complete i) ∧ i'.file = i.file) := by
  have hq := (h.le c).2
  rcases h.opened c with ⟨F, rfl, hF, hl, rfl⟩ | ⟨s, hg, hcm, hfile, p, ck, v, ho, hrh, hst⟩
  · left
    exact ⟨_, read_new_short c hF hl, fun h => by simp [Complete, ustate] at h, fun _ h => by simp [Complete, ustate] at h⟩
  · have hrd := readChunk_congr ho (openIndex_gst hg _ _ _ _)
    rcases hst with ⟨rfl, rfl, rfl, hr⟩ | ⟨rfl, rfl, rfl, hc⟩
    · have hrd : readChunk i = readChunk (rst hd s q (E cs q)) := hrd
      rcases read_rst c hg hq hr (.inl rfl) with ⟨h1, h2, _⟩ | ⟨hr', ⟨hlt, sz, h1, hsz⟩ | ⟨he, h1⟩⟩
      · left
        refine ⟨_, hrd.trans h1, fun h => ?_, fun _ h => ?_⟩
        · have := hcm.1 h; rw [h2] at this; cases this
        · have := hcm.1 h; rw [h2] at this; cases this
      · right; left
        have hs : sz = cs[q].2 := hsz rfl
        subst hs
        exact ⟨hlt, _, hrd.trans h1, .mid s (q + 1) hg (by omega) hr', complete_src.trans hcm.symm, hfile⟩
      · right; right
        subst he
        refine ⟨rfl, _, hrd.trans h1, ?_, complete_src.trans hcm.symm, hfile⟩
        refine .fin s _ hg ?_
        rcases hr' with h | h | h
        · exact h
        · omega
        · exfalso
          have hl := c.len
          have : s.F.length ≤ enc.length := by
            cases hg with
            | file => exact Nat.le_refl _
            | inc F e hF he h64 => rw [← hF, List.length_append]; exact Nat.le_add_right _ _
          have h3 : s.complete = false := by
            cases h4 : s.complete with
            | false => rfl
            | true =>
              have := Good.file_of_complete hg h4
              rw [this] at h
              omega
          omega
    · left
      have hF := Good.file_of_complete hg hc
      have hl := c.len
      refine ⟨.EPIPE, ?_, fun _ => rfl, fun h => by cases h⟩
      rw [hrd]
      unfold readChunk
      rw [openIndex_gst hg, Res.bind_ok, if_neg (by rcases hg.mode with h | h <;> simp [gst, h])]
      have : enoughData (gst hd s (64 + 40 * cs.length + 40) (64 + 40 * cs.length) cs.length v) 41 = .ok true := by
        unfold enoughData
        rcases hg.mode with h | h
        · simp [gst, h]
        · have : s.e = true := by simpa [Src.complete, h] using hc
          simp [gst, h, this]
      rw [this]
      have hb : (fdRead (gst hd s (64 + 40 * cs.length + 40) (64 + 40 * cs.length) cs.length v) 40).1 = [] := by
        show (s.F.drop (64 + 40 * cs.length + 40)).take 40 = []
        rw [List.drop_of_length_le (by rw [hF]; omega)]; rfl
      simp only [hb]
      rw [if_pos (by simp)]

/-- Seeking. -/
theorem seek_at (c : Canon hd cs enc) {i q} (h : At hd cs enc rest i q) (offset : Nat) :
    (∃ e, seek i offset = .err e ∧ (Complete i → total cs ≤ offset)) ∨
    (∃ (skip q' : Nat) (i' : Index.Index), seek i offset = .ok (skip, i') ∧ At hd cs enc rest i' q' ∧ E cs q' + skip = offset ∧ offset < total cs ∧
      (Complete i' ↔ Complete i) ∧ i'.file = i.file) := by
  rcases h.opened c with ⟨F, rfl, hF, hl, rfl⟩ | ⟨s, hg, hcm, hfile, p, ck, v, ho, hrh, hst⟩
  · left
    refine ⟨.EAGAIN, ?_, fun h => by simp [Complete, ustate] at h⟩
    unfold seek getBlobSize getIndexSize
    rw [readHead_ustate_wait hl, Res.bind_ok, readHead_new_wait hl]
    rfl
  · have hs : seek i offset = seek (gst hd s p ck q v) offset := by
      unfold seek getBlobSize getIndexSize
      rw [ho, openIndex_gst hg]
    obtain ⟨h1, h2, h3⟩ := seek_gst c hg offset p ck q v
    cases hc : s.complete with
    | false =>
      left
      exact ⟨_, hs.trans (h1 hc), fun h => by have := hcm.1 h; rw [hc] at this; cases this⟩
    | true =>
      rcases Nat.lt_or_ge offset (total cs) with hlt | hge
      · right
        obtain ⟨q', skip, h4, h5, h6⟩ := h3 hc hlt
        exact ⟨skip, q', _, hs.trans h4, .mid s q' hg (Nat.le_of_lt h5) (.inl hc), h6, hlt, complete_src.trans hcm.symm, hfile⟩
      · left
        exact ⟨_, hs.trans (h2 hc hge), fun _ => hge⟩

end Casync.Sync
