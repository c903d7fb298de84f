import Verif.Spec.SyncRead
import Verif.Lemmas.IndexSeek
import Verif.Lemmas.IndexInc
namespace Casync.Sync
open Casync Casync.Index Casync.Index.Spec

/-- How the index is read: as a file, or as it arrives (`F` so far, `e`: the end was announced). -/
structure Src where
  m : Mode
  e : Bool
  raw : Nat
  F : Bytes

inductive Src.Good (enc rest : Bytes) : Src → Prop
  | file : Src.Good enc rest ⟨.read, false, 0, enc⟩
  | inc (F : Bytes) (e : Bool) : F ++ rest = enc → (e = true → rest = []) → 64 ≤ F.length → Src.Good enc rest ⟨.incRead, e, F.length, F⟩

/-- Everything is there. -/
def Src.complete (s : Src) : Bool := decide (s.m = .read) || s.e

/-- A reader with arbitrary position fields. -/
def gst (hd : Header) (s : Src) (pos cooked itemPos prev : Nat) : Index.Index :=
  { mode := s.m, wroteEof := s.e, startOffset := 64, cooked := cooked, raw := s.raw, itemPos := itemPos,
    prev := prev, cmin := hd.cmin, cavg := hd.cavg, cmax := hd.cmax, flags := hd.flags, file := s.F,
    pos := pos }

def rst (hd : Header) (s : Src) (q prev : Nat) : Index.Index := rstate hd s.m s.e s.raw s.F q prev

theorem rst_gst (hd s q prev) : rst hd s q prev = gst hd s (64 + 40 * q) (64 + 40 * q) q prev := rfl

theorem Src.Good.mode {enc rest s} (h : Src.Good enc rest s) : s.m = .read ∨ s.m = .incRead := by
  cases h <;> simp

theorem readHead_gst {enc rest hd s} (hg : Src.Good enc rest s) (p c i v) : readHead (gst hd s p c i v) = .ok (gst hd s p c i v) := by
  unfold readHead
  rw [if_neg (by rcases hg.mode with h | h <;> simp [gst, h]), if_pos (by simp [gst])]

theorem openIndex_gst {enc rest hd s} (hg : Src.Good enc rest s) (p c i v) : openIndex (gst hd s p c i v) = .ok (gst hd s p c i v) := by
  unfold openIndex
  rw [readHead_gst hg]
  show writeHead _ = _
  unfold writeHead
  rw [if_pos (by rcases hg.mode with h | h <;> simp [gst, h])]

theorem setPosition_gst {enc rest hd s} (hg : Src.Good enc rest s) {p c i v q : Nat} (hq : 64 + 40 * q < 2 ^ 63) :
    setPosition (gst hd s p c i v) q = .ok (rst hd s q (if q = 0 then 0 else u64max)) := by
  unfold setPosition
  rw [if_neg (by rcases hg.mode with h | h <;> simp [gst, h]), if_neg (by simp [gst])]
  have e1 : q * 40 % 2 ^ 64 = 40 * q := by rw [Nat.mul_comm, Nat.mod_eq_of_lt (by omega)]
  have e2 : (64 + 40 * q) % 2 ^ 64 = 64 + 40 * q := Nat.mod_eq_of_lt (by omega)
  have e3 : (gst hd s p c i v).startOffset = 64 := rfl
  simp only [e1, e2, e3]
  rw [if_neg (by omega), if_neg (by omega), if_neg (by omega)]
  rfl

theorem recAt_canon {hd cs file} (c : Canon hd cs file) {k : Nat} (hk : k < cs.length) {prev : Nat}
    (hp : prev = E cs k ∨ prev = u64max) :
    ∃ sz, recAt hd file k prev = .ok (some { id := cs[k].1, endOffset := E cs (k + 1), size := sz }) ∧ (prev = E cs k → sz = cs[k].2) := by
  obtain ⟨sz, h, hs⟩ := c.read hk hp
  refine ⟨sz, ?_, hs⟩
  rw [readChunk_read, readRecord_recAt] at h
  cases hr : recAt hd file k prev with
  | ub => rw [hr] at h; cases h
  | err e => rw [hr] at h; cases h
  | ok o =>
    rw [hr] at h
    cases o with
    | none => cases h
    | some x => simp only at h; injection h with h; injection h with h _; rw [h]

theorem recAt_end {hd cs file} (c : Canon hd cs file) (prev : Nat) : recAt hd file cs.length prev = .ok none := by
  have hl := c.hl
  have hb : (file.drop (64 + 40 * cs.length)).take 40 = encTail cs.length := by
    rw [c.drop (Nat.le_refl _), List.drop_length, nilapp (encItems_nil _), take_self (encTail_length _)]
  have h : readRecord hd .read false 0 file cs.length prev = .ok (none, { rstate hd .read false 0 file cs.length prev with pos := 64 + 40 * cs.length + 40 }) := by
    unfold readRecord
    rw [hb]
    simp only
    rw [if_neg (by rw [encTail_length]; simp), encTail_length]
    exact parse_tail (by omega) (by rw [c.len]; omega)
  rw [readRecord_recAt] at h
  cases hr : recAt hd file cs.length prev with
  | ub => rw [hr] at h; cases h
  | err e => rw [hr] at h; cases h
  | ok o =>
    rw [hr] at h
    cases o with
    | none => rfl
    | some x => simp only at h; injection h with h; injection h with h _; cases h

/-- The state behind the end of the file. -/
def est (hd : Header) (s : Src) (n prev : Nat) : Index.Index := gst hd s (64 + 40 * n + 40) (64 + 40 * n) n prev

/-- Reading chunk `q` has been possible before (so it can be read again). -/
def Src.Reached (s : Src) (q : Nat) : Prop := s.complete = true ∨ q = 0 ∨ 64 + 40 * q + 1 ≤ s.F.length

theorem read_rst {hd cs enc rest s} (c : Canon hd cs enc) (hg : Src.Good enc rest s) {q prev : Nat} (hq : q ≤ cs.length) (hr : s.Reached q)
    (hp : prev = E cs q ∨ prev = u64max) :
    (readChunk (rst hd s q prev) = .err .EAGAIN ∧ s.complete = false ∧ ¬ 64 + 40 * (q + 1) + 1 ≤ s.F.length) ∨
    (s.Reached (q + 1) ∧ ((∃ (h : q < cs.length) (sz : Nat), readChunk (rst hd s q prev) = .ok (some { id := cs[q].1, endOffset := E cs (q + 1), size := sz },
        rst hd s (q + 1) (E cs (q + 1))) ∧ (prev = E cs q → sz = cs[q].2)) ∨
      (q = cs.length ∧ readChunk (rst hd s q prev) = .ok (none, est hd s q prev)))) := by
  have hl := c.len
  have hll := c.hl
  have main : ∀ F', recAt hd F' q prev = recAt hd enc q prev → readChunk (rst hd s q prev) = readRecord hd s.m s.e s.raw F' q prev → s.F = F' → 
      ((∃ (h : q < cs.length) (sz : Nat), readChunk (rst hd s q prev) = .ok (some { id := cs[q].1, endOffset := E cs (q + 1), size := sz },
        rst hd s (q + 1) (E cs (q + 1))) ∧ (prev = E cs q → sz = cs[q].2)) ∨
      (q = cs.length ∧ readChunk (rst hd s q prev) = .ok (none, est hd s q prev))) := by
    intro F' h1 h2 h3
    subst h3
    rw [readRecord_recAt, h1] at h2
    rcases Nat.lt_or_ge q cs.length with hlt | hge
    · obtain ⟨sz, h4, h5⟩ := recAt_canon c hlt hp
      rw [h4] at h2
      exact .inl ⟨hlt, sz, h2, h5⟩
    · have : q = cs.length := by omega
      subst this
      rw [recAt_end c] at h2
      exact .inr ⟨rfl, h2⟩
  cases hg with
  | file =>
    right
    exact ⟨.inl rfl, main enc rfl readChunk_read rfl⟩
  | inc F e hF he h64 =>
    have hFl : F.length < 2 ^ 63 := by
      have : F.length ≤ enc.length := by rw [← hF, List.length_append]; omega
      omega
    have hqF : 64 + 40 * q ≤ F.length := by
      rcases hr with h | h | h
      · have : e = true := by simpa [Src.complete] using h
        have hr := he this
        rw [hr, List.append_nil] at hF
        rw [hF]; omega
      · omega
      · have h : 64 + 40 * q + 1 ≤ F.length := h
        omega
    have hre : readChunk (rst hd ⟨.incRead, e, F.length, F⟩ q prev) = _ := readChunk_inc (hd := hd) (e := e) (k := q) (prev := prev) hFl hqF
    by_cases hc : e = true ∨ 64 + 40 * (q + 1) + 1 ≤ F.length
    · right
      rw [if_pos hc] at hre
      refine ⟨?_, main F ?_ hre rfl⟩
      · rcases hc with h | h
        · exact .inl (by simp [Src.complete, h])
        · exact .inr (.inr h)
      · rcases hc with h | h
        · have := he h
          rw [this, List.append_nil] at hF
          rw [hF]
        · rw [recAt_prefix hd F rest q prev h, hF]
    · left
      rw [if_neg hc] at hre
      refine ⟨hre, ?_, fun h => hc (.inr h)⟩
      simp only [Src.complete]
      cases e with
      | true => exact absurd (.inl rfl) hc
      | false => rfl

/-- In a complete index, the bisection ends at the chunk that contains the offset. -/
theorem seekLoop_gst {hd cs enc rest s} (c : Canon hd cs enc) (hg : Src.Good enc rest s) (hcm : s.complete = true) {offset : Nat} :
    ∀ (fuel left right : Nat) (p ck it v : Nat), left ≤ right → right + 2 ≤ cs.length → right - left < fuel →
    (left = 0 ∨ E cs (left + 1) ≤ offset) → offset < E cs (right + 2) →
    ∃ q skip, seekLoop fuel (gst hd s p ck it v) offset left right =
        .ok (skip, rst hd s q (E cs q)) ∧ q < cs.length ∧ E cs q + skip = offset ∧
        offset < E cs (q + 1) := by
  intro fuel
  induction fuel with
  | zero => intro left right p ck it v _ _ h; omega
  | succ fuel ih =>
    intro left right p ck it v hlr hrn hfu hl hr
    have hlen := c.hl
    have htot := c.hc.2
    rw [seekLoop]
    have ep : (left + (right + 2 ^ 64 - left) % 2 ^ 64 / 2) % 2 ^ 64 = left + (right - left) / 2 := by
      have : (right + 2 ^ 64 - left) % 2 ^ 64 = right - left := by
        rw [show right + 2 ^ 64 - left = right - left + 2 ^ 64 by omega, Nat.add_mod_right,
          Nat.mod_eq_of_lt (by omega)]
      rw [this, Nat.mod_eq_of_lt (by omega)]
    simp only [ep]
    generalize hm : left + (right - left) / 2 = m
    have hm1 : left ≤ m := by omega
    have hm2 : m ≤ right := by omega
    rw [setPosition_gst hg (by omega), Res.bind_ok]
    have hpv : (if m = 0 then 0 else u64max) = E cs m ∨ (if m = 0 then 0 else u64max) = u64max := by
      by_cases h : m = 0
      · subst h; left; rw [E_zero]; rfl
      · right; rw [if_neg h]
    have rd : ∀ (q prev : Nat) (hlt : q < cs.length), (prev = E cs q ∨ prev = u64max) → ∃ sz, readChunk (rst hd s q prev) =
        .ok (some { id := cs[q].1, endOffset := E cs (q + 1), size := sz }, rst hd s (q + 1) (E cs (q + 1))) := by
      intro q prev hlt hp
      rcases read_rst c hg (Nat.le_of_lt hlt) (.inl hcm) hp with ⟨_, h, _⟩ | ⟨_, h | ⟨h, _⟩⟩
      · rw [hcm] at h; cases h
      · obtain ⟨_, sz, h, _⟩ := h; exact ⟨sz, h⟩
      · omega
    obtain ⟨sz, hread⟩ := rd m _ (by omega) hpv
    rw [hread, Res.bind_ok]
    simp only
    split
    · rename_i hlt0
      have hlt : offset < E cs (m + 1) := hlt0
      split
      · rename_i hm0
        subst hm0
        rw [rst_gst, setPosition_gst hg (by omega), Res.bind_ok]
        refine ⟨0, offset, ?_, by omega, by rw [E_zero, Nat.zero_add], hlt⟩
        rw [E_zero]; rfl
      · rename_i hm0
        split
        · rename_i hmr
          exfalso
          have : left = m := by omega
          rcases hl with h | h
          · omega
          · rw [this] at h; omega
        · rename_i hmr
          rw [rst_gst]
          have : E cs (m + 1) ≤ E cs (m + 2) := E_mono (by omega)
          exact ih left m _ _ _ _ hm1 (by omega) (by omega) hl (by omega)
    · rename_i hge0
      have hge : ¬ offset < E cs (m + 1) := hge0
      obtain ⟨sz2, hread2⟩ := rd (m + 1) (E cs (m + 1)) (by omega) (Or.inl rfl)
      rw [hread2, Res.bind_ok]
      simp only
      by_cases hge2 : offset ≥ E cs (m + 1 + 1)
      · rw [if_pos hge2]
        have hmr : m ≠ right := by rintro rfl; have : E cs (m + 2) ≤ offset := hge2; omega
        rw [rst_gst]
        exact ih (m + 1) right _ _ _ _ (by omega) hrn (by omega) (Or.inr hge2) hr
      · rw [if_neg hge2, rst_gst, setPosition_gst hg (by omega), Res.bind_ok]
        refine ⟨m + 1, offset - E cs (m + 1), rfl, by omega, by omega, by omega⟩

theorem getIndexSize_gst {enc rest hd s} (hg : Src.Good enc rest s) (hl : 104 ≤ enc.length) (hm : (enc.length - 104) % 40 = 0) (p c i v : Nat) :
    getIndexSize (gst hd s p c i v) = if s.complete = true then .ok (enc.length, gst hd s p c i v) else .err .EAGAIN := by
  unfold getIndexSize
  rw [openIndex_gst hg, Res.bind_ok, readHead_gst hg, Res.bind_ok]
  cases hg with
  | file =>
    rw [if_pos (show Src.complete _ = true from rfl)]
    show (if enc.length < 64 + 40 then _ else _) = _
    rw [if_neg (by omega)]
    show (if (enc.length - (64 + 40)) % 40 ≠ 0 then _ else _) = _
    rw [if_neg (by omega)]
    rfl
  | inc F e hF he h64 =>
    cases e with
    | false => rfl
    | true =>
      have := he rfl
      rw [this, List.append_nil] at hF
      subst hF
      rw [if_pos (show Src.complete _ = true from rfl)]
      show (if F.length < 64 + 40 then _ else _) = _
      rw [if_neg (by omega)]
      show (if (F.length - (64 + 40)) % 40 ≠ 0 then _ else _) = _
      rw [if_neg (by omega)]
      rfl

theorem Good.file_of_complete {enc rest s} (hg : Src.Good enc rest s) (hc : s.complete = true) : s.F = enc := by
  cases hg with
  | file => rfl
  | inc F e hF he h64 =>
    cases e with
    | false => cases hc
    | true =>
      have := he rfl
      rw [this, List.append_nil] at hF
      exact hF

theorem blobSize_gst {hd cs enc rest s} (c : Canon hd cs enc) (hg : Src.Good enc rest s) (hcm : s.complete = true) (p ck it v : Nat) :
    getBlobSize (gst hd s p ck it v) = .ok (total cs, gst hd s p ck it v) := by
  have hl := c.len
  have hb := c.blobSize p ck it v
  unfold getBlobSize at hb ⊢
  rw [getIndexSize_gst hg (by omega) (by omega), if_pos hcm, Res.bind_ok]
  rw [getIndexSize_gstate, if_neg (by omega), if_neg (by omega), Res.bind_ok] at hb
  have ef : (gst hd s p ck it v).file = enc := Good.file_of_complete hg hcm
  have eg : (gstate hd enc p ck it v).file = enc := rfl
  have es : (gst hd s p ck it v).startOffset = 64 := rfl
  have et : (gstate hd enc p ck it v).startOffset = 64 := rfl
  simp only [ef, es] 
  simp only [eg, et] at hb
  split at hb
  · cases hb
  · rename_i h1
    rw [if_neg h1]
    split at hb
    · cases hb
    · rename_i h2
      rw [if_neg h2]
      split at hb
      · cases hb
      · rename_i h3
        rw [if_neg h3]
        split at hb
        · cases hb
        · rename_i h4
          rw [if_neg h4]
          split at hb
          · rename_i h5
            rw [if_pos h5]
            injection hb with hb; injection hb with hb _
            rw [hb]
          · rename_i h5
            rw [if_neg h5]
            injection hb with hb; injection hb with hb _
            rw [hb]

/-- Seeking in the index: it succeeds within the blob if the index is complete, and ends at a position from which the distance to the
offset is the skip size. -/
theorem seek_gst {hd cs enc rest s} (c : Canon hd cs enc) (hg : Src.Good enc rest s) (offset p ck it v : Nat) :
    (s.complete = false → seek (gst hd s p ck it v) offset = .err .EAGAIN) ∧
    (s.complete = true → total cs ≤ offset → seek (gst hd s p ck it v) offset = .err .ENXIO) ∧
    (s.complete = true → offset < total cs → ∃ q skip, seek (gst hd s p ck it v) offset =
      .ok (skip, rst hd s q (E cs q)) ∧ q < cs.length ∧ E cs q + skip = offset) := by
  have hl := c.len
  refine ⟨?_, ?_, ?_⟩
  · intro h
    unfold seek getBlobSize
    rw [getIndexSize_gst hg (by omega) (by omega), if_neg (by rw [h]; simp)]
    rfl
  · intro hcm h
    unfold seek
    rw [blobSize_gst c hg hcm, Res.bind_ok]
    simp only
    rw [if_pos h]
  · intro hcm h
    unfold seek
    rw [blobSize_gst c hg hcm, Res.bind_ok]
    simp only
    have hpos : 0 < cs.length := by
      cases cs with
      | nil => simp [total] at h
      | cons => simp
    have htc : getTotalChunks (gst hd s p ck it v) = .ok (cs.length, gst hd s p ck it v) := by
      unfold getTotalChunks
      rw [getIndexSize_gst hg (by omega) (by omega), if_pos hcm, Res.bind_ok]
      have : (enc.length - ((gst hd s p ck it v).startOffset + 40)) / 40 = cs.length := by
        show (enc.length - (64 + 40)) / 40 = _
        omega
      simp only [this]
    rw [if_neg (by omega), htc, Res.bind_ok]
    simp only
    have hll := c.hl
    rw [if_neg (by omega)]
    split
    · rw [setPosition_gst hg (by omega), Res.bind_ok]
      refine ⟨0, offset, ?_, hpos, by rw [E_zero, Nat.zero_add]⟩
      rw [E_zero]; rfl
    · rename_i hs
      obtain ⟨q, skip, h1, h2, h3, _⟩ := seekLoop_gst c hg hcm (offset := offset) (cs.length + 2) 0 (cs.length - 2) p ck it v (by omega) (by omega) (by omega) (Or.inl rfl)
        (by rw [show cs.length - 2 + 2 = cs.length by omega, E_length]; exact h)
      exact ⟨q, skip, h1, h2, h3⟩

end Casync.Sync
