import Verif.Lemmas.BlockSource
/-!
Sources of `mkdev` that deliver.
-/
namespace Casync.Sync
open Casync Casync.Index Casync.Index.Spec

variable {hd : Header} {cs : List (Bytes × Nat)} {enc rest : Bytes}

/-- The reader has a complete index, stands at `pos`, and has not yet read the end of the index. -/
def MInv (hd : Header) (cs : List (Bytes × Nat)) (enc rest : Bytes) (r : Reader) (pos : Nat) : Prop :=
  ∃ s q, Src.Good enc rest s ∧ s.complete = true ∧ q ≤ cs.length ∧ r.index = rst hd s q (E cs q) ∧
    ((r.next = none ∧ pos = E cs q + r.skip) ∨
     (∃ (k : Nat) (hk : k < cs.length), q = k + 1 ∧ r.next = some { id := cs[k].1, endOffset := E cs (k + 1), size := cs[k].2 } ∧ pos = E cs k + r.skip))

theorem fill_mid (c : Canon hd cs enc) {s : Src} (hg : Src.Good enc rest s) (hcm : s.complete = true) : ∀ (fuel : Nat) (r : Reader) (pos q : Nat), q ≤ cs.length →
    r.index = rst hd s q (E cs q) →
    ((r.next = none ∧ pos = E cs q + r.skip) ∨
     (∃ (k : Nat) (hk : k < cs.length), q = k + 1 ∧ r.next = some { id := cs[k].1, endOffset := E cs (k + 1), size := cs[k].2 } ∧ pos = E cs k + r.skip)) →
    cs.length + 1 < fuel + q →
    (∃ r', fill fuel r = .ok (.eof, r') ∧ total cs ≤ pos) ∨
    (∃ r', ∃ (k : Nat) (hk : k < cs.length), fill fuel r = .ok (.chunk { id := cs[k].1, endOffset := E cs (k + 1), size := cs[k].2 }, r') ∧
      r'.index = rst hd s (k + 1) (E cs (k + 1)) ∧ pos = E cs k + r'.skip ∧ r'.skip < cs[k].2) := by
  intro fuel
  induction fuel with
  | zero => intro r pos q h _ _ hf; omega
  | succ fuel ih =>
    intro r pos q hq hix hn hf
    rw [fill]
    have hcase : (∃ (k : Nat) (hk : k < cs.length), q = k + 1 ∧ r.next = some { id := cs[k].1, endOffset := E cs (k + 1), size := cs[k].2 } ∧ pos = E cs k + r.skip ∧
          r.skip < cs[k].2) ∨
        (pending r = none ∧ (dropNext r).index = r.index ∧ (dropNext r).next = none ∧ pos = E cs q + (dropNext r).skip) := by
      rcases hn with ⟨h1, h2⟩ | ⟨k, hk, h1, h2, h3⟩
      · right
        unfold pending dropNext
        rw [h1]
        exact ⟨rfl, rfl, h1, h2⟩
      · by_cases hs : r.skip < cs[k].2
        · exact .inl ⟨k, hk, h1, h2, h3, hs⟩
        · right
          unfold pending dropNext
          rw [h2]
          simp only
          rw [if_neg hs]
          refine ⟨by simp, by simp, by simp, ?_⟩
          rw [h1, E_succ hk]
          omega
    rcases hcase with ⟨k, hk, h1, h2, h3, h4⟩ | ⟨h1, h2, h3, h4⟩
    · right
      have hp : pending r = some { id := cs[k].1, endOffset := E cs (k + 1), size := cs[k].2 } := by
        unfold pending
        rw [h2]
        simp only
        rw [if_pos h4]
      rw [hp]
      refine ⟨r, k, hk, rfl, ?_, h3, h4⟩
      rw [hix, h1]
    · rw [h1]
      simp only
      rw [h2, hix]
      rcases read_rst c hg hq (.inl hcm) (.inl rfl) with ⟨_, h5, _⟩ | ⟨_, ⟨hlt, sz, he, hsz⟩ | ⟨hql, he⟩⟩
      · rw [hcm] at h5; cases h5
      · have hs : sz = cs[q].2 := hsz rfl
        subst hs
        rw [he]
        simp only
        have hm := cmax_lt c hlt
        rw [if_neg (by omega)]
        exact ih { dropNext r with index := rst hd s (q + 1) (E cs (q + 1)), next := some { id := cs[q].1, endOffset := E cs (q + 1), size := cs[q].2 } } pos (q + 1) hlt rfl
          (.inr ⟨q, hlt, rfl, rfl, h4⟩) (by omega)
      · rw [he]
        left
        refine ⟨_, rfl, ?_⟩
        rw [h4, hql, E_length]; omega

theorem total_le (c : Canon hd cs enc) {k : Nat} (hk : k < cs.length) : E cs k + cs[k].2 ≤ total cs := by
  rw [← E_succ hk, ← E_length cs]
  exact E_mono hk

theorem MInv.request_data {H : Bytes → Bytes} {xs : List Bytes} (c : Canon hd (chunksOf H xs) enc) {r : Reader} {pos : Nat}
    (hr : MInv hd (chunksOf H xs) enc rest r pos) (hp : pos < xs.flatten.length) {answer : Bytes → Res Bytes}
    (ha : ∀ x ∈ xs, answer (H x) = .ok x) :
    ∃ b r', request r true answer = .ok (.data b, r') ∧ b ≠ [] ∧ MInv hd (chunksOf H xs) enc rest r' (pos + b.length) := by
  obtain ⟨s, q, hg, hcm, hq, hix, hn⟩ := hr
  have ht := total_chunksOf H xs
  unfold request
  have hfile : (chunksOf H xs).length ≤ r.index.file.length := by
    have h1 : r.index.file = s.F := by rw [hix]; rfl
    have hl := c.len
    rw [h1, Good.file_of_complete hg hcm]; omega
  rcases fill_mid c hg hcm (r.index.file.length + 2) r pos q hq hix hn (by omega) with ⟨r', he, h⟩ | ⟨r', k, hk, he, hx, hpk, hs⟩
  · omega
  · rw [he]
    simp only
    rw [if_pos trivial]
    obtain ⟨hx', hget⟩ := chunksOf_get H xs hk
    have hans : answer (chunksOf H xs)[k].1 = .ok xs[k] := by rw [hget]; exact ha _ (List.getElem_mem hx')
    have hc2 : (chunksOf H xs)[k].2 = xs[k].length := by rw [hget]
    have hE := E_succ hk
    unfold deliver
    simp only
    rw [hans]
    simp only
    rw [if_neg (by rw [hc2]; simp)]
    by_cases hsk : r'.skip > 0
    · rw [if_pos hsk, if_neg (by omega)]
      refine ⟨_, _, rfl, ?_, s, k + 1, hg, hcm, hk, hx, .inl ⟨rfl, ?_⟩⟩
      · intro h0
        have := congrArg List.length h0
        rw [List.length_drop] at this
        simp at this; omega
      · show pos + (xs[k].drop r'.skip).length = E (chunksOf H xs) (k + 1) + 0
        rw [List.length_drop, hE]; omega
    · rw [if_neg hsk]
      refine ⟨_, _, rfl, ?_, s, k + 1, hg, hcm, hk, hx, .inl ⟨rfl, ?_⟩⟩
      · intro h0
        have := congrArg List.length h0
        rw [List.length_nil] at this; omega
      · show pos + xs[k].length = E (chunksOf H xs) (k + 1) + r'.skip
        omega

theorem MInv.request_eof {H : Bytes → Bytes} {xs : List Bytes} (c : Canon hd (chunksOf H xs) enc) {r : Reader} {pos : Nat}
    (hr : MInv hd (chunksOf H xs) enc rest r pos) (hp : pos = xs.flatten.length) (ready : Bool) (answer : Bytes → Res Bytes) :
    ∃ r', request r ready answer = .ok (.eof, r') := by
  obtain ⟨s, q, hg, hcm, hq, hix, hn⟩ := hr
  have ht := total_chunksOf H xs
  unfold request
  have hfile : (chunksOf H xs).length ≤ r.index.file.length := by
    have h1 : r.index.file = s.F := by rw [hix]; rfl
    have hl := c.len
    rw [h1, Good.file_of_complete hg hcm]; omega
  rcases fill_mid c hg hcm (r.index.file.length + 2) r pos q hq hix hn (by omega) with ⟨r', he, h⟩ | ⟨r', k, hk, he, hx, hpk, hs⟩
  · rw [he]; exact ⟨_, rfl⟩
  · have := total_le c hk
    omega

/-- A seek within the blob, with a complete index. -/
theorem seek_mid (c : Canon hd cs enc) {r : Reader} {pos o : Nat} (hr : RInv hd cs enc rest r pos) (hcm : Complete r.index) (ho : o < total cs) :
    ∃ r', seekTo r o = .ok (.done [], r') ∧ MInv hd cs enc rest r' o := by
  obtain ⟨q, hat, hn⟩ := hr
  unfold seekTo
  rcases hat.opened c with ⟨F, h1, hF, hl, rfl⟩ | ⟨s, hg, hcm', hfile, p, ck, v, hop, hrh, hst⟩
  · rw [h1] at hcm; simp [Complete, ustate] at hcm
  · have hs : seek r.index o = seek (gst hd s p ck q v) o := by
      unfold seek getBlobSize getIndexSize
      rw [hop, openIndex_gst hg]
    have hc := hcm'.1 hcm
    obtain ⟨_, _, h3⟩ := seek_gst c hg o p ck q v
    obtain ⟨q', skip, h4, h5, h6⟩ := h3 hc ho
    rw [hs, h4]
    exact ⟨_, rfl, s, q', hg, hc, Nat.le_of_lt h5, rfl, .inl ⟨rfl, h6.symm⟩⟩

end Casync.Sync

namespace Casync.Nbd
open Casync Casync.Sync Casync.Index Casync.Index.Spec

/-- The reader has a complete index and stands at `pos`. -/
def IndexLive (H : Bytes → Bytes) (xs : List Bytes) (hd : Header) (enc : Bytes) : Source → Nat → Prop
  | .index r p, pos => MInv hd (chunksOf H xs) enc p r pos
  | .file _ _ _, _ => False

/-- The decoder runs, and the outside delivers. -/
def Delivers (H : Bytes → Bytes) (xs : List Bytes) : Choice → Prop
  | .decode ready answer _ io => ready = true ∧ io = none ∧ ∀ x ∈ xs, answer (H x) = .ok x
  | _ => False

theorem indexLive {H : Bytes → Bytes} {xs : List Bytes} {hd : Header} {enc : Bytes} (c : Canon hd (chunksOf H xs) enc) :
    SourceLive xs.flatten (Delivers H xs) (IndexInv H xs hd enc) IndexComplete (IndexLive H xs hd enc) := by
  refine ⟨?_, ?_, ?_, ?_⟩
  · intro s pos hL
    cases s with
    | file => exact hL.elim
    | index r p =>
      obtain ⟨s, q, hg, hcm, hq, hix, hn⟩ : MInv hd (chunksOf H xs) enc p r pos := hL
      refine ⟨q, ?_, hn⟩
      rw [hix]
      exact .mid s q hg hq (.inl hcm)
  · intro s pos o hI hK ho
    cases s with
    | file => exact hI.elim
    | index r p =>
      obtain ⟨r', h1, h2⟩ := seek_mid c (r := r) hI hK (by rw [total_chunksOf]; exact ho)
      refine ⟨.index r' p, ?_, h2⟩
      unfold srcSeek
      simp only
      rw [h1]; rfl
  · intro s pos ready answer short io hL hD hp
    cases s with
    | file => exact hL.elim
    | index r p =>
      obtain ⟨rfl, rfl, ha⟩ := hD
      obtain ⟨b, r', h1, h2, h3⟩ := MInv.request_data c (r := r) hL hp ha
      refine ⟨.index r' p, b, ?_, h2, h3⟩
      unfold srcRequest
      simp only
      rw [h1]; rfl
  · intro s pos ready answer short io hL hD hp
    cases s with
    | file => exact hL.elim
    | index r p =>
      obtain ⟨r', h1⟩ := MInv.request_eof c (r := r) hL hp ready answer
      refine ⟨.index r' p, ?_⟩
      unfold srcRequest
      simp only
      rw [h1]; rfl

/-! ### A plain file -/

/-- The file is the image, and stands at `pos`. -/
def FileInv (image : Bytes) : Source → Nat → Prop
  | .file c _ p, pos => c = image ∧ p = pos
  | .index _ _, _ => False

/-- It is a regular file. -/
def FileRegular : Source → Prop
  | .file _ g _ => g = true
  | .index _ _ => False

theorem fileOk (image : Bytes) : SourceOk image (fun _ => True) (FileInv image) FileRegular := by
  refine ⟨?_, ?_, ?_, ?_, ?_⟩
  · intro s pos ready answer short io hI _
    cases s with
    | index => exact hI.elim
    | file c g p =>
      obtain ⟨rfl, rfl⟩ := hI
      unfold srcRequest
      simp only
      cases io with
      | some e => exact .inl ⟨e, rfl⟩
      | none =>
        simp only
        have hb : ((c.drop p).take (min (max short 1) bufferSize)).length ≤ min (max short 1) bufferSize := by
          rw [List.length_take]; exact Nat.min_le_left _ _
        by_cases h0 : (c.drop p).take (min (max short 1) bufferSize) = []
        · rw [if_pos h0]
          right; right; right
          refine ⟨_, rfl, ?_, ⟨rfl, rfl⟩, id⟩
          have := congrArg List.length h0
          rw [List.length_take, List.length_drop] at this
          unfold bufferSize at this
          simp at this
          omega
        · rw [if_neg h0]
          right; right; left
          refine ⟨_, _, rfl, h0, ?_, ⟨rfl, rfl⟩, id⟩
          generalize min (max short 1) bufferSize = m
          rw [List.length_take]
          rcases Nat.le_total m (c.drop p).length with h | h
          · rw [Nat.min_eq_left h]
          · rw [Nat.min_eq_right h, List.take_of_length_le h, List.take_of_length_le (Nat.le_refl _)]
  · intro s pos o hI
    cases s with
    | index => exact hI.elim
    | file c g p =>
      unfold srcSeek
      simp only
      split
      · exact .inl ⟨_, rfl⟩
      · exact .inr ⟨_, rfl, ⟨hI.1, rfl⟩, id⟩
  · intro s pos hI
    cases s with
    | index => exact hI.elim
    | file c g p =>
      unfold srcSize
      simp only
      split
      · rename_i h
        obtain ⟨rfl, rfl⟩ := hI
        exact .inr ⟨_, rfl, ⟨rfl, rfl⟩, h⟩
      · exact .inl ⟨_, rfl⟩
  · intro s pos hI
    cases s with
    | index => exact hI.elim
    | file c g p => exact ⟨⟨pos, hI⟩, id⟩
  · intro s pos ch hI _
    cases s with
    | index => exact hI.elim
    | file c g p => cases ch <;> exact .inr ⟨_, rfl, hI, id⟩

/-- Reading does not fail. -/
def Reads : Choice → Prop
  | .decode _ _ _ io => io = none
  | _ => False

theorem fileLive {image : Bytes} (hl : image.length < 2 ^ 63) :
    SourceLive image Reads (FileInv image) FileRegular (FileInv image) := by
  refine ⟨id, ?_, ?_, ?_⟩
  · intro s pos o hI _ ho
    cases s with
    | index => exact hI.elim
    | file c g p =>
      refine ⟨.file c g o, ?_, hI.1, rfl⟩
      unfold srcSeek
      simp only
      rw [if_neg (by omega)]
  · intro s pos ready answer short io hL hD hp
    cases s with
    | index => exact hL.elim
    | file c g p =>
      have hio : io = none := hD
      subst hio
      obtain ⟨rfl, rfl⟩ := hL
      have h0 : (c.drop p).take (min (max short 1) bufferSize) ≠ [] := by
        intro h
        have := congrArg List.length h
        rw [List.length_take, List.length_drop] at this
        unfold bufferSize at this
        simp at this
        omega
      refine ⟨.file c g (p + ((c.drop p).take (min (max short 1) bufferSize)).length), _, ?_, h0, rfl, rfl⟩
      unfold srcRequest
      simp only
      rw [if_neg h0]
  · intro s pos ready answer short io hL hD hp
    cases s with
    | index => exact hL.elim
    | file c g p =>
      have hio : io = none := hD
      subst hio
      obtain ⟨rfl, rfl⟩ := hL
      refine ⟨.file c g p, ?_⟩
      unfold srcRequest
      simp only
      rw [if_pos (by rw [List.drop_of_length_le (by omega), List.take_nil])]

end Casync.Nbd
