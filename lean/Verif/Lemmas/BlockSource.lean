import Verif.Spec.BlockDevice
import Verif.Props.SyncRead
/-!
The two kinds of sources of `mkdev`, seen through one interface.
-/
namespace Casync.Sync
open Casync Casync.Index Casync.Index.Spec

variable {hd : Header} {cs : List (Bytes × Nat)} {enc rest : Bytes}

/-- The size of the blob, from any consistent index. -/
theorem blob_at (c : Canon hd cs enc) {i q} (h : At hd cs enc rest i q) :
    (¬ Complete i ∧ ∃ e, getBlobSize i = .err e) ∨
    (Complete i ∧ ∃ i', getBlobSize i = .ok (total cs, i') ∧ At hd cs enc rest i' q ∧ Complete i') := by
  have hl := c.len
  have hq := (h.le c).2
  rcases h.opened c with ⟨F, rfl, hF, hl, rfl⟩ | ⟨s, hg, hcm, hfile, p, ck, v, ho, hrh, hst⟩
  · left
    refine ⟨by simp [Complete, ustate], .EAGAIN, ?_⟩
    unfold getBlobSize getIndexSize
    rw [readHead_ustate_wait hl, Res.bind_ok, readHead_new_wait hl]
    rfl
  · have hs : getBlobSize i = getBlobSize (gst hd s p ck q v) := by
      unfold getBlobSize getIndexSize
      rw [ho, openIndex_gst hg]
    cases hc : s.complete with
    | false =>
      left
      refine ⟨fun h => (by have := hcm.1 h; rw [hc] at this; cases this), .EAGAIN, hs.trans ?_⟩
      unfold getBlobSize
      rw [getIndexSize_gst hg (by omega) (by omega), if_neg (by rw [hc]; simp)]
      rfl
    | true =>
      right
      refine ⟨hcm.2 hc, _, hs.trans (blobSize_gst c hg hc p ck q v), ?_, complete_src.2 hc⟩
      rcases hst with ⟨rfl, rfl, rfl, hr⟩ | ⟨rfl, rfl, rfl, _⟩
      · exact .mid s q hg hq hr
      · exact .fin s v hg hc

end Casync.Sync

namespace Casync.Nbd
open Casync Casync.Sync Casync.Index Casync.Index.Spec

/-- What the tool needs of a source: `I s pos` says that the next data delivered are those at `pos`, `K s` that the size is known,
`C` says which behaviour of the outside is allowed. -/
structure SourceOk (image : Bytes) (C : Choice → Prop) (I : Source → Nat → Prop) (K : Source → Prop) : Prop where
  request : ∀ {s pos ready answer short io}, I s pos → C (.decode ready answer short io) →
    (∃ e, srcRequest s ready answer short io = .err e) ∨
    (∃ s', srcRequest s ready answer short io = .ok (.wait, s') ∧ I s' pos ∧ (K s → K s')) ∨
    (∃ s' b, srcRequest s ready answer short io = .ok (.data b, s') ∧ b ≠ [] ∧ (image.drop pos).take b.length = b ∧ I s' (pos + b.length) ∧ (K s → K s')) ∨
    (∃ s', srcRequest s ready answer short io = .ok (.eof, s') ∧ image.length ≤ pos ∧ I s' pos ∧ (K s → K s'))
  seek : ∀ {s pos o}, I s pos → (∃ e, srcSeek s o = .err e) ∨ (∃ s', srcSeek s o = .ok s' ∧ I s' o ∧ (K s → K s'))
  size : ∀ {s pos}, I s pos → (∃ e, srcSize s = .err e) ∨ (∃ s', srcSize s = .ok (image.length, s') ∧ I s' pos ∧ K s')
  reset : ∀ {s pos}, I s pos → (∃ pos', I (srcReset s) pos') ∧ (K s → K (srcReset s))
  other : ∀ {s pos c}, I s pos → C c → (∃ e, srcOther s c = .err e) ∨ (∃ s', srcOther s c = .ok s' ∧ I s' pos ∧ (K s → K s'))

/-- A source that delivers: `D` says which behaviour of the outside is helpful, `L s pos` that the source is complete, was just told to seek and
stands at `pos`. -/
structure SourceLive (image : Bytes) (D : Choice → Prop) (I : Source → Nat → Prop) (K : Source → Prop) (L : Source → Nat → Prop) : Prop where
  inv : ∀ {s pos}, L s pos → I s pos
  start : ∀ {s pos o}, I s pos → K s → o < image.length → ∃ s', srcSeek s o = .ok s' ∧ L s' o
  data : ∀ {s pos ready answer short io}, L s pos → D (.decode ready answer short io) → pos < image.length →
    ∃ s' b, srcRequest s ready answer short io = .ok (.data b, s') ∧ b ≠ [] ∧ L s' (pos + b.length)
  eof : ∀ {s pos ready answer short io}, L s pos → D (.decode ready answer short io) → pos = image.length →
    ∃ s', srcRequest s ready answer short io = .ok (.eof, s')

/-! ### Chunks by an index -/

/-- The reader is consistent. -/
def IndexInv (H : Bytes → Bytes) (xs : List Bytes) (hd : Header) (enc : Bytes) : Source → Nat → Prop
  | .index r p, pos => RInv hd (chunksOf H xs) enc p r pos
  | .file _ _ _, _ => False

/-- The index is complete. -/
def IndexComplete : Source → Prop
  | .index r _ => Complete r.index
  | .file _ _ _ => False

theorem indexOk {H : Bytes → Bytes} {xs : List Bytes} {hd : Header} {enc : Bytes} (c : Canon hd (chunksOf H xs) enc) :
    SourceOk xs.flatten (Choice.Genuine H xs) (IndexInv H xs hd enc) IndexComplete := by
  refine ⟨?_, ?_, ?_, ?_, ?_⟩
  · intro s pos ready answer short io hI hC
    cases s with
    | file => exact hI.elim
    | index r p =>
      have hr : RInv hd (chunksOf H xs) enc p r pos := hI
      have hstep := step_inv c hr (op := .request ready answer) hC (rest' := p) rfl
      unfold srcRequest
      simp only
      rcases hstep with ⟨e, he⟩ | ⟨o, r', he, hi, hb, hf, hcp⟩
      · left
        have he : Sync.request r ready answer = .err e := he
        rw [he]; exact ⟨e, rfl⟩
      · have he : Sync.request r ready answer = .ok (o, r') := he
        rw [he]
        right
        cases o with
        | wait => exact .inl ⟨_, rfl, hi, fun h => hcp (.inl h)⟩
        | data b => exact .inr (.inl ⟨_, b, rfl, (hb b rfl).1, (hb b rfl).2, hi, fun h => hcp (.inl h)⟩)
        | eof => exact .inr (.inr ⟨_, rfl, hf rfl, hi, fun h => hcp (.inl h)⟩)
        | done l =>
          exfalso
          unfold Sync.request at he
          cases hfl : fill (r.index.file.length + 2) r with
          | err e => rw [hfl] at he; cases he
          | ub => rw [hfl] at he; cases he
          | ok x =>
            obtain ⟨f, r2⟩ := x
            rw [hfl] at he
            cases f with
            | wait => simp at he
            | eof => simp at he
            | chunk ch =>
              simp only at he
              split at he
              · unfold Sync.deliver at he
                split at he
                · split at he
                  · simp at he
                  · cases he
                · cases he
                · split at he
                  · cases he
                  · split at he
                    · split at he
                      · cases he
                      · simp at he
                    · simp at he
              · simp at he
  · intro s pos o hI
    cases s with
    | file => exact hI.elim
    | index r p =>
      have hr : RInv hd (chunksOf H xs) enc p r pos := hI
      have hstep := step_inv c hr (op := .seek o) trivial (rest' := p) rfl
      unfold srcSeek
      simp only
      rcases hstep with ⟨e, he⟩ | ⟨x, r', he, hi, hb, hf, hcp⟩
      · left
        have he : Sync.seekTo r o = .err e := he
        rw [he]; exact ⟨e, rfl⟩
      · right
        have he : Sync.seekTo r o = .ok (x, r') := he
        rw [he]
        exact ⟨_, rfl, hi, fun h => hcp (.inl h)⟩
  · intro s pos hI
    cases s with
    | file => exact hI.elim
    | index r p =>
      obtain ⟨q, hat, hn⟩ : RInv hd (chunksOf H xs) enc p r pos := hI
      unfold srcSize
      simp only
      rcases blob_at c hat with ⟨_, e, he⟩ | ⟨_, i', he, ha, hci⟩
      · left; rw [he]; exact ⟨e, rfl⟩
      · right
        rw [he, total_chunksOf]
        exact ⟨_, rfl, ⟨q, ha, hn⟩, hci⟩
  · intro s pos hI
    cases s with
    | file => exact hI.elim
    | index r p =>
      obtain ⟨q, hat, hn⟩ : RInv hd (chunksOf H xs) enc p r pos := hI
      exact ⟨⟨E (chunksOf H xs) q, q, hat, .inl ⟨rfl, rfl⟩⟩, id⟩
  · intro s pos ch hI hC
    cases s with
    | file => exact hI.elim
    | index r p =>
      have hr : RInv hd (chunksOf H xs) enc p r pos := hI
      cases ch with
      | decode => exact .inr ⟨_, rfl, hI, id⟩
      | other => exact .inr ⟨_, rfl, hI, id⟩
      | prefetch ready has ask =>
        unfold srcOther
        simp only
        rcases step_inv c hr (op := .prefetch ready has ask) hC (rest' := p) rfl with ⟨e, he⟩ | ⟨o, r', he, hi, hb, hf, hcp⟩
        · left; rw [he]; exact ⟨e, rfl⟩
        · right
          rw [he]
          refine ⟨_, rfl, ?_, fun h => hcp (.inl h)⟩
          have ho : after pos (.prefetch ready has ask) o = pos := by
            cases o with
            | data b =>
              exfalso
              unfold step at he
              rcases hr with ⟨q, hat, hn⟩
              simp only at he
              rcases prefetch_at c (r := r) (ready := ready) hat hC.1 hC.2 with ⟨e, h2⟩ | ⟨ids, i', k, h2, _⟩
              · rw [h2] at he; cases he
              · rw [h2] at he
                injection he with he
                injection he with he _
                cases he
            | _ => rfl
          rw [ho] at hi
          exact hi
      | arrive n =>
        unfold srcOther
        simp only
        rcases step_inv c hr (op := .arrive (p.take n)) trivial (rest' := p.drop n) (List.take_append_drop n p).symm with ⟨e, he⟩ | ⟨o, r', he, hi, hb, hf, hcp⟩
        · left; rw [he]; exact ⟨e, rfl⟩
        · right
          rw [he]
          refine ⟨_, rfl, ?_, fun h => hcp (.inl h)⟩
          have ho : after pos (.arrive (p.take n)) o = pos := by
            cases o with
            | data b =>
              exfalso
              unfold step at he
              obtain ⟨i, h1, h2⟩ := Res.bind_eq_ok.1 he
              simp at h2
            | _ => rfl
          rw [ho] at hi
          exact hi
      | arriveEof =>
        unfold srcOther
        simp only
        by_cases hp : p = []
        · rw [if_pos hp]
          rcases step_inv c hr (op := .arriveEof) trivial (rest' := p) ⟨hp, rfl⟩ with ⟨e, he⟩ | ⟨o, r', he, hi, hb, hf, hcp⟩
          · left; rw [he]; exact ⟨e, rfl⟩
          · right
            rw [he]
            refine ⟨_, rfl, ?_, fun h => hcp (.inl h)⟩
            have ho : after pos .arriveEof o = pos := by
              cases o with
              | data b =>
                exfalso
                unfold step at he
                obtain ⟨i, h1, h2⟩ := Res.bind_eq_ok.1 he
                simp at h2
              | _ => rfl
            rw [ho] at hi
            exact hi
        · rw [if_neg hp]
          exact .inr ⟨_, rfl, hI, id⟩

end Casync.Nbd
