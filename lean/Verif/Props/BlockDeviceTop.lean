import Verif.Props.BlockServe
import Verif.Props.SyncPrefetch
/-!
C53: the block device made by `casync mkdev` serves the image.
-/
namespace Casync.Nbd
open Casync Casync.Nbd.Spec Casync.Sync Casync.Index Casync.Index.Spec

variable {image : Bytes} {C D : Choice → Prop} {I L : Source → Nat → Prop} {K : Source → Prop}

theorem start_inv (src : Source) (h : I src 0) : Inv image I K { sync := { src := src } } :=
  .sizing rfl ⟨⟨0, h⟩, Nat.le_refl _, rfl, .inl rfl⟩ rfl rfl

theorem served (ok : SourceOk image C I K) (hlen : image.length < 2 ^ 64) (src : Source) (h : I src 0) (es : List Env) (he : ∀ e ∈ es, C e.choice ∧ e.input ≠ .ub) :
    Session image (run { sync := { src := src } } es).1 ∧ (run { sync := { src := src } } es).2 ≠ .ub := by
  obtain ⟨h1, h2, _⟩ := run_seen ok hlen es { sync := { src := src } } (start_inv src h) he
  exact ⟨h1, h2⟩

theorem answers (ok : SourceOk image C I K) (hlen : image.length < u64max) (lv : SourceLive image D I K L) (src : Source) (hs : I src 0)
    (es : List Env) (he : ∀ e ∈ es, C e.choice ∧ e.input ≠ .ub) (tr : List Obs) (x : Obs) (hx : ∀ m, x ≠ .received m) (t : Tool)
    (hr : run { sync := { src := src } } es = (tr ++ [x], .ok t))
    (h : Bytes) (o n : Nat) (w : WellFormed h o n) (ho : o ≤ image.length) (e : Env) (hC : C e.choice) (hin : e.input = .ok (request h o n)) (es' : List Env)
    (hm : 2 * n + 3 ≤ es'.length) (hg : ∀ e ∈ es', Good C D e) :
    ∃ k ≤ 2 * n + 3, ∃ t', run { sync := { src := src } } (es ++ e :: es'.take k) =
      (tr ++ [x] ++ [.received (request h o n), .wrote (reply image h o n)], .ok t') := by
  have hu : u64max = 2 ^ 64 - 1 := by decide
  have hi0 : Inv image I K { sync := { src := src } } := start_inv src hs
  obtain ⟨_, _, h3⟩ := run_seen ok (by omega) es _ hi0 he
  have hi := h3 t (by rw [hr])
  have hc := run_consistent ok (by omega) es _ [] hi0 he rfl _ _ hr
  rw [List.nil_append] at hc
  have hp : t.phase = .waiting := by
    unfold Consistent at hc
    cases hph : t.phase with
    | waiting => rfl
    | sizing =>
      rw [hph] at hc
      simp at hc
    | serving a b c =>
      rw [hph] at hc
      obtain ⟨pre, m, hc⟩ := hc
      have := List.append_inj_right' hc rfl
      injection this with this
      exact absurd this (hx m)
  obtain ⟨k, hk, t', g⟩ := answered ok hlen lv hi hp w ho hin hm hC hg
  refine ⟨k, hk, t', ?_⟩
  rw [run_append _ es _ _ _ hr, g]

/-! ### What is seen is right -/

/-- **C53.** `casync mkdev` with an index file: the image consists of the pieces `xs`. Whatever the outside does (seeds and stores have a piece or not
from moment to moment, the kernel sends any bytes, writing or opening fails at any point, the tool is stopped after any number of rounds), as long as what is answered for
the id of a piece is that piece: what is seen is a device of the right size and, for each request of the kernel, in their order, exactly the bytes of the image at
that place, with zeros behind the end of the image; anything that is not a read request is never answered; no assertion fails. -/
theorem C53_served (H : Bytes → Bytes) (xs : List Bytes) (hd : Header) (hv : hd.Valid) (hc : ChunksValid hd (chunksOf H xs))
    (hlen : (encode hd (chunksOf H xs)).length < 2 ^ 63) (es : List Env) (he : ∀ e ∈ es, e.choice.Genuine H xs ∧ e.input ≠ .ub) :
    Session xs.flatten (run { sync := { src := .index { index := newRead (encode hd (chunksOf H xs)) } [] } } es).1 ∧
    (run { sync := { src := .index { index := newRead (encode hd (chunksOf H xs)) } [] } } es).2 ≠ .ub :=
  served (indexOk (canon_of hv hc hlen)) (by rw [← total_chunksOf H xs]; exact hc.2) _ (show IndexInv H xs hd (encode hd (chunksOf H xs)) (.index { index := newRead (encode hd (chunksOf H xs)) } []) 0 from rinv_file _) es he

/-- **C53**, for an index that comes from a remote side in pieces of any size while the tool already runs. -/
theorem C53_served_remote (H : Bytes → Bytes) (xs : List Bytes) (hd : Header) (hv : hd.Valid) (hc : ChunksValid hd (chunksOf H xs))
    (hlen : (encode hd (chunksOf H xs)).length < 2 ^ 63) (es : List Env) (he : ∀ e ∈ es, e.choice.Genuine H xs ∧ e.input ≠ .ub) :
    Session xs.flatten (run { sync := { src := .index { index := newIncRead } (encode hd (chunksOf H xs)) } } es).1 ∧
    (run { sync := { src := .index { index := newIncRead } (encode hd (chunksOf H xs)) } } es).2 ≠ .ub :=
  served (indexOk (canon_of hv hc hlen)) (by rw [← total_chunksOf H xs]; exact hc.2) _ (show IndexInv H xs hd (encode hd (chunksOf H xs)) (.index { index := newIncRead } (encode hd (chunksOf H xs))) 0 from rinv_inc _ _) es he

/-- **C53**, for a plain file. Reads may be short or fail at any time. -/
theorem C53_served_plain (image : Bytes) (hlen : image.length < 2 ^ 64) (regular : Bool) (es : List Env) (he : ∀ e ∈ es, e.input ≠ .ub) :
    Session image (run { sync := { src := .file image regular 0 } } es).1 ∧ (run { sync := { src := .file image regular 0 } } es).2 ≠ .ub :=
  served (fileOk image) hlen _ (show FileInv image (.file image regular 0) 0 from ⟨rfl, rfl⟩) es (fun e h => ⟨trivial, he e h⟩)

/-! ### Requests are answered -/

/-- **C53**, progress. After any history in which the tool did not fail and everything asked for so far was answered (the last thing seen is not a request):
a request for any part of the image that begins at or before its end is answered within `2 * n + 3` rounds in which the sources have the pieces and
writing works; `n` is the number of bytes asked for. -/
theorem C53_answers (H : Bytes → Bytes) (xs : List Bytes) (hd : Header) (hv : hd.Valid) (hc : ChunksValid hd (chunksOf H xs))
    (hlen : (encode hd (chunksOf H xs)).length < 2 ^ 63) (htot : xs.flatten.length < 2 ^ 64 - 1)
    (es : List Env) (he : ∀ e ∈ es, e.choice.Genuine H xs ∧ e.input ≠ .ub) (tr : List Obs) (x : Obs) (hx : ∀ m, x ≠ .received m) (t : Tool)
    (hr : run { sync := { src := .index { index := newRead (encode hd (chunksOf H xs)) } [] } } es = (tr ++ [x], .ok t))
    (handle : Bytes) (o n : Nat) (w : WellFormed handle o n) (ho : o ≤ xs.flatten.length)
    (e : Env) (hC : e.choice.Genuine H xs) (hin : e.input = .ok (request handle o n))
    (es' : List Env) (hm : 2 * n + 3 ≤ es'.length) (hg : ∀ e ∈ es', e.Helpful H xs ∧ e.choice.Genuine H xs ∧ e.input ≠ .ub) :
    ∃ k ≤ 2 * n + 3, ∃ t', run { sync := { src := .index { index := newRead (encode hd (chunksOf H xs)) } [] } } (es ++ e :: es'.take k) =
      (tr ++ [x] ++ [.received (request handle o n), .wrote (reply xs.flatten handle o n)], .ok t') := by
  refine answers (indexOk (canon_of hv hc hlen)) htot (indexLive (canon_of hv hc hlen)) _ (show IndexInv H xs hd (encode hd (chunksOf H xs)) (.index { index := newRead (encode hd (chunksOf H xs)) } []) 0 from rinv_file _) es he tr x hx t hr handle o n w ho e hC hin es' hm ?_
  intro e' h'
  obtain ⟨⟨⟨a, s, h1, h2⟩, h3⟩, h4, h5⟩ := hg e' h'
  refine ⟨⟨_, _, _, _, h1⟩, h4, ?_, h3, h5⟩
  rw [h1]; exact ⟨rfl, rfl, h2⟩

/-- **C53**, progress, with an index from a remote side. -/
theorem C53_answers_remote (H : Bytes → Bytes) (xs : List Bytes) (hd : Header) (hv : hd.Valid) (hc : ChunksValid hd (chunksOf H xs))
    (hlen : (encode hd (chunksOf H xs)).length < 2 ^ 63) (htot : xs.flatten.length < 2 ^ 64 - 1)
    (es : List Env) (he : ∀ e ∈ es, e.choice.Genuine H xs ∧ e.input ≠ .ub) (tr : List Obs) (x : Obs) (hx : ∀ m, x ≠ .received m) (t : Tool)
    (hr : run { sync := { src := .index { index := newIncRead } (encode hd (chunksOf H xs)) } } es = (tr ++ [x], .ok t))
    (handle : Bytes) (o n : Nat) (w : WellFormed handle o n) (ho : o ≤ xs.flatten.length)
    (e : Env) (hC : e.choice.Genuine H xs) (hin : e.input = .ok (request handle o n))
    (es' : List Env) (hm : 2 * n + 3 ≤ es'.length) (hg : ∀ e ∈ es', e.Helpful H xs ∧ e.choice.Genuine H xs ∧ e.input ≠ .ub) :
    ∃ k ≤ 2 * n + 3, ∃ t', run { sync := { src := .index { index := newIncRead } (encode hd (chunksOf H xs)) } } (es ++ e :: es'.take k) =
      (tr ++ [x] ++ [.received (request handle o n), .wrote (reply xs.flatten handle o n)], .ok t') := by
  refine answers (indexOk (canon_of hv hc hlen)) htot (indexLive (canon_of hv hc hlen)) _ (show IndexInv H xs hd (encode hd (chunksOf H xs)) (.index { index := newIncRead } (encode hd (chunksOf H xs))) 0 from rinv_inc _ _) es he tr x hx t hr handle o n w ho e hC hin es' hm ?_
  intro e' h'
  obtain ⟨⟨⟨a, s, h1, h2⟩, h3⟩, h4, h5⟩ := hg e' h'
  refine ⟨⟨_, _, _, _, h1⟩, h4, ?_, h3, h5⟩
  rw [h1]; exact ⟨rfl, rfl, h2⟩

/-- **C53**, progress, with a plain file whose reads do not fail (but may be short). -/
theorem C53_answers_plain (image : Bytes) (hlen : image.length < 2 ^ 63) (regular : Bool)
    (es : List Env) (he : ∀ e ∈ es, e.input ≠ .ub) (tr : List Obs) (x : Obs) (hx : ∀ m, x ≠ .received m) (t : Tool)
    (hr : run { sync := { src := .file image regular 0 } } es = (tr ++ [x], .ok t))
    (handle : Bytes) (o n : Nat) (w : WellFormed handle o n) (ho : o ≤ image.length) (e : Env) (hin : e.input = .ok (request handle o n))
    (es' : List Env) (hm : 2 * n + 3 ≤ es'.length)
    (hg : ∀ e ∈ es', (∃ ready answer short, e.choice = .decode ready answer short none) ∧ e.writeError = none ∧ e.input ≠ .ub) :
    ∃ k ≤ 2 * n + 3, ∃ t', run { sync := { src := .file image regular 0 } } (es ++ e :: es'.take k) =
      (tr ++ [x] ++ [.received (request handle o n), .wrote (reply image handle o n)], .ok t') := by
  refine answers (fileOk image) (by unfold u64max; omega) (fileLive hlen) _ (show FileInv image (.file image regular 0) 0 from ⟨rfl, rfl⟩) es (fun e h => ⟨trivial, he e h⟩) tr x hx t hr handle o n w ho e trivial hin es' hm ?_
  intro e' h'
  obtain ⟨⟨r, a, s, h1⟩, h3, h5⟩ := hg e' h'
  refine ⟨⟨_, _, _, _, h1⟩, trivial, ?_, h3, h5⟩
  rw [h1]; exact rfl

/-! ### The device appears -/

theorem attached_of {s s' : Syncer} (h : acquireSize s = .ok (image.length, s')) (hne : image ≠ []) (hlen : image.length + 511 < 2 ^ 64) {e : Env} (he : e.openError = none) :
    ∃ t, round { sync := s } e = ([.attached (512 * ((image.length + 511) / 512))], .ok t) := by
  have hpos : 0 < image.length := List.length_pos_iff.2 hne
  have hr : roundUp image.length = (image.length + 511) / 512 * 512 := by
    unfold roundUp
    rw [Nat.mod_eq_of_lt hlen]
  unfold round sizingRound
  simp only
  rw [h]
  simp only
  unfold setSize
  rw [if_neg (by omega), if_neg (by omega), if_neg (by simp)]
  simp only
  unfold openDevice
  rw [if_neg (by simp), if_neg (by show ¬ roundUp image.length = 0; omega), he]
  simp only
  rw [show 512 * (roundUp image.length / 512) = 512 * ((image.length + 511) / 512) by omega]
  exact ⟨_, rfl⟩

/-- **C53**, the device appears: with an index file and an image that is not empty, in the first round, if the kernel has a free device. (An empty image is
refused: `C53_empty_refused`.) -/
theorem C53_attaches (H : Bytes → Bytes) (xs : List Bytes) (hd : Header) (hv : hd.Valid) (hc : ChunksValid hd (chunksOf H xs))
    (hlen : (encode hd (chunksOf H xs)).length < 2 ^ 63) (hne : xs.flatten ≠ []) (htot : xs.flatten.length + 511 < 2 ^ 64) (e : Env) (he : e.openError = none) :
    ∃ t, run { sync := { src := .index { index := newRead (encode hd (chunksOf H xs)) } [] } } [e] =
      ([.attached (512 * ((xs.flatten.length + 511) / 512))], .ok t) := by
  have c := canon_of hv hc hlen
  have ha : ∃ s', acquireSize { src := .index { index := newRead (encode hd (chunksOf H xs)) } [] } = .ok (xs.flatten.length, s') := by
    unfold acquireSize srcSize
    simp only
    rcases blob_at c (rest := []) .newFile with ⟨h, _⟩ | ⟨_, i', h, _, _⟩
    · exact absurd (.inl rfl) h
    · rw [h, total_chunksOf]; exact ⟨_, rfl⟩
  obtain ⟨s', ha⟩ := ha
  obtain ⟨t, h⟩ := attached_of ha hne htot he
  refine ⟨t, ?_⟩
  rw [run, h]
  rfl

/-- **C53**, the device appears: with a regular file. -/
theorem C53_attaches_plain (image : Bytes) (hne : image ≠ []) (hlen : image.length < 2 ^ 63) (e : Env) (he : e.openError = none) :
    ∃ t, run { sync := { src := .file image true 0 } } [e] = ([.attached (512 * ((image.length + 511) / 512))], .ok t) := by
  have ha : acquireSize { src := .file image true 0 } =
      .ok (image.length, { src := .file image true 0, archiveSize := some image.length, dec := { endOff := some image.length } }) := rfl
  obtain ⟨t, h⟩ := attached_of ha hne (by omega) he
  refine ⟨t, ?_⟩
  rw [run, h]
  rfl

/-- **C53**, an empty image is refused. -/
theorem C53_empty_refused (e : Env) : run { sync := { src := .file [] true 0 } } [e] = ([], .err .EINVAL) := rfl

/-! ### The block device object by itself -/

/-- **C53**, the object takes data only for the request that is pending: for any object, data for another place or of another length is refused with `EBADR`, and nothing is
written. -/
theorem C53_put_checked (d : Device) (offset : Nat) (data : Bytes) (hne : data ≠ []) (fails : Option (Nat × Errno))
    (h : d.magic = 0 ∨ offset ≠ d.start ∨ data.length ≠ d.len) : putData d offset data fails = ([], .err .EBADR) := by
  have hl : data.length ≠ 0 := fun h => hne (List.length_eq_zero_iff.1 h)
  unfold putData
  rw [if_neg hl]
  by_cases h1 : d.magic = 0
  · rw [if_pos h1]
  · rw [if_neg h1]
    by_cases h2 : offset = d.start
    · rw [if_neg (by simpa using h2), if_pos]
      rcases h with h | h | h
      · exact absurd h h1
      · exact absurd h2 h
      · exact h
    · rw [if_pos h2]

/-- The claim that `ca_block_device_step` hands out only requests for data fails for the object by itself: a write request (type 1) is refused with
`EBADMSG`, but remains stored, and the next call hands it out as a request. The tool ends at the first error and so does not meet this. -/
theorem C53_refused_request_violated :
    ∃ (m : Bytes) (d : Device), devStep {} (.ok m) = (.err .EBADMSG, d) ∧ (∀ h s l, WellFormed h s l → m ≠ request h s l) ∧
      ∀ input, devStep d input = (.ok .request, d) := by
  refine ⟨beN 4 requestMagic ++ beN 4 1 ++ List.replicate 8 7 ++ beN 8 512 ++ beN 4 1024,
    { last := beN 4 requestMagic ++ beN 4 1 ++ List.replicate 8 7 ++ beN 8 512 ++ beN 4 1024 }, ?_, ?_, ?_⟩
  · rfl
  · intro h s l w e
    have := (request_fields w (d := { last := beN 4 requestMagic ++ beN 4 1 ++ List.replicate 8 7 ++ beN 8 512 ++ beN 4 1024 }) e).2.1
    revert this
    decide
  · intro input
    unfold devStep
    rw [if_pos (by decide)]

/-! ### Instances -/

/-- The kernel asks for 4 bytes at 3, then for 8 bytes at 6; the second chunk is not there at first. -/
def exEnvs : List Env :=
  let dec : Env := { choice := .decode true exAnswer 0 none }
  let miss : Env := { choice := .decode true (fun _ => .err .EAGAIN) 0 none }
  [{}, {}, { input := .ok (request [1, 2, 3, 4, 5, 6, 7, 8] 3 4) }, dec, miss, { choice := .prefetch true exHas exAsk }, dec, dec, dec, dec,
   { input := .ok (request [8, 7, 6, 5, 4, 3, 2, 1] 6 8) }, dec, dec, dec, dec, dec, { input := .ok [0, 0, 0, 0] }]

example : (run { sync := { src := .index { index := newRead (encode exHd (chunksOf exH exXs)) } [] } } exEnvs).1 =
    [.attached 512,
     .received (request [1, 2, 3, 4, 5, 6, 7, 8] 3 4), .wrote (be32 0x67446698 ++ be32 0 ++ [1, 2, 3, 4, 5, 6, 7, 8] ++ [4, 5, 6, 7]),
     .received (request [8, 7, 6, 5, 4, 3, 2, 1] 6 8), .wrote (be32 0x67446698 ++ be32 0 ++ [8, 7, 6, 5, 4, 3, 2, 1] ++ [7, 8, 9, 0, 0, 0, 0, 0]),
     .received [0, 0, 0, 0]] := by decide +kernel

theorem exEnvs_genuine : ∀ e ∈ exEnvs, e.choice.Genuine exH exXs ∧ e.input ≠ .ub := by
  have g : ∀ id, exAnswer id ≠ .ub := by
    intro id; unfold exAnswer; split
    · simp
    · split
      · simp
      · split <;> simp
  have a : ∀ x ∈ exXs, ∀ y, exAnswer (exH x) = .ok y → y = x := by
    have b : ∀ x ∈ exXs, exAnswer (exH x) = .ok x := by decide +kernel
    intro x hx y hy
    rw [b x hx] at hy; cases hy; rfl
  intro e h
  simp only [exEnvs, List.mem_cons, List.not_mem_nil, or_false] at h
  rcases h with h | h | h | h | h | h | h | h | h | h | h | h | h | h | h | h | h <;> subst h <;> refine ⟨?_, by simp⟩ <;>
    first | exact trivial | exact ⟨a, g⟩ | exact ⟨fun _ _ _ h => (by cases h), fun _ h => (by cases h)⟩ | exact ⟨fun _ h => (by cases h), fun _ h => (by cases h)⟩

example : Session exXs.flatten (run { sync := { src := .index { index := newRead (encode exHd (chunksOf exH exXs)) } [] } } exEnvs).1 := by
  have h1 := exHd_valid
  have h2 := exChunks_valid
  have h3 := exFile_length
  have h4 := exEnvs_genuine
  generalize exEnvs = o at *
  generalize exXs = xs at *
  generalize exHd = hd at *
  exact (C53_served exH xs hd h1 h2 h3 o h4).1

/-- The hypotheses of the theorem on progress: the history before the first request. -/
example : ∃ t, run { sync := { src := .index { index := newRead (encode exHd (chunksOf exH exXs)) } [] } } [{}] =
    ([] ++ [.attached (512 * ((exXs.flatten.length + 511) / 512))], .ok t) := by
  have h1 := exHd_valid
  have h2 := exChunks_valid
  have h3 := exFile_length
  have h4 : exXs.flatten ≠ [] := by decide
  have h5 : exXs.flatten.length + 511 < 2 ^ 64 := by decide
  rw [List.nil_append]
  generalize exXs = xs at *
  generalize exHd = hd at *
  exact C53_attaches exH xs hd h1 h2 h3 h4 h5 {} rfl

example : WellFormed [1, 2, 3, 4, 5, 6, 7, 8] 3 4 := ⟨rfl, by decide, by decide, by decide⟩

example : (Env.Helpful exH exXs { choice := .decode true exAnswer 0 none }) :=
  ⟨⟨exAnswer, 0, rfl, by decide +kernel⟩, rfl⟩

/-- A remote index: it arrives in two parts. -/
example : (run { sync := { src := .index { index := newIncRead } (encode exHd (chunksOf exH exXs)) } }
    [{ choice := .arrive 100 }, { choice := .decode true exAnswer 0 none }, { choice := .arrive 1000 }, { choice := .arriveEof }, {},
     { input := .ok (request [1, 2, 3, 4, 5, 6, 7, 8] 9 2) }, { choice := .decode true exAnswer 0 none }]).1 =
    [.attached 512, .received (request [1, 2, 3, 4, 5, 6, 7, 8] 9 2), .wrote (be32 0x67446698 ++ be32 0 ++ [1, 2, 3, 4, 5, 6, 7, 8] ++ [0, 0])] := by decide +kernel

/-- A plain file of 600 bytes, read in short pieces; the reply is cut off by an error. -/
example : (run { sync := { src := .file (List.replicate 600 9) true 0 } }
    [{}, { input := .ok (request [1, 2, 3, 4, 5, 6, 7, 8] 598 4) }, { choice := .decode true exAnswer 1 none }, { choice := .decode true exAnswer 1 none },
     { choice := .decode true exAnswer 1 none }, { choice := .decode true exAnswer 1 none }, { choice := .decode true exAnswer 1 none },
     { choice := .decode true exAnswer 1 none }, { choice := .decode true exAnswer 1 none, writeError := some (17, .EPIPE) }]).1 =
    [.attached 1024, .received (request [1, 2, 3, 4, 5, 6, 7, 8] 598 4), .wrote (be32 0x67446698 ++ be32 0 ++ [1, 2, 3, 4, 5, 6, 7, 8] ++ [9])] := by decide +kernel

end Casync.Nbd
