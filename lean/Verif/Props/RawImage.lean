import Verif.Lemmas.RawLoop
/-!
C62: the image of a file or block device.
-/
namespace Casync.Raw
open Casync

/-- C62. The size of a file system is recognised from its superblock: rounded up squashfs, Android boot image, FAT, ext. -/
theorem C62_size (b : Bytes) (k : Kind) (s : Nat) (hl : b.length = 1082) (h : Extent k b s) (hf : Fits k s)
    (he : ∀ g ∈ k.earlier, Absent g b) : readSize (.data b) = .ok (some s) :=
  readSize_fs hl h hf he

/-- C62. A size is reported only for a superblock: with the size that it says, if that fits into 64 bits. (An ext superblock without
blocks counts as one of size 0.) -/
theorem C62_size_only (b : Bytes) (s : Nat) (hl : b.length = 1082) (h : readSize (.data b) = .ok (some s)) :
    (∃ k t, Extent k b t ∧ (∀ g ∈ k.earlier, Absent g b) ∧ (Fits k t → s = t)) ∨
      (Says b 1080 2 0xEF53 ∧ Says b 1028 4 0 ∧ s = 0) := by
  have conclude : ∀ k t, Extent k b t → (∀ g ∈ k.earlier, Absent g b) →
      (∃ k t, Extent k b t ∧ (∀ g ∈ k.earlier, Absent g b) ∧ (Fits k t → s = t)) := by
    intro k t hx he
    refine ⟨k, t, hx, he, fun hf => ?_⟩
    have := readSize_fs hl hx hf he
    rw [h] at this
    injection this with this
    injection this
  by_cases h1 : ∃ t, Extent .squashfs b t
  · obtain ⟨t, ht⟩ := h1
    exact .inl (conclude _ t ht (by intro g hg; cases hg))
  · have a1 : Absent .squashfs b := fun t ht => h1 ⟨t, ht⟩
    by_cases h2 : ∃ t, Extent .android b t
    · obtain ⟨t, ht⟩ := h2
      refine .inl (conclude _ t ht (fun g hg => ?_))
      rw [List.mem_singleton.1 hg]; exact a1
    · have a2 : Absent .android b := fun t ht => h2 ⟨t, ht⟩
      by_cases h3 : ∃ t, Extent .fat b t
      · obtain ⟨t, ht⟩ := h3
        refine .inl (conclude _ t ht (fun g hg => ?_))
        simp only [Kind.earlier, List.mem_cons, List.not_mem_nil, or_false] at hg
        rcases hg with rfl | rfl
        · exact a1
        · exact a2
      · have a3 : Absent .fat b := fun t ht => h3 ⟨t, ht⟩
        rw [readSize_absent hl a1, readAndroid_absent hl a2, readFat_absent hl a3] at h
        injection h with h
        unfold readExt at h
        by_cases hm : field b 1080 2 = 0xEF53
        · rw [if_pos hm] at h
          have sm := says_of_field (by omega) hm
          by_cases hz : field b 1028 4 = 0
          · refine .inr ⟨sm, says_of_field (by omega) hz, ?_⟩
            rw [hz, Nat.zero_mul] at h
            split at h
            · injection h with h; exact h.symm
            · cases h
          · refine .inl (conclude .ext _ (.ext b _ _ sm (says_field (by omega)) (by omega) (says_field (by omega))) (fun g hg => ?_))
            simp only [Kind.earlier, List.mem_cons, List.not_mem_nil, or_false] at hg
            rcases hg with rfl | rfl | rfl
            · exact a1
            · exact a2
            · exact a3
        · rw [if_neg hm] at h; cases h

/-- C62. The image of a block device: as many of its bytes as the file system on it has (all of them when there is none), from the
first one on, whatever sizes the caller asks for; it is complete after at most that many turns and one more. -/
theorem C62_device (dev : Bytes) (s : Nat) (ts : List Turn) (h5 : 512 ∣ dev.length) (h64 : dev.length < 2 ^ 64)
    (hs : ImageSize dev s) (hts : ∀ t ∈ ts, Shows dev t ∧ Asks t) :
    (s < ts.length → run ts { node := .blk none } [] = .done (dev.take s)) ∧
    (run ts { node := .blk none } [] = .done (dev.take s) ∨
      ∃ m st, run ts { node := .blk none } [] = .more (dev.take m) st ∧ m ≤ s) := by
  have hle : s ≤ dev.length := by cases hs with
    | fs k f => exact Nat.min_le_right _ _
    | unknown => exact Nat.le_refl _
    | short => exact Nat.le_refl _
  have h := run_whole hle ts (fun t ht => ⟨(hts t ht).1.2.2, (hts t ht).2⟩) (.blk none) 0 []
    (knows_blk (fun t ht => (hts t ht).1) h5 h64 hs) (Nat.zero_le _)
  simp only [List.length_nil, Nat.add_zero, List.take_zero] at h
  exact h

/-- C62. The payload of a regular file of `size` bytes whose content does not change: these bytes, or EIO when the file has become
shorter than it was; never less or more. -/
theorem C62_file (c : Bytes) (size : Nat) (ts : List Turn) (hts : ∀ t ∈ ts, t.payload = reads c ∧ Asks t) :
    (size ≤ c.length → size < ts.length → run ts { node := .reg size } [] = .done (c.take size)) ∧
    (c.length < size → (c.length < ts.length → run ts { node := .reg size } [] = .error .EIO) ∧
      ∀ img, run ts { node := .reg size } [] ≠ .done img) := by
  constructor
  · intro hle hlt
    have h := run_whole hle ts hts (.reg size) 0 [] ((settled_reg size).knows ts) (Nat.zero_le _)
    simp only [List.length_nil, Nat.add_zero, List.take_zero] at h
    exact h.1 hlt
  · intro hlt
    have h := run_short hlt ts hts (.reg size) 0 [] [] ((settled_reg size).knows ts) (Nat.zero_le _)
    simp only [List.length_nil, Nat.add_zero] at h
    exact h

/-- C62. Whatever the kernel answers, also while the file is being written: a payload that is complete has exactly the size that the
header of the file says, and consists of complete answers for the places where they stand. -/
theorem C62_file_any (size : Nat) (ts : List Turn) (img : Bytes) (h : run ts { node := .reg size } [] = .done img) :
    img.length = size ∧ Assembled ts 0 img := by
  obtain ⟨rest, e1, e2, e3⟩ := run_any (settled_reg size) ts 0 [] [] img (Nat.zero_le _) h
  rw [List.nil_append] at e1
  subst e1
  simp only [List.length_nil, Nat.add_zero, Nat.zero_add] at e2 e3
  exact ⟨e2, e3⟩

/-- C62. The same for a block device; the image is never longer than the device was when it was opened. -/
theorem C62_device_any (t : Turn) (ts : List Turn) (img : Bytes) (h : run (t :: ts) { node := .blk none } [] = .done img) :
    (∃ u, t.blkSize = .ok u ∧ img.length ≤ u * 512) ∧ Assembled (t :: ts) 0 img := by
  match hp : payloadSize t (.blk none) with
  | (.err e, n') => simp [run, turn, hp] at h
  | (.ub, n') => exact absurd (by rw [hp]) (payloadSize_ub t (.blk none))
  | (.ok size, n') =>
    have hle : (readDeviceSize t).1 = .ok size := by
      have h' : ((readDeviceSize t).1, Node.blk (readDeviceSize t).2) = (.ok size, n') := hp
      injection h'
    obtain ⟨u, hu, hsz⟩ := readDeviceSize_le hle
    have hs := payloadSize_ok hp
    have same : run (t :: ts) { node := n' } [] = .done img := by
      have e1 : turn t { node := .blk none } = turn t { node := n' } := by
        rw [turn_of hp hs, turn_of (hs t) hs]
      unfold run at h ⊢
      rw [← e1]
      exact h
    obtain ⟨rest, e1, e2, e3⟩ := run_any hs (t :: ts) 0 [] [] img (Nat.zero_le _) same
    rw [List.nil_append] at e1
    subst e1
    simp only [List.length_nil, Nat.add_zero, Nat.zero_add] at e2 e3
    exact ⟨⟨u, hu, by omega⟩, e3⟩

/-- C62. No answer makes it stop on an assertion. -/
theorem C62_no_crash (ts : List Turn) (s : Enc) : run ts s [] ≠ .crash := run_crash ts s []

theorem alignTo_wrap {used : Nat} (hw : 2 ^ 64 - 4096 < used) (hu64 : used < 2 ^ 64) : alignTo used 4096 = 0 := by
  unfold alignTo
  have hx : (used + 4096 + (2 ^ 64 - 1)) % 2 ^ 64 < 4096 := by omega
  have e2 : (2 ^ 64 - 1 - (4096 + (2 ^ 64 - 1)) % 2 ^ 64 : Nat) = 2 ^ 64 - 1 - (2 ^ 12 - 1) := rfl
  rw [e2]
  generalize (used + 4096 + (2 ^ 64 - 1)) % 2 ^ 64 = x at hx
  clear e2
  have hx12 : x < 2 ^ 12 := hx
  have hx64 : x < 2 ^ 64 := Nat.lt_trans hx (by decide)
  rw [mask_eq x 12 hx64, Nat.div_eq_of_lt hx12, Nat.zero_mul]

/-- A squashfs superblock that claims nearly 2^64 bytes: rounding it up wraps around, and the image of the device is empty. -/
theorem C62_squashfs_wrap_violated (dev : Bytes) (used : Nat) (t : Turn) (ts : List Turn) (h5 : 512 ∣ dev.length)
    (h64 : dev.length < 2 ^ 64) (hl : 1082 ≤ dev.length) (hm : Says (dev.take 1082) 0 4 0x73717368)
    (hu : Says (dev.take 1082) 40 8 used) (hw : 2 ^ 64 - 4096 < used) (ht : Shows dev t) :
    run (t :: ts) { node := .blk none } [] = .done [] := by
  have hl' : (dev.take 1082).length = 1082 := by rw [List.length_take]; omega
  have et : reads dev 0 1082 = .data (dev.take 1082) := by unfold reads; rw [List.drop_zero]
  have hu64 : used < 2 ^ 64 := hu.1
  have hs : readSize t.super = .ok (some 0) := by
    rw [ht.2.1, et]
    have e : readSize (.data (dev.take 1082)) = if (dev.take 1082).length ≠ superSize then .ok none
      else if field (dev.take 1082) 0 4 = 0x73717368 then .ok (some (alignTo (field (dev.take 1082) 40 8) 4096))
      else .ok (readAndroid (dev.take 1082)) := rfl
    rw [e, if_neg (by rw [hl']; exact fun h => h rfl), if_pos (field_says hm), field_says hu]
    have hz : alignTo used 4096 = 0 := alignTo_wrap hw hu64
    rw [hz]
  have hd : readDeviceSize t = (.ok 0, some 0) := by
    unfold readDeviceSize
    rw [ht.1]
    simp only
    rw [hs]
    simp only
    rw [Nat.div_mul_cancel h5, Nat.mod_eq_of_lt h64, if_pos (by omega)]
  have hp : payloadSize t (.blk none) = (.ok 0, .blk (some 0)) := by
    show ((readDeviceSize t).1, Node.blk (readDeviceSize t).2) = _
    rw [hd]
  unfold run
  rw [turn_of hp (settled_blk 0), if_pos (Nat.zero_le _)]

/-- An ext superblock whose block size is 2^63 bytes or more: the number of bytes wraps around, and the image of the device is empty
(an even number of blocks of 2^63 bytes), though the file system claims more than the device has. -/
theorem C62_ext_wrap_violated (b : Bytes) (blocks : Nat) (hl : b.length = 1082) (h1 : Absent .squashfs b) (h2 : Absent .android b)
    (h3 : Absent .fat b) (hm : Says b 1080 2 0xEF53) (hb : Says b 1028 4 (2 * blocks)) (hg : Says b 1048 4 53) :
    readSize (.data b) = .ok (some 0) := by
  rw [readSize_absent hl h1, readAndroid_absent hl h2, readFat_absent hl h3]
  unfold readExt
  rw [if_pos (field_says hm), field_says hg, field_says hb]
  have e : ((10 + 53) % 2 ^ 32 : Nat) = 63 := by decide
  rw [e, if_pos (by decide)]
  have e2 : 2 * blocks * 2 ^ 63 % 2 ^ 64 = 0 := by omega
  rw [e2]

/-- A read error at the superblock is reported, but the size of the whole device stays: a caller that goes on gets an image of all of
the device and not of the file system. -/
theorem C62_retry_violated (t : Turn) (u : Nat) (e : Errno) (hu : t.blkSize = .ok u) (hs : t.super = .fail e) (h64 : u * 512 < 2 ^ 64) :
    ∃ n, payloadSize t (.blk none) = (.err e, n) ∧ ∀ t', payloadSize t' n = (.ok (u * 512), n) := by
  refine ⟨.blk (some (u * 512)), ?_, settled_blk _⟩
  show ((readDeviceSize t).1, Node.blk (readDeviceSize t).2) = _
  unfold readDeviceSize
  rw [hu, hs]
  simp only [readSize]
  rw [Nat.mod_eq_of_lt h64]

/-! ### The hypotheses are met -/

namespace Example

/-- A boot sector of a FAT file system with one sector of 512 bytes, three sectors on the device. No repo lines. -/
def dev : Bytes :=
  List.replicate 11 0 ++ [0, 2] ++ List.replicate 6 0 ++ [1, 0] ++ List.replicate 489 0 ++ [0x55, 0xaa] ++ List.replicate 1024 7

/-- The answers of that device. No repo lines. -/
def honest : Turn := { blkSize := .ok 3, super := reads dev 0 1082, payload := reads dev, suggested := some 200 }

theorem dev_length : dev.length = 1536 := by
  decide +kernel

theorem noSquash : Absent .squashfs (dev.take 1082) := by
  intro s h
  have : field (dev.take 1082) 0 4 = 0x73717368 := by
    cases h with
    | squashfs _ _ _ hm => exact field_says hm
  revert this
  decide +kernel

theorem noAndroid : Absent .android (dev.take 1082) := by
  intro s h
  have : (dev.take 1082).take 8 = [0x41, 0x4e, 0x44, 0x52, 0x4f, 0x49, 0x44, 0x21] := by
    cases h with
    | android _ j kernel initrd second dtb h₀ h₁ h₂ h₃ h₄ ht => exact ht
  revert this
  decide +kernel

theorem isFat : Extent .fat (dev.take 1082) 512 :=
  .fat16 _ 9 1 (by decide +kernel) ⟨by decide, by decide +kernel⟩ ⟨by decide, by decide +kernel⟩ (by decide)

theorem imageSize : ImageSize dev 512 := by
  have h := ImageSize.fs (dev := dev) .fat 512 isFat trivial (by
    intro g hg
    simp only [Kind.earlier, List.mem_cons, List.not_mem_nil, or_false] at hg
    rcases hg with rfl | rfl
    · exact noSquash
    · exact noAndroid) (by rw [dev_length]; decide)
  rw [dev_length] at h
  exact h

/-- The image of that device is its first sector. -/
example : run (List.replicate 600 honest) { node := .blk none } [] = .done (dev.take 512) :=
  (C62_device dev 512 (List.replicate 600 honest) (by rw [dev_length]; decide) (by rw [dev_length]; decide) imageSize (by
    intro t ht
    rw [(List.mem_replicate.1 ht).2]
    refine ⟨⟨?_, rfl, rfl⟩, ?_⟩
    · rw [dev_length]; rfl
    · intro h; cases h)).1 (by rw [List.length_replicate]; decide)

/-- An ext superblock: 3 blocks of 4096 bytes. No repo lines. -/
def extSuper : Bytes :=
  List.replicate 1028 0 ++ leN 4 3 ++ List.replicate 16 0 ++ leN 4 2 ++ List.replicate 28 0 ++ leN 2 0xEF53

example : extSuper.length = 1082 ∧ Extent .ext extSuper 12288 ∧ Fits .ext 12288 ∧ readSize (.data extSuper) = .ok (some 12288) :=
  ⟨by decide +kernel, .ext _ 3 2 ⟨by decide, by decide +kernel⟩ ⟨by decide, by decide +kernel⟩ (by decide)
    ⟨by decide, by decide +kernel⟩, by unfold Fits; decide, by decide +kernel⟩

/-- A squashfs superblock of 5000 bytes used. No repo lines. -/
def squashSuper : Bytes := leN 4 0x73717368 ++ List.replicate 36 0 ++ le64 5000 ++ List.replicate 1034 0

example : Extent .squashfs squashSuper 8192 ∧ readSize (.data squashSuper) = .ok (some 8192) :=
  ⟨.squashfs _ 5000 8192 ⟨by decide, by decide +kernel⟩ ⟨by decide, by decide +kernel⟩ ⟨by decide, by decide, ⟨2, rfl⟩⟩,
    by decide +kernel⟩

/-- An Android boot image with pages of 2048 bytes, kernel and ramdisk. No repo lines. -/
def bootSuper : Bytes :=
  [0x41, 0x4e, 0x44, 0x52, 0x4f, 0x49, 0x44, 0x21] ++ leN 4 5000 ++ leN 4 0 ++ leN 4 1 ++ leN 4 0 ++ leN 4 0 ++ leN 4 0 ++ leN 4 0 ++
    leN 4 2048 ++ leN 4 0 ++ List.replicate 1038 0

example : Extent .android bootSuper (2048 + 6144 + 2048 + 0 + 0) ∧ readSize (.data bootSuper) = .ok (some 10240) :=
  ⟨.android _ 11 5000 1 0 0 2048 6144 2048 0 0 (by decide +kernel) ⟨by decide, by decide +kernel⟩ ⟨by decide, by decide +kernel⟩
    ⟨by decide, by decide +kernel⟩ ⟨by decide, by decide +kernel⟩ ⟨by decide, by decide +kernel⟩ ⟨by decide, by decide, ⟨1, rfl⟩⟩
    ⟨by decide, by decide, ⟨3, rfl⟩⟩ ⟨by decide, by decide, ⟨1, rfl⟩⟩ ⟨by decide, by decide, ⟨0, rfl⟩⟩
    ⟨by decide, by decide, ⟨0, rfl⟩⟩, by decide +kernel⟩

/-- A file that is written while it is read: two pieces of different contents, and then one that is too short. No repo lines. -/
def writing (b : Bytes) : Turn := { blkSize := .error .ENOTTY, super := .fail .EIO, payload := reads b, suggested := some 2 }

example : run [writing [1, 2, 3, 4], writing [9, 9, 9, 9], writing []] { node := .reg 4 } [] = .done [1, 2, 9, 9] := by rfl

example : run [writing [1, 2, 3, 4], writing [9, 9, 9], writing []] { node := .reg 4 } [] = .error .EIO := by rfl

end Example

end Casync.Raw
