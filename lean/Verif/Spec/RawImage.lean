import Verif.Model.RawImage
/-!
What the payload of a file or a block device should be, and what the superblocks of the file systems say about their size. The
superblock layouts are those of the formats (squashfs, Android boot image, FAT, ext2/3/4).
-/
namespace Casync.Raw
open Casync

/-- The bytes of `b` at `off` are the little endian number `v` of `n` bytes. No repo lines. -/
def Says (b : Bytes) (off n v : Nat) : Prop := v < 256 ^ n ∧ (b.drop off).take n = leN n v

/-- `s` is `v` rounded up to a multiple of `a`. No repo lines. -/
def RoundUp (a v s : Nat) : Prop := v ≤ s ∧ s < v + a ∧ a ∣ s

/-- The file systems. No repo lines. -/
inductive Kind
  | squashfs | android | fat | ext

/-- `Extent k b s`: the first bytes `b` of a device hold a superblock of the kind `k`, and the file system is `s` bytes long. -/
inductive Extent : Kind → Bytes → Nat → Prop
  /-- magic at 0, length in bytes at 40, stored in whole blocks of 4096 -/
  | squashfs (b : Bytes) (used s : Nat) : Says b 0 4 0x73717368 → Says b 40 8 used → RoundUp 4096 used s → Extent .squashfs b s
  /-- "ANDROID!" at 0; header, kernel, ramdisk, second stage and device tree, each in whole pages -/
  | android (b : Bytes) (j kernel initrd second dtb h₀ h₁ h₂ h₃ h₄ : Nat) :
      b.take 8 = [0x41, 0x4e, 0x44, 0x52, 0x4f, 0x49, 0x44, 0x21] → Says b 36 4 (2 ^ j) →
      Says b 8 4 kernel → Says b 16 4 initrd → Says b 24 4 second → Says b 40 4 dtb →
      RoundUp (2 ^ j) 608 h₀ → RoundUp (2 ^ j) kernel h₁ → RoundUp (2 ^ j) initrd h₂ → RoundUp (2 ^ j) second h₃ →
      RoundUp (2 ^ j) dtb h₄ → Extent .android b (h₀ + h₁ + h₂ + h₃ + h₄)
  /-- boot signature 55 AA; sector size at 11, a small number of sectors at 19 -/
  | fat16 (b : Bytes) (j sectors : Nat) : (b.drop 510).take 2 = [0x55, 0xaa] → Says b 11 2 (2 ^ j) → Says b 19 2 sectors →
      0 < sectors → Extent .fat b (sectors * 2 ^ j)
  /-- or 0 there and the number of sectors at 32 -/
  | fat32 (b : Bytes) (j sectors : Nat) : (b.drop 510).take 2 = [0x55, 0xaa] → Says b 11 2 (2 ^ j) → Says b 19 2 0 →
      Says b 32 4 sectors → 0 < sectors → Extent .fat b (sectors * 2 ^ j)
  /-- superblock at 1024: magic EF53, number of blocks, logarithm of the block size in units of 1024 -/
  | ext (b : Bytes) (blocks log : Nat) : Says b 1080 2 0xEF53 → Says b 1028 4 blocks → 0 < blocks → Says b 1048 4 log →
      Extent .ext b (blocks * (1024 * 2 ^ log))

/-- The file system is shorter than 2^64 bytes (in the last block too). No repo lines. -/
def Fits (k : Kind) (s : Nat) : Prop :=
  match k with
  | .squashfs | .ext => s < 2 ^ 64
  | .android | .fat => True

/-- The kinds that are looked for before this one. No repo lines. -/
def Kind.earlier : Kind → List Kind
  | .squashfs => []
  | .android => [.squashfs]
  | .fat => [.squashfs, .android]
  | .ext => [.squashfs, .android, .fat]

/-- No superblock of the kind. No repo lines. -/
def Absent (k : Kind) (b : Bytes) : Prop := ∀ s, ¬ Extent k b s

/-- What `pread()` says of a file with this content. No repo lines. -/
def reads (content : Bytes) (off k : Nat) : Pread := .data ((content.drop off).take k)

/-- A turn in which a block device has this content. No repo lines. -/
def Shows (dev : Bytes) (t : Turn) : Prop :=
  t.blkSize = .ok (dev.length / 512) ∧ t.super = reads dev 0 1082 ∧ t.payload = reads dev

/-- The caller does not ask for nothing. No repo lines. -/
def Asks (t : Turn) : Prop := t.suggested ≠ some 0

/-- The image of a device with this content has `s` bytes: as many as the file system on it, or all when there is none or when it
should be longer than the device. -/
inductive ImageSize (dev : Bytes) : Nat → Prop
  | fs (k : Kind) (s : Nat) : Extent k (dev.take 1082) s → Fits k s → (∀ g ∈ k.earlier, Absent g (dev.take 1082)) →
      1082 ≤ dev.length → ImageSize dev (min s dev.length)
  | unknown : (∀ k, Absent k (dev.take 1082)) → ¬ Says (dev.take 1082) 1080 2 0xEF53 → ImageSize dev dev.length
  | short : dev.length < 1082 → ImageSize dev dev.length

/-- `Assembled ts off b`: `b` is put together from complete answers of the turns `ts`, one after the other, the first one for the
offset `off` and every further one for the offset where the one before it ended. -/
inductive Assembled : List Turn → Nat → Bytes → Prop
  | nil (ts : List Turn) (off : Nat) : Assembled ts off []
  | cons (t : Turn) (ts : List Turn) (off : Nat) (b rest : Bytes) : t.payload off b.length = .data b →
      Assembled ts (off + b.length) rest → Assembled (t :: ts) off (b ++ rest)

end Casync.Raw
