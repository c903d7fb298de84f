/-!
Little endian encoding (`htole64`/`le64toh` and friends) on byte lists.
-/
namespace Casync

abbrev Bytes := List UInt8

/-- The `k` byte little endian encoding of `n` (mod `256^k`). -/
def leN : Nat → Nat → Bytes
  | 0, _ => []
  | k + 1, n => UInt8.ofNat n :: leN k (n / 256)

/-- `htole64`: 8 bytes, least significant first. -/
def le64 (n : Nat) : Bytes := leN 8 n

/-- The number a byte string denotes, least significant byte first (`le64toh` on 8 bytes). -/
def rdLE : Bytes → Nat
  | [] => 0
  | b :: bs => b.toNat + 256 * rdLE bs

/-- `UINT64_MAX` -/
abbrev u64max : Nat := 18446744073709551615

@[simp] theorem leN_length (k n : Nat) : (leN k n).length = k := by
  induction k generalizing n with
  | zero => rfl
  | succ k ih => simp [leN, ih]

@[simp] theorem le64_length (n : Nat) : (le64 n).length = 8 := leN_length 8 n

theorem rdLE_lt (bs : Bytes) : rdLE bs < 256 ^ bs.length := by
  induction bs with
  | nil => simp [rdLE]
  | cons b bs ih =>
    have := b.toNat_lt
    simp only [rdLE, List.length_cons, Nat.pow_succ]
    omega

theorem rdLE_leN (k n : Nat) : rdLE (leN k n) = n % 256 ^ k := by
  induction k generalizing n with
  | zero => simp [leN, rdLE, Nat.mod_one]
  | succ k ih =>
    simp only [leN, rdLE, ih]
    have h1 : (UInt8.ofNat n).toNat = n % 256 := by simp
    rw [h1, Nat.pow_succ, Nat.mul_comm (256 ^ k) 256, Nat.mod_mul]

theorem leN_rdLE (bs : Bytes) : leN bs.length (rdLE bs) = bs := by
  induction bs with
  | nil => rfl
  | cons b bs ih =>
    simp only [List.length_cons, leN, rdLE]
    have h1 : UInt8.ofNat (b.toNat + 256 * rdLE bs) = b := by
      apply UInt8.toNat_inj.1
      have := b.toNat_lt
      simp
    have h2 : (b.toNat + 256 * rdLE bs) / 256 = rdLE bs := by
      have := b.toNat_lt; omega
    rw [h1, h2, ih]

theorem rdLE_le64 {n : Nat} (h : n < 2 ^ 64) : rdLE (le64 n) = n := by
  rw [le64, rdLE_leN]; exact Nat.mod_eq_of_lt (by simpa using h)

theorem le64_rdLE {bs : Bytes} (h : bs.length = 8) : le64 (rdLE bs) = bs := by
  have := leN_rdLE bs
  rw [h] at this; exact this

theorem rdLE_lt64 {bs : Bytes} (h : bs.length = 8) : rdLE bs < 2 ^ 64 := by
  have := rdLE_lt bs
  rw [h] at this; simpa using this

theorem le64_inj {a b : Nat} (ha : a < 2 ^ 64) (hb : b < 2 ^ 64) (h : le64 a = le64 b) : a = b := by
  rw [← rdLE_le64 ha, ← rdLE_le64 hb, h]

end Casync
