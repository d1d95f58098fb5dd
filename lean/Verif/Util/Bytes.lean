/-!
# Little-endian integers as byte lists

`std::memcpy` of an integer to/from a buffer on a little-endian host (WireFormat.hpp:17 rejects others).
-/
namespace Verif.Bytes

abbrev Byte := BitVec 8

/-- The `n` low-order bytes of `v`, least significant first. -/
def le : Nat → Nat → List Byte
  | 0, _ => []
  | n + 1, v => BitVec.ofNat 8 v :: le n (v / 256)

/-- The number whose little-endian bytes are given. -/
def leNat : List Byte → Nat
  | [] => 0
  | b :: bs => b.toNat + 256 * leNat bs

/-- Bounds-checked read of `len` bytes at offset `off`; `none` stands for an out-of-bounds access (undefined behaviour). -/
def slice (bs : List Byte) (off len : Nat) : Option (List Byte) :=
  if off + len ≤ bs.length then some ((bs.drop off).take len) else none

@[simp] theorem le_length (n v : Nat) : (le n v).length = n := by
  induction n generalizing v with
  | zero => rfl
  | succ n ih => simp [le, ih]

theorem leNat_le (n v : Nat) : leNat (le n v) = v % 256 ^ n := by
  induction n generalizing v with
  | zero => simp [le, leNat, Nat.mod_one]
  | succ n ih =>
    simp only [le, leNat, ih, BitVec.toNat_ofNat, Nat.reducePow]
    rw [Nat.pow_succ, Nat.mul_comm (256 ^ n) 256, Nat.mod_mul]

theorem leNat_lt (bs : List Byte) : leNat bs < 256 ^ bs.length := by
  induction bs with
  | nil => simp [leNat]
  | cons b bs ih =>
    have := b.isLt
    simp only [leNat, List.length_cons, Nat.pow_succ]
    omega

theorem le_leNat (bs : List Byte) : le bs.length (leNat bs) = bs := by
  induction bs with
  | nil => rfl
  | cons b bs ih =>
    have hb := b.isLt
    simp only [List.length_cons, le, leNat]
    congr 1
    · apply BitVec.eq_of_toNat_eq
      simp only [BitVec.toNat_ofNat]; omega
    · rw [show (b.toNat + 256 * leNat bs) / 256 = leNat bs by omega]; exact ih

theorem leNat_inj {a b : List Byte} (hl : a.length = b.length) (h : leNat a = leNat b) : a = b := by
  rw [← le_leNat a, ← le_leNat b, hl, h]

end Verif.Bytes
