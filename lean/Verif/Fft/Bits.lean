import Verif.Fft.Spec
/-!
# Lemmas: powers of two and bit reversal
-/
namespace Verif.Fft

theorem ctz_pow (t : Nat) : ctz (2 ^ t) = t := by
  induction t with
  | zero => rw [ctz]; simp
  | succ t ih =>
    rw [ctz, if_neg, show 2 ^ (t + 1) / 2 = 2 ^ t by rw [Nat.pow_succ]; omega, ih]
    have := Nat.two_pow_pos t
    rw [Nat.pow_succ]; omega

theorem hasSingleBit_pow (t : Nat) : hasSingleBit (2 ^ t) = true := by simp [hasSingleBit, ctz_pow]

theorem hasSingleBit_iff (n : Nat) : hasSingleBit n = true ↔ ∃ t, n = 2 ^ t := by
  constructor
  · intro h; exact ⟨ctz n, by simpa [hasSingleBit] using h⟩
  · rintro ⟨t, rfl⟩; exact hasSingleBit_pow t

theorem bitCeil_spec (n : Nat) : (∃ t, bitCeil n = 2 ^ t) ∧ n ≤ bitCeil n := by
  fun_induction bitCeil n with
  | case1 n h => exact ⟨⟨0, rfl⟩, h⟩
  | case2 n h ih =>
    obtain ⟨⟨t, ht⟩, hle⟩ := ih
    exact ⟨⟨t + 1, by rw [ht, Nat.pow_succ]; omega⟩, by omega⟩

theorem revLoop_acc (w v r : Nat) : revLoop w v r = r * 2 ^ w + revLoop w v 0 := by
  induction w generalizing v r with
  | zero => simp [revLoop]
  | succ w ih =>
    simp only [revLoop]
    rw [ih (v / 2) (2 * r + v % 2), ih (v / 2) (2 * 0 + v % 2), Nat.pow_succ]
    rw [Nat.add_mul, Nat.add_mul]
    have : 2 * r * 2 ^ w = r * (2 ^ w * 2) := by rw [Nat.mul_comm 2 r, Nat.mul_assoc, Nat.mul_comm 2]
    rw [this]; omega

/-- Reversal of the `w` lowest bits -/
abbrev rev (w v : Nat) : Nat := revLoop w v 0

theorem rev_succ (w v : Nat) : rev (w + 1) v = v % 2 * 2 ^ w + rev w (v / 2) := by
  simp only [rev, revLoop]
  rw [revLoop_acc]; simp

theorem rev_lt (w v : Nat) : rev w v < 2 ^ w := by
  induction w generalizing v with
  | zero => simp [rev, revLoop]
  | succ w ih =>
    rw [rev_succ, Nat.pow_succ]
    have := ih (v / 2)
    rcases Nat.mod_two_eq_zero_or_one v with h | h <;> rw [h] <;> omega

/-- Bits above the lowest `w` do not matter. -/
theorem rev_high (w v b : Nat) : rev w (b * 2 ^ w + v) = rev w v := by
  induction w generalizing v with
  | zero => simp [rev, revLoop]
  | succ w ih =>
    rw [rev_succ, rev_succ]
    have e : b * 2 ^ (w + 1) = 2 * (b * 2 ^ w) := by rw [Nat.pow_succ, ← Nat.mul_assoc, Nat.mul_comm]
    rw [e, show (2 * (b * 2 ^ w) + v) % 2 = v % 2 by omega, show (2 * (b * 2 ^ w) + v) / 2 = b * 2 ^ w + v / 2 by omega, ih]

theorem rev_top (w v b : Nat) (hv : v < 2 ^ w) (hb : b < 2) : rev (w + 1) (b * 2 ^ w + v) = 2 * rev w v + b := by
  induction w generalizing v with
  | zero =>
    have : v = 0 := by simpa using hv
    subst this
    rw [rev_succ]; simp [rev, revLoop]; omega
  | succ w ih =>
    rw [rev_succ, rev_succ w v]
    have e : b * 2 ^ (w + 1) = 2 * (b * 2 ^ w) := by rw [Nat.pow_succ, ← Nat.mul_assoc, Nat.mul_comm]
    rw [e, show (2 * (b * 2 ^ w) + v) % 2 = v % 2 by omega, show (2 * (b * 2 ^ w) + v) / 2 = b * 2 ^ w + v / 2 by omega,
      ih (v / 2) (by rw [Nat.pow_succ] at hv; omega)]
    rw [Nat.pow_succ, Nat.mul_add, ← Nat.mul_assoc, Nat.mul_comm _ 2, ← Nat.mul_assoc]
    omega

theorem rev_rev (w v : Nat) (hv : v < 2 ^ w) : rev w (rev w v) = v := by
  induction w generalizing v with
  | zero => have : v = 0 := by simpa using hv
            subst this; simp [rev, revLoop]
  | succ w ih =>
    rw [rev_succ w v, rev_top w _ _ (rev_lt _ _) (by omega), ih _ (by rw [Nat.pow_succ] at hv; omega)]
    omega

theorem loop_succ {α : Type} (f : Nat → α → α) (s : α) (n : Nat) : loop f s (n + 1) = f n (loop f s n) := rfl

/-- The permutation loop moves every element to its bit-reversed position. -/
theorem swapped (t : Nat) (x : Buf) (n : Nat) (hn : n ≤ 2 ^ t) (p : Nat) (hp : p < 2 ^ t) :
    loop (swapStep (2 ^ t)) x n p = if p < n ∨ rev t p < n then x (rev t p) else x p := by
  induction n generalizing p with
  | zero => simp [loop]
  | succ n ih =>
    rw [loop_succ, swapStep]
    have hrn := rev_rev t n (by omega)
    have hrp := rev_rev t p hp
    have hlt := rev_lt t n
    have hltp := rev_lt t p
    have hbr : bitReverse (2 ^ t) n = rev t n := by rw [bitReverse, ctz_pow]
    simp only [hbr]
    have ihp := ih (by omega) p hp
    have ihn := ih (by omega) n (by omega)
    have ihr := ih (by omega) (rev t n) hlt
    split
    · rename_i hgt
      simp only [put]
      by_cases h1 : p = rev t n
      · subst h1
        rw [if_pos rfl, ihn, hrn, if_neg (by omega), if_pos (by omega)]
      · rw [if_neg h1]
        by_cases h2 : p = n
        · subst h2
          rw [if_pos rfl, ihr, hrn, if_neg (by omega), if_pos (by omega)]
        · have h3 : rev t p ≠ n := by intro h; apply h1; rw [← h, hrp]
          rw [if_neg h2, ihp]
          by_cases h : p < n ∨ rev t p < n
          · rw [if_pos h, if_pos (by omega)]
          · rw [if_neg h, if_neg (by omega)]
    · rename_i hgt
      rw [ihp]
      by_cases h : p < n ∨ rev t p < n
      · rw [if_pos h, if_pos (by omega)]
      · rw [if_neg h]
        by_cases h2 : p = n
        · subst h2
          rw [if_pos (by omega)]
          congr 1
          omega
        · by_cases h3 : rev t p = n
          · have : rev t n = p := by rw [← h3, hrp]
            omega
          · rw [if_neg (by omega)]

theorem permuted (t : Nat) (x : Buf) (p : Nat) (hp : p < 2 ^ t) :
    loop (swapStep (2 ^ t)) x (2 ^ t) p = x (rev t p) := by
  rw [swapped t x _ (Nat.le_refl _) p hp, if_pos (Or.inl hp)]

end Verif.Fft
