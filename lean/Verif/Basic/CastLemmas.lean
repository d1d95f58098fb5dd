import Verif.Basic.Model

namespace Verif.Basic

theorem two_pow_half {n : Nat} (h : 0 < n) : (2 ^ n : Nat) = 2 * 2 ^ (n - 1) := by
  obtain ⟨m, rfl⟩ : ∃ m, n = m + 1 := ⟨n - 1, by omega⟩
  rw [Nat.add_sub_cancel, Nat.pow_succ, Nat.mul_comm]

theorem holds_iff (t : IntTy) (x : Int) : t.holds x = true ↔ t.lo ≤ x ∧ x ≤ t.hi := by simp [IntTy.holds]

theorem cast_of_holds {t : IntTy} (hb : 0 < t.bits) {x : Int} (h : t.holds x = true) : t.cast x = x := by
  rw [holds_iff] at h
  have hp := two_pow_half hb
  have hp0 : 0 < (2 ^ (t.bits - 1) : Nat) := Nat.two_pow_pos _
  unfold IntTy.cast
  cases hs : t.signed with
  | true =>
    simp only [IntTy.lo, IntTy.hi, hs, if_true] at h ⊢
    exact Int.bmod_eq_of_le (by omega) (by omega)
  | false =>
    simp only [IntTy.lo, IntTy.hi, hs, if_false, Bool.false_eq_true] at h ⊢
    exact Int.emod_eq_of_lt h.1 (by omega)

theorem cast_holds {t : IntTy} (hb : 0 < t.bits) (x : Int) : t.holds (t.cast x) = true := by
  rw [holds_iff]
  have hp := two_pow_half hb
  have hp0 : 0 < (2 ^ (t.bits - 1) : Nat) := Nat.two_pow_pos _
  unfold IntTy.cast
  cases hs : t.signed with
  | true =>
    simp only [IntTy.lo, IntTy.hi, hs, if_true]
    rw [Int.bmod_def]
    omega
  | false =>
    simp only [IntTy.lo, IntTy.hi, hs, if_false, Bool.false_eq_true]
    have h1 := Int.emod_nonneg x (b := ((2 ^ t.bits : Nat) : Int)) (by omega)
    have h2 := Int.emod_lt_of_pos x (b := ((2 ^ t.bits : Nat) : Int)) (by omega)
    exact ⟨h1, by omega⟩

/-- the value of a conversion differs from the operand by a multiple of two to the number of bits -/
theorem cast_congr (t : IntTy) (x : Int) : ∃ k : Int, t.cast x = x + k * (2 ^ t.bits : Nat) := by
  unfold IntTy.cast
  cases t.signed with
  | true =>
    simp only [if_true]
    refine ⟨-(x.bdiv (2 ^ t.bits)), ?_⟩
    have := Int.bmod_eq_self_sub_bdiv_mul x (2 ^ t.bits)
    rw [Int.neg_mul]
    omega
  | false =>
    simp only [if_false, Bool.false_eq_true]
    refine ⟨-(x / (2 ^ t.bits : Nat)), ?_⟩
    have := Int.emod_add_mul_ediv x ((2 ^ t.bits : Nat) : Int)
    rw [Int.neg_mul, Int.mul_comm]
    omega

theorem cast_add_mul (t : IntTy) (x k : Int) : t.cast (x + k * (2 ^ t.bits : Nat)) = t.cast x := by
  unfold IntTy.cast
  cases t.signed with
  | true => simp only [if_true]; rw [Int.mul_comm, Int.add_mul_bmod_self_left]
  | false =>
    simp only [if_false, Bool.false_eq_true]
    rw [Int.add_mul_emod_self_right]

theorem cast_cast_add (t : IntTy) (a b : Int) : t.cast (t.cast a + b) = t.cast (a + b) := by
  obtain ⟨k, hk⟩ := cast_congr t a
  rw [hk, show a + k * (2 ^ t.bits : Nat) + b = (a + b) + k * (2 ^ t.bits : Nat) by omega, cast_add_mul]

theorem cast_cast_mul (t : IntTy) (a b : Int) : t.cast (t.cast a * b) = t.cast (a * b) := by
  obtain ⟨k, hk⟩ := cast_congr t a
  rw [hk, show (a + k * (2 ^ t.bits : Nat)) * b = a * b + (k * b) * (2 ^ t.bits : Nat) by
    rw [Int.add_mul, Int.mul_right_comm], cast_add_mul]

theorem cast_cast (t : IntTy) (a : Int) : t.cast (t.cast a) = t.cast a := by
  have := cast_cast_add t a 0
  simpa using this

end Verif.Basic
