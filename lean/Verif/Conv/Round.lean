import Verif.Conv.Lemmas

/- Rounding of signed numbers, and the limits of the integer types as floating-point numbers. -/
namespace Verif.Conv

theorem one_pos : 0 < one := by unfold one; exact Nat.two_pow_pos _

theorem one_int : (one : Int) = (2 : Int) ^ 1074 := by
  unfold one; exact Int.natCast_pow 2 1074

theorem one_int_pos : (0 : Int) < one := by have := one_pos; omega

theorem prec_pos (d : Bool) : 0 < prec d := by cases d <;> simp [prec]

theorem maxFin_eq (d : Bool) : maxFin d = if d then (2 ^ 53 - 1) * 2 ^ (971 + 1074) else (2 ^ 24 - 1) * 2 ^ (104 + 1074) := by
  cases d
  · unfold maxFin
    rw [show prec false = 24 from rfl, show top false = 104 + 1074 from rfl, if_neg (by simp)]
  · unfold maxFin
    rw [show prec true = 53 from rfl, show top true = 971 + 1074 from rfl, if_pos rfl]

theorem one_def : one = 2 ^ 1074 := by unfold one; exact Eq.refl _

theorem rep_iff {d : Bool} {n : Int} : Rep d n ↔ RepMag (prec d) (tiny d) n.natAbs ∧ n.natAbs ≤ maxFin d := by
  have hp : prec d = if d then 53 else 24 := rfl
  have ht : tiny d = if d then 0 else 1074 - 149 := rfl
  unfold Rep
  rw [maxFin_eq, hp, ht]
  apply and_congr_left
  intro _
  constructor
  · rintro ⟨m, k, h1, h2, h3⟩
    refine ⟨m.natAbs, k, h1, h2, ?_⟩
    rw [h3, Int.natAbs_mul, Int.natAbs_pow]
    rfl
  · rintro ⟨m, k, h1, h2, h3⟩
    rcases Int.natAbs_eq n with h | h
    · refine ⟨m, k, h1, by simpa using h2, ?_⟩
      rw [h, h3, Int.natCast_mul, Int.natCast_pow]; rfl
    · refine ⟨-m, k, h1, by simpa using h2, ?_⟩
      rw [h, h3, Int.natCast_mul, Int.natCast_pow, Int.neg_mul]; rfl

theorem maxFin_rep (d : Bool) : RepMag (prec d) (tiny d) (maxFin d) := by
  refine ⟨2 ^ prec d - 1, top d, ?_, ?_, rfl⟩
  · cases d <;> simp [tiny, top]
  · have := Nat.two_pow_pos (prec d); omega

theorem zero_rep (d : Bool) : RepMag (prec d) (tiny d) 0 := ⟨0, tiny d, Nat.le_refl _, Nat.two_pow_pos _, by simp⟩

theorem round_mag_le (d : Bool) {a : Nat} (h : a ≤ maxFin d) : roundMag (prec d) (tiny d) a ≤ maxFin d := by
  have := roundMag_nearest (prec d) (tiny d) a (maxFin d) (prec_pos d) (maxFin_rep d)
  omega

theorem round_fin {d : Bool} {n : Int} (h : n.natAbs ≤ maxFin d) :
    round d n = .fin (if n < 0 then -(roundMag (prec d) (tiny d) n.natAbs : Int) else roundMag (prec d) (tiny d) n.natAbs) := by
  have := round_mag_le d h
  simp only [round]
  rw [if_neg (by omega)]

theorem round_exact {d : Bool} {n : Int} (h : Rep d n) : round d n = .fin n := by
  rw [rep_iff] at h
  rw [round_fin h.2, roundMag_exact h.1]
  congr 1
  split <;> omega

theorem round_nearest {d : Bool} {n : Int} (h : n.natAbs ≤ maxFin d) :
    ∃ r, round d n = .fin r ∧ Rep d r ∧ ∀ z, Rep d z → (r - n).natAbs ≤ (z - n).natAbs := by
  refine ⟨_, round_fin h, ?_, ?_⟩
  · rw [rep_iff]
    have e : (if n < 0 then -(roundMag (prec d) (tiny d) n.natAbs : Int) else roundMag (prec d) (tiny d) n.natAbs).natAbs
        = roundMag (prec d) (tiny d) n.natAbs := by split <;> omega
    rw [e]
    exact ⟨roundMag_rep _ _ _ (prec_pos d), round_mag_le d h⟩
  · intro z hz
    rw [rep_iff] at hz
    have h1 := roundMag_nearest (prec d) (tiny d) n.natAbs z.natAbs (prec_pos d) hz.1
    have h0 := roundMag_nearest (prec d) (tiny d) n.natAbs 0 (prec_pos d) (zero_rep d)
    generalize roundMag (prec d) (tiny d) n.natAbs = r at *
    split <;> omega

theorem mul_one_natAbs (x : Int) : (x * one).natAbs = x.natAbs * one := by
  rw [Int.natAbs_mul, Int.natAbs_natCast]

theorem le_maxFin {d : Bool} {a : Nat} (h : a ≤ 2 ^ 64) : a * one ≤ maxFin d := by
  have h1 : a * one ≤ 2 ^ 64 * 2 ^ 1074 := by
    rw [← one_def]; exact Nat.mul_le_mul_right _ h
  have h2 : 2 ^ 64 * 2 ^ 1074 ≤ 2 ^ top d := by
    rw [← Nat.pow_add]
    apply Nat.pow_le_pow_right (by omega)
    cases d <;> simp [top]
  have h3 : 2 ^ top d ≤ maxFin d := by
    unfold maxFin
    apply Nat.le_mul_of_pos_left
    have : 1 < 2 ^ prec d := Nat.one_lt_two_pow (by have := prec_pos d; omega)
    omega
  omega

theorem tiny_le (d : Bool) : tiny d ≤ 1074 := by cases d <;> simp [tiny]

theorem int_rep {d : Bool} {x : Int} (h : x.natAbs < 2 ^ prec d) : Rep d (x * one) := by
  rw [rep_iff, mul_one_natAbs]
  refine ⟨⟨x.natAbs, 1074, tiny_le d, h, by rw [one_def]⟩, le_maxFin ?_⟩
  have : 2 ^ prec d ≤ 2 ^ 64 := Nat.pow_le_pow_right (by omega) (by cases d <;> simp [prec])
  omega

theorem pow_rep {d : Bool} {k : Nat} (h : k ≤ 64) : RepMag (prec d) (tiny d) (2 ^ k * one) :=
  ⟨1, k + 1074, by have := tiny_le d; omega, Nat.one_lt_two_pow (by have := prec_pos d; omega), by rw [Nat.one_mul, Nat.pow_add, one_def]⟩

theorem bits_le (w : W) : 8 ≤ w.bits ∧ w.bits ≤ 64 := by cases w <;> simp [W.bits]

theorem digits_le (s : Bool) (w : W) : 7 ≤ digits s w ∧ digits s w ≤ 64 := by cases s <;> cases w <;> simp [digits, W.bits]

/-- The lowest number of an integer type is a floating-point number. -/
theorem round_lowest (d t : Bool) (v : W) : round d (lowest t v * one) = .fin (lowest t v * one) := by
  apply round_exact
  rw [rep_iff, mul_one_natAbs]
  have hb := bits_le v
  cases t with
  | false =>
    simp only [lowest, Bool.false_eq_true, if_false, Int.natAbs_zero, Nat.zero_mul]
    exact ⟨zero_rep d, Nat.zero_le _⟩
  | true =>
    simp only [lowest, if_true, Int.natAbs_neg, Int.natAbs_natCast]
    exact ⟨pow_rep (by omega), le_maxFin (Nat.pow_le_pow_right (by omega) (by omega))⟩

/-- The highest number of an integer type is rounded up if it has too many digits. -/
theorem round_highest (d t : Bool) (v : W) : round d (highest t v * one)
    = .fin (if digits t v ≤ prec d then highest t v * one else (highest t v + 1) * one) := by
  have hb := digits_le t v
  have hpos : 0 < 2 ^ digits t v := Nat.two_pow_pos _
  have h64 : 2 ^ digits t v ≤ 2 ^ 64 := Nat.pow_le_pow_right (by omega) hb.2
  have hnat : (highest t v).natAbs = 2 ^ digits t v - 1 := by unfold highest; omega
  split
  · rename_i h
    apply round_exact
    apply int_rep
    rw [hnat]
    have := Nat.pow_le_pow_right (show 0 < 2 by omega) h
    omega
  · rename_i h
    have h2 : prec d + 2 ≤ digits t v := by
      revert h; cases d <;> cases t <;> cases v <;> simp [digits, prec, W.bits]
    rw [round_fin (by rw [mul_one_natAbs, hnat]; exact le_maxFin (by omega))]
    have hn : ¬ (highest t v * one < 0) := by
      have : 0 ≤ highest t v * one := Int.mul_nonneg (by unfold highest; omega) (by omega)
      omega
    rw [if_neg hn, mul_one_natAbs, hnat]
    have := roundMag_up (u := 1074) h2 (tiny_le d) (prec_pos d)
    rw [one_def, this]
    congr 1
    unfold highest
    rw [Int.sub_add_cancel, ← Int.natCast_mul, Nat.pow_add]

end Verif.Conv
