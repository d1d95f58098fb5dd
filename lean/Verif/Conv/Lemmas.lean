import Verif.Conv.Spec

/- Lemmas on rounding and on the limits of the types. -/
namespace Verif.Conv

theorem bitWidth_spec {a : Nat} (h : a ≠ 0) : 2 ^ (bitWidth a - 1) ≤ a ∧ a < 2 ^ bitWidth a ∧ 0 < bitWidth a := by
  simp only [bitWidth, if_neg h]
  exact ⟨by simpa using Nat.log2_self_le h, Nat.lt_log2_self, by omega⟩

theorem bitWidth_le {a n : Nat} (h : a < 2 ^ n) : bitWidth a ≤ n := by
  by_cases h0 : a = 0
  · simp [bitWidth, h0]
  · have ⟨h1, _, h3⟩ := bitWidth_spec h0
    rcases Nat.lt_or_ge n (bitWidth a) with hc | hc
    · have := Nat.pow_le_pow_right (by omega : 0 < 2) (show n ≤ bitWidth a - 1 by omega)
      omega
    · exact hc

theorem lt_of_bitWidth {a n : Nat} (h : bitWidth a ≤ n) : a < 2 ^ n := by
  by_cases h0 : a = 0
  · subst h0; exact Nat.two_pow_pos n
  · have ⟨_, h2, _⟩ := bitWidth_spec h0
    exact Nat.lt_of_lt_of_le h2 (Nat.pow_le_pow_right (by omega) h)

/-- Magnitudes with `p` digits and at least `q` zeros behind. -/
def RepMag (p q a : Nat) : Prop := ∃ m k, q ≤ k ∧ m < 2 ^ p ∧ a = m * 2 ^ k

theorem roundMag_exact {p q a : Nat} (h : RepMag p q a) : roundMag p q a = a := by
  obtain ⟨m, k, hq, hm, rfl⟩ := h
  have hk : max q (bitWidth (m * 2 ^ k) - p) ≤ k := by
    have : bitWidth (m * 2 ^ k) ≤ p + k := by
      apply bitWidth_le
      rw [Nat.pow_add]
      exact Nat.mul_lt_mul_of_pos_right hm (Nat.two_pow_pos k)
    omega
  have hd : 2 ^ max q (bitWidth (m * 2 ^ k) - p) ∣ m * 2 ^ k :=
    Nat.dvd_trans (Nat.pow_dvd_pow 2 hk) (Nat.dvd_mul_left _ _)
  simp only [roundMag]
  rw [Nat.mod_eq_zero_of_dvd hd, if_pos (by simpa using Nat.two_pow_pos _), Nat.div_mul_cancel hd]

/-- What rounding does: with the step `s`, one of the two neighbouring multiples, not the farther one. -/
theorem roundMag_cases (p q a : Nat) : let s := 2 ^ max q (bitWidth a - p)
    (roundMag p q a = a / s * s ∧ 2 * (a % s) ≤ s) ∨ (roundMag p q a = a / s * s + s ∧ s ≤ 2 * (a % s)) := by
  intro s
  have e : roundMag p q a = if 2 * (a % s) < s then a / s * s
      else if s < 2 * (a % s) then a / s * s + s
      else if a / s % 2 = 0 then a / s * s
      else a / s * s + s := rfl
  rw [e]
  split
  · left; exact ⟨rfl, by omega⟩
  · split
    · right; exact ⟨rfl, by omega⟩
    · split
      · left; exact ⟨rfl, by omega⟩
      · right; exact ⟨rfl, by omega⟩

theorem div_step_lt (p q a : Nat) : a / 2 ^ max q (bitWidth a - p) < 2 ^ p := by
  rw [Nat.div_lt_iff_lt_mul (Nat.two_pow_pos _), ← Nat.pow_add]
  apply lt_of_bitWidth
  omega

theorem roundMag_rep (p q a : Nat) (hp : 0 < p) : RepMag p q (roundMag p q a) := by
  have hlt := div_step_lt p q a
  rcases roundMag_cases p q a with ⟨h, _⟩ | ⟨h, _⟩
  · exact ⟨_, _, Nat.le_max_left q (bitWidth a - p), hlt, h⟩
  · rw [h]
    rcases Nat.lt_or_ge (a / 2 ^ max q (bitWidth a - p) + 1) (2 ^ p) with hc | hc
    · exact ⟨_, _, Nat.le_max_left q (bitWidth a - p), hc, by rw [Nat.add_mul, Nat.one_mul]⟩
    · have e : a / 2 ^ max q (bitWidth a - p) + 1 = 2 ^ p := by omega
      refine ⟨1, p + max q (bitWidth a - p), by omega, ?_, ?_⟩
      · exact Nat.one_lt_two_pow (by omega)
      · rw [Nat.one_mul, Nat.pow_add, ← e, Nat.add_mul, Nat.one_mul]

/-- No number of the format is nearer. -/
theorem roundMag_nearest (p q a z : Nat) (hp : 0 < p) (hz : RepMag p q z) :
    ((roundMag p q a : Int) - a).natAbs ≤ ((z : Int) - a).natAbs := by
  have hs0 : 0 < 2 ^ max q (bitWidth a - p) := Nat.two_pow_pos _
  have hda := Nat.div_add_mod' a (2 ^ max q (bitWidth a - p))
  have hml := Nat.mod_lt a hs0
  obtain ⟨m, k, hq, hm, rfl⟩ := hz
  have key : m * 2 ^ k ≤ a / 2 ^ max q (bitWidth a - p) * 2 ^ max q (bitWidth a - p) ∨
      a / 2 ^ max q (bitWidth a - p) * 2 ^ max q (bitWidth a - p) + 2 ^ max q (bitWidth a - p) ≤ m * 2 ^ k := by
    rcases Nat.lt_or_ge k (max q (bitWidth a - p)) with hk | hk
    · left
      have hbw : max q (bitWidth a - p) = bitWidth a - p := by omega
      have ha0 : a ≠ 0 := by
        intro h
        rw [h] at hk hbw
        simp [bitWidth] at hk
        omega
      have ⟨h1, _, h3⟩ := bitWidth_spec ha0
      have hz : m * 2 ^ k ≤ 2 ^ (bitWidth a - 1) := by
        apply Nat.le_of_lt
        refine Nat.lt_of_lt_of_le (Nat.mul_lt_mul_of_pos_right hm (Nat.two_pow_pos k)) ?_
        rw [← Nat.pow_add]
        exact Nat.pow_le_pow_right (by omega) (by omega)
      refine Nat.le_trans hz ?_
      have hdiv : 2 ^ (bitWidth a - 1) = 2 ^ (p - 1) * 2 ^ max q (bitWidth a - p) := by
        rw [← Nat.pow_add]; congr 1; omega
      rw [hdiv]
      apply Nat.mul_le_mul_right
      rw [Nat.le_div_iff_mul_le hs0, ← hdiv]
      exact h1
    · have hd : 2 ^ max q (bitWidth a - p) ∣ m * 2 ^ k :=
        Nat.dvd_trans (Nat.pow_dvd_pow 2 hk) (Nat.dvd_mul_left _ _)
      obtain ⟨c, hc⟩ := hd
      rw [hc]
      rcases Nat.lt_or_ge (a / 2 ^ max q (bitWidth a - p)) c with h | h
      · right
        have := Nat.mul_le_mul_right (2 ^ max q (bitWidth a - p)) (show a / 2 ^ max q (bitWidth a - p) + 1 ≤ c from h)
        rw [Nat.add_mul, Nat.one_mul] at this
        rw [Nat.mul_comm (2 ^ max q (bitWidth a - p)) c]
        exact this
      · left
        rw [Nat.mul_comm]
        exact Nat.mul_le_mul_right _ h
  generalize m * 2 ^ k = z at *
  have hc := roundMag_cases p q a
  simp only at hc
  generalize 2 ^ max q (bitWidth a - p) = s at *
  generalize a / s * s = lo at *
  generalize a % s = r at *
  rcases hc with ⟨h, h'⟩ | ⟨h, h'⟩ <;> rcases key with h'' | h'' <;> rw [h] <;> omega

/-- The largest integer of `d` digits rounds up when it has more digits than the format. -/
theorem roundMag_up {p q d u : Nat} (hd : p + 2 ≤ d) (hu : q ≤ u) (hp : 0 < p) :
    roundMag p q ((2 ^ d - 1) * 2 ^ u) = 2 ^ (d + u) := by
  have hpos : 1 < 2 ^ d := Nat.one_lt_two_pow (by omega)
  have ea : (2 ^ d - 1) * 2 ^ u = 2 ^ (d + u) - 2 ^ u := by
    rw [Nat.sub_mul, Nat.one_mul, ← Nat.pow_add]
  have h2u : 2 ^ (d + u) = 2 ^ (d - p - 2) * (2 ^ p * (2 ^ u * 4)) := by
    rw [show d + u = (d - p - 2) + (p + (u + 2)) by omega, Nat.pow_add, Nat.pow_add, Nat.pow_add]
  have hbw : bitWidth ((2 ^ d - 1) * 2 ^ u) = d + u := by
    apply Nat.le_antisymm
    · apply bitWidth_le; rw [ea]
      have := Nat.two_pow_pos u
      have := Nat.two_pow_pos (d + u)
      omega
    · rcases Nat.lt_or_ge (bitWidth ((2 ^ d - 1) * 2 ^ u)) (d + u) with hc | hc
      · have h1 : (2 ^ d - 1) * 2 ^ u < 2 ^ (d + u - 1) := lt_of_bitWidth (by omega)
        have h2 : 2 ^ (d + u) = 2 ^ (d + u - 1) * 2 := by rw [← Nat.pow_succ]; congr 1; omega
        have h3 : 2 ^ u ≤ 2 ^ (d + u - 1) := Nat.pow_le_pow_right (by omega) (by omega)
        rw [ea] at h1; omega
      · exact hc
  have hmax : max q (bitWidth ((2 ^ d - 1) * 2 ^ u) - p) = d + u - p := by rw [hbw]; omega
  have hs : 2 ^ (d + u) = 2 ^ p * 2 ^ (d + u - p) := by rw [← Nat.pow_add]; congr 1; omega
  have hsu : 2 ^ (d + u - p) = 2 ^ (d - p - 2) * 2 ^ u * 4 := by
    rw [show d + u - p = (d - p - 2) + u + 2 by omega, Nat.pow_add, Nat.pow_add]
  have hle : 2 ^ u ≤ 2 ^ (d - p - 2) * 2 ^ u := Nat.le_mul_of_pos_left _ (Nat.two_pow_pos _)
  have hu0 := Nat.two_pow_pos u
  have hp0 := Nat.two_pow_pos p
  have hs0 := Nat.two_pow_pos (d + u - p)
  have edm : (2 ^ d - 1) * 2 ^ u = (2 ^ p - 1) * 2 ^ (d + u - p) + (2 ^ (d + u - p) - 2 ^ u) := by
    rw [ea, hs, Nat.sub_mul, Nat.one_mul]
    have : 2 ^ (d + u - p) ≤ 2 ^ p * 2 ^ (d + u - p) := Nat.le_mul_of_pos_left _ hp0
    omega
  have hmod : (2 ^ d - 1) * 2 ^ u % 2 ^ (d + u - p) = 2 ^ (d + u - p) - 2 ^ u := by
    rw [edm, Nat.mul_add_mod_self_right]
    exact Nat.mod_eq_of_lt (by omega)
  have hdiv : (2 ^ d - 1) * 2 ^ u / 2 ^ (d + u - p) = 2 ^ p - 1 := by
    rw [edm, Nat.mul_comm, Nat.mul_add_div hs0, Nat.div_eq_of_lt (by omega), Nat.add_zero]
  simp only [roundMag, hmax, hmod, hdiv]
  rw [if_neg (by omega), if_pos (by omega), hs, Nat.sub_mul, Nat.one_mul]
  have : 2 ^ (d + u - p) ≤ 2 ^ p * 2 ^ (d + u - p) := Nat.le_mul_of_pos_left _ hp0
  omega

end Verif.Conv
