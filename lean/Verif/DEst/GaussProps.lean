import Verif.DEst.Gauss
import Mathlib.Tactic.Linarith
import Mathlib.Tactic.FieldSimp
import Mathlib.Tactic.Ring

/-!
# C158: the place of a maximum refined by a Gaussian
-/

namespace Verif.DEst

/-- Three positive neighbours around an inner sample, by the logarithms of their ratios. -/
theorem gauss_inner (data : List ℝ) (index : ℕ) (l c r : ℝ) (hl : data[index - 1]? = some l) (hc : data[index]? = some c)
    (hr : data[index + 1]? = some r) (hi : 0 < index) (pl : 0 < l) (pc : 0 < c) (pr : 0 < r)
    (hne : (Real.log c - Real.log l) + (Real.log c - Real.log r) ≠ 0) :
    interpolateGaussian data index =
      index + ((Real.log c - Real.log l) - (Real.log c - Real.log r)) / 2 / ((Real.log c - Real.log l) + (Real.log c - Real.log r)) := by
  have hlen : index + 1 < data.length := (List.getElem?_eq_some_iff.1 hr).1
  unfold interpolateGaussian
  rw [if_neg (by omega)]
  simp only [List.getD_eq_getElem?_getD, hl, hc, hr, Option.getD_some]
  rw [if_neg (by intro h; rcases h with h | h | h <;> linarith)]
  have e1 : Real.log (c * c / (l * r)) = (Real.log c - Real.log l) + (Real.log c - Real.log r) := by
    rw [Real.log_div (by positivity) (by positivity), Real.log_mul pc.ne' pc.ne', Real.log_mul pl.ne' pr.ne']; ring
  have e2 : Real.log (r / l) = Real.log r - Real.log l := Real.log_div pr.ne' pl.ne'
  rw [e1, e2, if_neg hne]
  congr 2
  ring

/-- **The refined place is exact for a Gaussian** of any height, width and centre: three samples suffice. -/
theorem gauss_exact (data : List ℝ) (index : ℕ) (A μ σ : ℝ) (hA : 0 < A) (hσ : σ ≠ 0) (hi : 0 < index)
    (hl : data[index - 1]? = some (A * Real.exp (-(((index : ℝ) - 1 - μ) ^ 2 / (2 * σ ^ 2)))))
    (hc : data[index]? = some (A * Real.exp (-(((index : ℝ) - μ) ^ 2 / (2 * σ ^ 2)))))
    (hr : data[index + 1]? = some (A * Real.exp (-(((index : ℝ) + 1 - μ) ^ 2 / (2 * σ ^ 2))))) :
    interpolateGaussian data index = μ := by
  have lg : ∀ t : ℝ, Real.log (A * Real.exp t) = Real.log A + t := fun t => by
    rw [Real.log_mul hA.ne' (Real.exp_pos t).ne', Real.log_exp]
  have hs : σ ^ 2 ≠ 0 := pow_ne_zero 2 hσ
  have hden : (Real.log (A * Real.exp (-(((index : ℝ) - μ) ^ 2 / (2 * σ ^ 2)))) -
      Real.log (A * Real.exp (-(((index : ℝ) - 1 - μ) ^ 2 / (2 * σ ^ 2))))) +
      (Real.log (A * Real.exp (-(((index : ℝ) - μ) ^ 2 / (2 * σ ^ 2)))) -
      Real.log (A * Real.exp (-(((index : ℝ) + 1 - μ) ^ 2 / (2 * σ ^ 2))))) = 1 / σ ^ 2 := by
    rw [lg, lg, lg]; field_simp; ring
  rw [gauss_inner data index _ _ _ hl hc hr hi (by positivity) (by positivity) (by positivity)
    (by rw [hden]; exact one_div_ne_zero hs), hden, lg, lg, lg]
  field_simp
  ring

/-- **The refined place stays within half a sample** of a greatest sample. -/
theorem gauss_within (data : List ℝ) (index : ℕ) (l c r : ℝ) (hl : data[index - 1]? = some l) (hc : data[index]? = some c)
    (hr : data[index + 1]? = some r) (hi : 0 < index) (h1 : l ≤ c) (h2 : r ≤ c) :
    |interpolateGaussian data index - index| ≤ 1 / 2 := by
  have hlen : index + 1 < data.length := (List.getElem?_eq_some_iff.1 hr).1
  by_cases hp : 0 < l ∧ 0 < r
  · obtain ⟨pl, pr⟩ := hp
    have pc : 0 < c := by linarith
    have L : 0 ≤ Real.log c - Real.log l := by linarith [Real.log_le_log pl h1]
    have R : 0 ≤ Real.log c - Real.log r := by linarith [Real.log_le_log pr h2]
    by_cases hne : (Real.log c - Real.log l) + (Real.log c - Real.log r) = 0
    · have e1 : Real.log (c * c / (l * r)) = 0 := by
        rw [Real.log_div (by positivity) (by positivity), Real.log_mul pc.ne' pc.ne', Real.log_mul pl.ne' pr.ne']; linarith
      unfold interpolateGaussian
      rw [if_neg (by omega)]
      simp only [List.getD_eq_getElem?_getD, hl, hc, hr, Option.getD_some]
      rw [if_neg (by intro h; rcases h with h | h | h <;> linarith), if_pos e1]
      simp
    · rw [gauss_inner data index l c r hl hc hr hi pl pc pr hne]
      generalize Real.log c - Real.log l = a at *
      generalize Real.log c - Real.log r = b at *
      have hpos : 0 < a + b := lt_of_le_of_ne (by linarith) (Ne.symm hne)
      rw [add_sub_cancel_left, abs_le]
      constructor
      · rw [le_div_iff₀ hpos]; linarith
      · rw [div_le_iff₀ hpos]; linarith
  · unfold interpolateGaussian
    rw [if_neg (by omega)]
    simp only [List.getD_eq_getElem?_getD, hl, hc, hr, Option.getD_some]
    rw [if_pos (by
      by_contra hn
      simp only [not_or, not_le] at hn
      exact hp ⟨hn.1, hn.2.1⟩)]
    simp

/-- At the first and the last sample, and next to values that are not positive, the place is not refined. -/
theorem gauss_fallback (data : List ℝ) (index : ℕ)
    (h : index = 0 ∨ data.length ≤ index + 1 ∨ data.getD (index - 1) 0 ≤ 0 ∨ data.getD index 0 ≤ 0 ∨ data.getD (index + 1) 0 ≤ 0) :
    interpolateGaussian data index = index := by
  unfold interpolateGaussian
  by_cases hb : ¬ (0 < index ∧ index < data.length - 1)
  · rw [if_pos hb]
  · rw [if_neg hb]
    dsimp only
    rw [if_pos]
    rcases h with h | h | h | h | h
    · omega
    · omega
    · exact .inl h
    · exact .inr (.inr h)
    · exact .inr (.inl h)

/-- **On an evenly spaced axis** the centre of a Gaussian comes out in the unit of the axis; at the last place of the axis there is no
answer. -/
theorem gauss_location (xs data : List ℝ) (index : ℕ) (x dx A μ σ : ℝ) (hA : 0 < A) (hσ : σ ≠ 0) (hi : 0 < index)
    (h0 : xs[index]? = some (x + index * dx)) (h1 : xs[index + 1]? = some (x + (index + 1) * dx))
    (hl : data[index - 1]? = some (A * Real.exp (-(((index : ℝ) - 1 - μ) ^ 2 / (2 * σ ^ 2)))))
    (hc : data[index]? = some (A * Real.exp (-(((index : ℝ) - μ) ^ 2 / (2 * σ ^ 2)))))
    (hr : data[index + 1]? = some (A * Real.exp (-(((index : ℝ) + 1 - μ) ^ 2 / (2 * σ ^ 2))))) :
    gaussLocation xs data index = some (x + μ * dx) ∧ gaussLocation (xs.take (index + 1)) data index = none := by
  have hlen : index + 1 < xs.length := (List.getElem?_eq_some_iff.1 h1).1
  refine ⟨?_, ?_⟩
  · unfold gaussLocation
    dsimp only
    rw [if_neg (by omega), gauss_exact data index A μ σ hA hσ hi hl hc hr]
    simp only [List.getD_eq_getElem?_getD, h0, h1, Option.getD_some]
    congr 1
    ring
  · unfold gaussLocation
    dsimp only
    rw [if_pos (by simp)]

/-- A symmetric peak stays where it is. -/
example : interpolateGaussian [1, 2, 1] 1 = 1 := by
  rw [gauss_inner [1, 2, 1] 1 1 2 1 rfl rfl rfl (by norm_num) (by norm_num) (by norm_num) (by norm_num)
    (by have := Real.log_pos (show (1 : ℝ) < 2 by norm_num); simp; linarith)]
  simp

end Verif.DEst
