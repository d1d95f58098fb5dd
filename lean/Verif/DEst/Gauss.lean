import Mathlib.Analysis.SpecialFunctions.Log.Basic

/-!
# The place of a maximum refined by a Gaussian

Model of `interpolateGaussian` and `getLocationMaximumGaussInterpolated` of
`/repo/algorithm/include/gnuradio-4.0/algorithm/dataset/DataSetEstimators.hpp` over the real numbers.  All values are finite.
-/

namespace Verif.DEst

/-- `interpolateGaussian` — DataSetEstimators.hpp:381-404. An empty list, for which `size() - 1` wraps, is not asked for. -/
noncomputable def interpolateGaussian (data : List ℝ) (index : ℕ) : ℝ :=
  if ¬ (0 < index ∧ index < data.length - 1) then index
  else
    let left := data.getD (index - 1) 0
    let center := data.getD index 0
    let right := data.getD (index + 1) 0
    if left ≤ 0 ∨ right ≤ 0 ∨ center ≤ 0 then index
    else
      let numerator := 1 / 2 * Real.log (right / left)
      let denominator := Real.log ((center * center) / (left * right))
      if denominator = 0 then index else index + numerator / denominator

/-- `getLocationMaximumGaussInterpolated` — DataSetEstimators.hpp:407-428, from the place of the maximum on (see `getMaximum`). -/
noncomputable def gaussLocation (xs data : List ℝ) (locMax : ℕ) : Option ℝ :=
  let refined := interpolateGaussian data locMax
  let x0 := xs.getD locMax 0
  if locMax + 1 ≥ xs.length then none
  else some (x0 + (refined - locMax) * (xs.getD (locMax + 1) 0 - x0))

end Verif.DEst
