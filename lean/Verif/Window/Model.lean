import Mathlib.Analysis.SpecialFunctions.Trigonometric.Basic
import Mathlib.Analysis.SpecialFunctions.Sqrt
import Mathlib.Order.ConditionallyCompleteLattice.Basic

/-!
# Window functions

Model of `/repo/algorithm/include/gnuradio-4.0/algorithm/fourier/window.hpp` over the real numbers.  A value that is not a number is
`none`: with one sample the step of the angle is `2π / 0`, infinite, and infinite times 0 is not a number. Rounding is not modelled.
-/

namespace Verif.Window

/-- `Type` — window.hpp:35 -/
inductive Kind where
  | none_ | rectangular | hamming | hann | hannExp | blackman | nuttall | blackmanHarris | blackmanNuttall | flatTop | exponential | kaiser
deriving DecidableEq

/-- The loop of `bessel_i0` after `m` passes: sum, term and k — window.hpp:43-52. -/
noncomputable def besselLoop (x : ℝ) : ℕ → ℝ × ℝ × ℕ
  | 0 => (1, 1, 1)
  | m + 1 =>
    let s := besselLoop x m
    let term := s.2.1 * (x / 2 / s.2.2)
    (s.1 + term * term, term, s.2.2 + 1)

/-- The loop ends after pass `m` (there is at least one pass) — window.hpp:49,53. -/
def besselStops (eps x : ℝ) (m : ℕ) : Prop :=
  1 ≤ m ∧ ¬ (besselLoop x m).2.1 * (besselLoop x m).2.1 > (besselLoop x m).1 * eps

/-- `bessel_i0` — window.hpp:42-56: the sum at the first pass after which the loop ends; `eps` is the precision of the type.
`besselStops_exists` in Lemmas.lean shows that there is one. -/
noncomputable def bessel (eps x : ℝ) : ℝ :=
  (besselLoop x (sInf {m | besselStops eps x m})).1

/-- The angle `a * i` with `a = 2π / (n - 1)` — window.hpp:72,88 and the like lines of the other cases. -/
noncomputable def angle (n i : ℕ) : Option ℝ :=
  if n = 1 then none else some (2 * Real.pi / (n - 1 : ℕ) * i)

/-- `create` — window.hpp:79-182, the value of sample `i` of `n`. -/
noncomputable def value (eps : ℝ) (k : Kind) (beta : ℝ) (n i : ℕ) : Option ℝ :=
  match k with
  -- 80-84
  | .none_ | .rectangular => some 1
  -- 85-91
  | .hamming => (angle n i).map fun x => 53836 / 100000 - 46164 / 100000 * Real.cos x
  -- 92-98
  | .hann => (angle n i).map fun x => 1 / 2 - 1 / 2 * Real.cos x
  -- 99-103
  | .hannExp => (angle n i).map fun x => Real.sin x ^ 2
  -- 104-113
  | .blackman => (angle n i).map fun x => 42 / 100 - 1 / 2 * Real.cos x + 8 / 100 * Real.cos (2 * x)
  -- 114-124
  | .nuttall => (angle n i).map fun x =>
      355768 / 1000000 - 487396 / 1000000 * Real.cos x + 144232 / 1000000 * Real.cos (2 * x) - 12604 / 1000000 * Real.cos (3 * x)
  -- 125-135
  | .blackmanHarris => (angle n i).map fun x =>
      35875 / 100000 - 48829 / 100000 * Real.cos x + 14128 / 100000 * Real.cos (2 * x) - 1168 / 100000 * Real.cos (3 * x)
  -- 136-145
  | .blackmanNuttall => (angle n i).map fun x =>
      3635819 / 10000000 - 4891775 / 10000000 * Real.cos x + 1365995 / 10000000 * Real.cos (2 * x) - 106411 / 10000000 * Real.cos (3 * x)
  -- 146-156
  | .flatTop => (angle n i).map fun x =>
      1 - 193 / 100 * Real.cos x + 129 / 100 * Real.cos (2 * x) - 388 / 1000 * Real.cos (3 * x) + 32 / 1000 * Real.cos (4 * x)
  -- 157-163
  | .exponential => some (Real.exp ((i : ℝ) / (3 * n)) / Real.exp 0)
  -- 164-181
  | .kaiser =>
    let factor : ℝ := 1 / (n - 1 : ℕ)
    let term := 2 * i * factor - 1
    some (bessel eps (beta * Real.sqrt |1 - term * term|) / bessel eps beta)

/-- `create` — window.hpp:69-183 and 196-202; `none` is the exception of lines 167-172. -/
noncomputable def create (eps : ℝ) (k : Kind) (beta : ℝ) (n : ℕ) : Option (List (Option ℝ)) :=
  if n = 0 then some []
  else if k = .kaiser ∧ (beta < 0 ∨ n ≤ 1) then none
  else some ((List.range n).map (value eps k beta n))

end Verif.Window
