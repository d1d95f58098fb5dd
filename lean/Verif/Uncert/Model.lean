import Mathlib.Analysis.SpecialFunctions.Pow.Deriv
import Mathlib.Analysis.SpecialFunctions.Log.Base
import Mathlib.Analysis.SpecialFunctions.Log.Deriv
import Mathlib.Analysis.SpecialFunctions.Trigonometric.Deriv
/-!
# Values with an uncertainty

Model of `meta/include/gnuradio-4.0/meta/UncertainValue.hpp` over the real numbers. Rounding, infinities and NaN are not modelled; where
the code divides by zero the theorems say nothing.
-/
namespace Verif.Uncert

/-- `UncertainValue` of a real type — UncertainValue.hpp:33-60 -/
@[ext] structure UV where
  v : ℝ
  u : ℝ := 0

/-- `std::hypot` -/
noncomputable def hypot (a b : ℝ) : ℝ := √(a * a + b * b)

/-- `+` — UncertainValue.hpp:119-139 (both uncertain, then one of them a plain number) -/
noncomputable def add (x y : UV) : UV := ⟨x.v + y.v, hypot x.u y.u⟩
def addNum (x : UV) (c : ℝ) : UV := ⟨x.v + c, x.u⟩
def numAdd (c : ℝ) (x : UV) : UV := ⟨c + x.v, x.u⟩

/-- unary `+` — UncertainValue.hpp:148-155 -/
noncomputable def plus (x : UV) : UV := ⟨|x.v|, |x.u|⟩

/-- `-` — UncertainValue.hpp:157-176 -/
noncomputable def sub (x y : UV) : UV := ⟨x.v - y.v, hypot x.u y.u⟩
def subNum (x : UV) (c : ℝ) : UV := ⟨x.v - c, x.u⟩
def numSub (c : ℝ) (x : UV) : UV := ⟨c - x.v, x.u⟩

/-- unary `-` — UncertainValue.hpp:185-188 -/
def neg (x : UV) : UV := ⟨-x.v, x.u⟩

/-- `*` — UncertainValue.hpp:190-210 -/
noncomputable def mul (x y : UV) : UV := ⟨x.v * y.v, hypot (x.v * y.u) (y.v * x.u)⟩
def mulNum (x : UV) (c : ℝ) : UV := ⟨x.v * c, x.u * c⟩
def numMul (c : ℝ) (x : UV) : UV := ⟨c * x.v, c * x.u⟩

/-- `/` — UncertainValue.hpp:219-250 -/
noncomputable def div (x y : UV) : UV := ⟨x.v / y.v, hypot (x.u / y.v) (y.u * x.v / (y.v * y.v))⟩
noncomputable def divNum (x : UV) (c : ℝ) : UV := ⟨x.v / c, x.u / |c|⟩
noncomputable def numDiv (c : ℝ) (x : UV) : UV := ⟨c / x.v, x.u * |c| / (x.v * x.v)⟩

/-- `pow` with a plain exponent — UncertainValue.hpp:269-287 -/
noncomputable def powNum (x : UV) (e : ℝ) : UV :=
  if x.v = 0 then (if e = 0 then ⟨1, 0⟩ else ⟨0, 0⟩) else ⟨x.v ^ e, |x.v ^ e * e * x.u / x.v|⟩

/-- `pow` with an uncertain exponent — UncertainValue.hpp:289-306 -/
noncomputable def pow (x e : UV) : UV :=
  if x.v = 0 then (if e.v = 0 then ⟨1, 0⟩ else ⟨0, 0⟩)
  else ⟨x.v ^ e.v, |x.v ^ e.v| * hypot (e.v / x.v * x.u) (Real.log x.v * e.u)⟩

/-- `sqrt` — UncertainValue.hpp:309-317 -/
noncomputable def sqrt (x : UV) : UV := powNum x (1 / 2)

/-- `sin` — UncertainValue.hpp:319-326 -/
noncomputable def sin (x : UV) : UV := ⟨Real.sin x.v, |Real.cos x.v * x.u|⟩

/-- `cos` — UncertainValue.hpp:328-335 -/
noncomputable def cos (x : UV) : UV := ⟨Real.cos x.v, |Real.sin x.v * x.u|⟩

/-- `exp` — UncertainValue.hpp:337-344 -/
noncomputable def exp (x : UV) : UV := pow ⟨Real.exp 1, 0⟩ x

/-- `abs` — UncertainValue.hpp:355-362 -/
noncomputable def abs (x : UV) : UV := if 0 < x.v then x else neg x

/-- `log` — UncertainValue.hpp:364-378 -/
noncomputable def log (x : UV) : UV := ⟨Real.log x.v, |x.u / x.v|⟩

/-- `log10` — UncertainValue.hpp:380-395 -/
noncomputable def log10 (x : UV) : UV := ⟨Real.log x.v / Real.log 10, |x.u / (x.v * Real.log 10)|⟩

/-! ## complex values -/

/-- `UncertainValue` of a complex type: value and uncertainty, real and imaginary parts. -/
structure CV where
  re : ℝ
  im : ℝ
  ure : ℝ := 0
  uim : ℝ := 0

/-- `*` of two complex values — UncertainValue.hpp:195-198 -/
noncomputable def cmul (x y : CV) : CV :=
  { re := x.re * y.re - x.im * y.im, im := x.re * y.im + x.im * y.re,
    ure := hypot (x.re * y.ure) (y.re * x.ure), uim := hypot (x.im * y.uim) (y.im * x.uim) }

/-- `+` of two complex values — UncertainValue.hpp:124-127 -/
noncomputable def cadd (x y : CV) : CV :=
  { re := x.re + y.re, im := x.im + y.im, ure := hypot x.ure y.ure, uim := hypot x.uim y.uim }

end Verif.Uncert
