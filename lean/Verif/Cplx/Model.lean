import Mathlib.Data.Real.Sqrt
import Mathlib.Analysis.Complex.Trigonometric

/-!
# Complex numbers for devices

Models `core/include/gnuradio-4.0/Complex.hpp` with exact real numbers in place of floating point. Division by zero gives zero here and
infinity or NaN there; the theorems exclude it.
-/

namespace Verif.Cplx

/-- `gr::complex` — Complex.hpp:32-36 -/
@[ext] structure Cx where
  re : ℝ
  im : ℝ

/-- The constructor from one number — Complex.hpp:39 -/
noncomputable def ofReal (r : ℝ) : Cx := ⟨r, 0⟩

/-- `operator+` — Complex.hpp:86 -/
noncomputable def add (a b : Cx) : Cx := ⟨a.re + b.re, a.im + b.im⟩
/-- `operator-` — Complex.hpp:87 -/
noncomputable def sub (a b : Cx) : Cx := ⟨a.re - b.re, a.im - b.im⟩
/-- `operator-` with one argument — Complex.hpp:88 -/
noncomputable def neg (a : Cx) : Cx := ⟨-a.re, -a.im⟩
/-- `operator*` — Complex.hpp:90 -/
noncomputable def mul (a b : Cx) : Cx := ⟨a.re * b.re - a.im * b.im, a.re * b.im + a.im * b.re⟩
/-- `operator*` with a number on the right — Complex.hpp:92 -/
noncomputable def mulR (a : Cx) (s : ℝ) : Cx := ⟨a.re * s, a.im * s⟩
/-- `operator*` with a number on the left — Complex.hpp:93 -/
noncomputable def mulL (s : ℝ) (a : Cx) : Cx := ⟨s * a.re, s * a.im⟩
/-- `operator/` — Complex.hpp:95-98 -/
noncomputable def div (a b : Cx) : Cx :=
  let d := b.re * b.re + b.im * b.im
  ⟨(a.re * b.re + a.im * b.im) / d, (a.im * b.re - a.re * b.im) / d⟩
/-- `operator/` with a number — Complex.hpp:100 -/
noncomputable def divR (a : Cx) (s : ℝ) : Cx := ⟨a.re / s, a.im / s⟩

/-- `operator+=`: one member after the other — Complex.hpp:47-51 -/
noncomputable def addTo (z rhs : Cx) : Cx :=
  let z : Cx := ⟨z.re + rhs.re, z.im⟩
  ⟨z.re, z.im + rhs.im⟩
/-- `operator-=` — Complex.hpp:52-56 -/
noncomputable def subFrom (z rhs : Cx) : Cx :=
  let z : Cx := ⟨z.re - rhs.re, z.im⟩
  ⟨z.re, z.im - rhs.im⟩
/-- `operator*=`: both results before the members are set — Complex.hpp:58-64 -/
noncomputable def mulBy (z rhs : Cx) : Cx :=
  let r := z.re * rhs.re - z.im * rhs.im
  let i := z.re * rhs.im + z.im * rhs.re
  let z : Cx := ⟨r, z.im⟩
  ⟨z.re, i⟩
/-- `operator/=` — Complex.hpp:66-73 -/
noncomputable def divBy (z rhs : Cx) : Cx :=
  let d := rhs.re * rhs.re + rhs.im * rhs.im
  let r := (z.re * rhs.re + z.im * rhs.im) / d
  let i := (z.im * rhs.re - z.re * rhs.im) / d
  let z : Cx := ⟨r, z.im⟩
  ⟨z.re, i⟩
/-- `operator*=` with a number — Complex.hpp:75-79 -/
noncomputable def mulByR (z : Cx) (s : ℝ) : Cx := ⟨z.re * s, z.im * s⟩
/-- `operator/=` with a number — Complex.hpp:80-84 -/
noncomputable def divByR (z : Cx) (s : ℝ) : Cx := ⟨z.re / s, z.im / s⟩

/-- `abs` — Complex.hpp:136-139 -/
noncomputable def abs (z : Cx) : ℝ := Real.sqrt (z.re * z.re + z.im * z.im)
/-- `norm` — Complex.hpp:141-144 -/
noncomputable def norm (z : Cx) : ℝ := z.re * z.re + z.im * z.im
/-- `arg` with `std::atan2` as a parameter — Complex.hpp:146-149 -/
noncomputable def arg (atan2 : ℝ → ℝ → ℝ) (z : Cx) : ℝ := atan2 z.im z.re
/-- `conj` — Complex.hpp:151-154 -/
noncomputable def conj (z : Cx) : Cx := ⟨z.re, -z.im⟩
/-- `polar` — Complex.hpp:156-159 -/
noncomputable def polar (r theta : ℝ) : Cx := ⟨r * Real.cos theta, r * Real.sin theta⟩

/-- Multiplication in a type whose greatest finite value is `m`; `none` is infinity. -/
def mulMax (m x y : Rat) : Option Rat := if m < x * y ∨ x * y < -m then none else some (x * y)
/-- Addition in such a type. -/
def addMax (m x y : Rat) : Option Rat := if m < x + y ∨ x + y < -m then none else some (x + y)
/-- `norm`, the argument of the root in `abs` and the divisor of `operator/`, in such a type — Complex.hpp:67, 96, 138, 143 -/
def normMax (m re im : Rat) : Option Rat := do
  let a ← mulMax m re re
  let b ← mulMax m im im
  addMax m a b

end Verif.Cplx
