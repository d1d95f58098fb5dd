import Verif.Savgol.Model

/-! What the Savitzky-Golay theorems are stated with: polynomials, their derivatives, and signals continued beyond
their ends.  Nothing here uses the model's functions. -/

namespace Verif.Savgol

/-- The polynomial `b₀ + b₁ τ + b₂ τ² + …`. -/
def evalPoly : List Rat → Rat → Rat
  | [], _ => 0
  | b :: bs, τ => b + τ * evalPoly bs τ

/-- Coefficients of the derivative: `b₁, 2 b₂, 3 b₃, …`. -/
def deriv (bs : List Rat) : List Rat :=
  (List.range (bs.length - 1)).map fun (j : Nat) => ((j + 1 : Nat) : Rat) * bs.getD (j + 1) 0

/-- Coefficients of the `d`-th derivative. -/
def derivN : Nat → List Rat → List Rat
  | 0, bs => bs
  | d + 1, bs => deriv (derivN d bs)

/-- The signal `xs` continued to the left by the value `v`. -/
def before (v : Rat) (xs : List Rat) (i : Int) : Rat := if i < 0 then v else xs.getD i.toNat 0

end Verif.Savgol
