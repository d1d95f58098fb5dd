import Verif.Fft.Model
/-!
# Specification of the Fourier transform (C71)
-/
namespace Verif.Fft
open Complex

/-- The discrete Fourier transform of the first `N` values of `x`, at frequency number `k` -/
noncomputable def dft (N : Nat) (x : Nat → ℂ) (k : Nat) : ℂ :=
  ∑ i ∈ Finset.range N, x i * Complex.exp (-2 * Real.pi * I * (i * k) / N)

/-- What is assumed of the vectorised transforms at the sizes for which the code uses them: they compute the transform, packed for real
input. -/
structure SimdCorrect (v : Simd) : Prop where
  c2c : ∀ N, canProcessSize false N = true → ∀ x, ∀ k < N, v.c2c N x k = dft N x k
  dc : ∀ N, canProcessSize true N = true → ∀ x : Nat → ℝ, v.r2c N x 0 = (dft N (fun i => x i) 0).re
  nyquist : ∀ N, canProcessSize true N = true → ∀ x : Nat → ℝ, v.r2c N x 1 = (dft N (fun i => x i) (N / 2)).re
  re : ∀ N, canProcessSize true N = true → ∀ x : Nat → ℝ, ∀ k, 0 < k → k < N / 2 → v.r2c N x (2 * k) = (dft N (fun i => x i) k).re
  im : ∀ N, canProcessSize true N = true → ∀ x : Nat → ℝ, ∀ k, 0 < k → k < N / 2 → v.r2c N x (2 * k + 1) = (dft N (fun i => x i) k).im

end Verif.Fft
