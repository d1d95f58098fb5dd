import Mathlib.Analysis.SpecialFunctions.Trigonometric.Basic
/-!
# Model of the FFT (algorithm/include/gnuradio-4.0/algorithm/fourier/fft.hpp)

Simplifications: numbers are exact complex (real) numbers, not floats; a buffer is a function from indices to numbers, of which the code
only uses the first `N`; sizes are unbounded (`i * i` in the chirp table does not wrap). The vectorised transform `SimdFFT` is a parameter.
-/
namespace Verif.Fft
open Complex

/-- A buffer of numbers -/
abbrev Buf := Nat → ℂ

/-- `data[i] = v` -/
def put {α : Type} (d : Nat → α) (i : Nat) (v : α) : Nat → α := fun p => if p = i then v else d p

/-- `for (i = 0; i < n; ++i) s = f(i, s)` -/
def loop {α : Type} (f : Nat → α → α) (s : α) : Nat → α
  | 0 => s
  | n + 1 => f n (loop f s n)

/-- `std::countr_zero` (0 for the argument 0, which does not occur) -/
def ctz (n : Nat) : Nat := if n = 0 ∨ n % 2 = 1 then 0 else ctz (n / 2) + 1
termination_by n
decreasing_by omega

/-- `std::has_single_bit` -/
def hasSingleBit (n : Nat) : Bool := n == 2 ^ ctz n

/-- `std::bit_ceil` -/
def bitCeil (n : Nat) : Nat := if n ≤ 1 then 1 else 2 * bitCeil ((n + 1) / 2)
termination_by n
decreasing_by omega

/-- The inner loop of `precomputeBitReversal` (fft.hpp:431-434): `width` further rounds of `result = (result << 1) | (val & 1); val >>= 1` -/
def revLoop : Nat → Nat → Nat → Nat
  | 0, _, result => result
  | w + 1, val, result => revLoop w (val / 2) (2 * result + val % 2)

/-- `bitReverseTable[i]` (fft.hpp:427-437) -/
def bitReverse (fftSize i : Nat) : Nat := revLoop (ctz fftSize) i 0

/-- `fft_stage_kernel<C, 2>` on the block at `o` (fft.hpp:28-33) -/
def kernel2 (o : Nat) (d : Buf) : Buf :=
  let a := d o
  let b := d (o + 1)
  put (put d o (a + b)) (o + 1) (a - b)

/-- `fft_stage_kernel<C, 4>` (fft.hpp:34-47) -/
noncomputable def kernel4 (o : Nat) (d : Buf) : Buf :=
  let a := d o
  let b := d (o + 1)
  let c := d (o + 2) * (1 : ℂ)
  let e := d (o + 3) * (⟨0, -1⟩ : ℂ)
  put (put (put (put d o (a + c)) (o + 1) (b + e)) (o + 2) (a - c)) (o + 3) (b - e)

/-- `inv_sqrt2` (fft.hpp:49) -/
noncomputable def invSqrt2 : ℝ := 1 / √2

/-- `fft_stage_kernel<C, 8>` (fft.hpp:48-75) -/
noncomputable def kernel8 (o : Nat) (d : Buf) : Buf :=
  let a0 := d o
  let a1 := d (o + 1)
  let a2 := d (o + 2)
  let a3 := d (o + 3)
  let b0 := d (o + 4) * (1 : ℂ)
  let b1 := d (o + 5) * (⟨invSqrt2, -invSqrt2⟩ : ℂ)
  let b2 := d (o + 6) * (⟨0, -1⟩ : ℂ)
  let b3 := d (o + 7) * (⟨-invSqrt2, -invSqrt2⟩ : ℂ)
  let d := put (put (put (put d o (a0 + b0)) (o + 1) (a1 + b1)) (o + 2) (a2 + b2)) (o + 3) (a3 + b3)
  put (put (put (put d (o + 4) (a0 - b0)) (o + 5) (a1 - b1)) (o + 6) (a2 - b2)) (o + 7) (a3 - b3)

/-- One round of the loop of the generic `fft_stage_kernel` (fft.hpp:77-81) -/
def kernelStep (o half : Nat) (tw : Buf) (j : Nat) (d : Buf) : Buf :=
  let temp := d (o + j + half) * tw j
  let d := put d (o + j + half) (d (o + j) - temp)
  put d (o + j) (d (o + j) + temp)

/-- The generic `fft_stage_kernel` (fft.hpp:76-81) -/
def kernel (o half : Nat) (tw : Buf) (d : Buf) : Buf := loop (kernelStep o half tw) d half

/-- `stageTwiddles` for blocks of `size` (fft.hpp:383-406, not inverse): the entry `j` -/
noncomputable def twiddle (size : Nat) : Buf := fun j =>
  let w := Complex.exp (⟨0, (-2) * Real.pi / size⟩ : ℂ)
  if size = 2 then 1
  else if size = 8 then
    match j with
    | 0 => 1
    | 1 => ⟨√(1 / 2), -√(1 / 2)⟩
    | 2 => ⟨0, -1⟩
    | _ => ⟨-√(1 / 2), -√(1 / 2)⟩
  else loop (fun _ wk => wk * w) 1 j

/-- The body of the loop over the blocks of a stage: the choice of the kernel (fft.hpp:333-345) -/
noncomputable def block (size o : Nat) (d : Buf) : Buf :=
  if size = 2 then kernel2 o d
  else if size = 4 then kernel4 o d
  else if size = 8 then kernel8 o d
  else kernel o (size / 2) (twiddle size) d

/-- One stage: `for (i = 0; i < N; i += size)` (fft.hpp:330-346) -/
noncomputable def stage (N size : Nat) (d : Buf) : Buf := loop (fun q d => block size (q * size) d) d ((N + size - 1) / size)

/-- `for (stage = 0, size = 2; stage < nStages; size *= 2, ++stage)` (fft.hpp:326-347): the stage number `s` has blocks of `2 * 2 ^ s` -/
noncomputable def stages (N : Nat) (d : Buf) : Nat → Buf := loop (fun s d => stage N (2 * 2 ^ s) d) d

/-- One round of the permutation loop: `if (j > i) std::swap(inPlace[i], inPlace[j])` (fft.hpp:322-327) -/
def swapStep (N i : Nat) (d : Buf) : Buf :=
  let j := bitReverse N i
  if j > i then put (put d i (d j)) j (d i) else d

/-- `transformRadix2` (fft.hpp:316-347) for a size that is a power of two (otherwise it throws; `compute` does not call it then) -/
noncomputable def radix2 (N : Nat) (x : Buf) : Buf := stages N (loop (swapStep N) x N) (ctz N)

/-- Number of lanes of a vector, `SimdFFT::simdSize()` (SimdFFT.hpp:283, 339) -/
def lanes : Nat := 4

/-- `SimdFFT::minSize()` (SimdFFT.hpp:340-347) -/
def minSize (real : Bool) : Nat := if real then 2 * lanes * lanes else lanes * lanes

/-- `while (R >= f * N_min && R % f == 0) R /= f;` (SimdFFT.hpp:364-372) -/
def reduce (f nMin R : Nat) : Nat := if 2 ≤ f ∧ 0 < R ∧ f * nMin ≤ R ∧ R % f = 0 then reduce f nMin (R / f) else R
termination_by R
decreasing_by exact Nat.div_lt_self (by omega) (by omega)

/-- `SimdFFT::canProcessSize(n, Order::Ordered)` (SimdFFT.hpp:348-375) -/
def canProcessSize (real : Bool) (n : Nat) : Bool :=
  if n < minSize real then false
  else if real && n % (2 * lanes * lanes) != 0 then false
  else reduce 2 (minSize real) (reduce 3 (minSize real) (reduce 5 (minSize real) n)) == minSize real

/-- The vectorised transforms, as far as `FFT` uses them: complex input in order; real input to the packed form
`[DC, Nyquist, re1, im1, re2, im2, …]` -/
structure Simd where
  c2c : Nat → Buf → Buf
  r2c : Nat → (Nat → ℝ) → (Nat → ℝ)

/-- `compute` of an object for complex numbers, at a size which is a power of two (fft.hpp:113-153); the objects inside the Bluestein
transform always have `useSimdFFT` -/
noncomputable def computePow2 (v : Simd) (useSimd : Bool) (N : Nat) (x : Buf) : Buf :=
  if useSimd && canProcessSize false N then v.c2c N x else radix2 N x

/-- `bluesteinExpTable[i]` (fft.hpp:408-414, not inverse) -/
noncomputable def chirp (n i : Nat) : ℂ :=
  let tmp := i * i % (2 * n)
  let angle : ℝ := 1 * Real.pi * tmp / n
  ⟨1 * Real.cos angle, 1 * Real.sin angle⟩

/-- The buffer `b` of `precomputeBluesteinTable` (fft.hpp:416-421): `b[0] = t[0]`, then `b[i] = b[m - i] = conj(t[i])` for `1 ≤ i < n` -/
noncomputable def chirpBuf (n m : Nat) : Buf :=
  loop (fun i b => put (put b (m - (i + 1)) (starRingEnd ℂ (chirp n (i + 1)))) (i + 1) (starRingEnd ℂ (chirp n (i + 1))))
    (put (fun _ => 0) 0 (chirp n 0)) (n - 1)

/-- `transformBluestein` (fft.hpp:353-381) with the spectrum of the chirp from `precomputeBluesteinTable` (fft.hpp:423-424) -/
noncomputable def bluestein (v : Simd) (n : Nat) (x : Buf) : Buf :=
  let m := bitCeil (2 * n + 1)
  let chirpFFT := computePow2 v true m (chirpBuf n m)
  let a : Buf := fun i => if i < n then x i * chirp n i else 0
  let aC := computePow2 v true m a
  let aC : Buf := fun p => aC p * chirpFFT p
  let bC := computePow2 v true m aC
  let scale : ℝ := 1 / m
  fun p => if p < n then bC p * scale * chirp n p else x p

/-- `compute` of an `FFT` for complex input (fft.hpp:113-153) -/
noncomputable def computeC (v : Simd) (useSimd : Bool) (N : Nat) (x : Buf) : Buf :=
  if useSimd && canProcessSize false N then v.c2c N x
  else if hasSingleBit N then radix2 N x
  else bluestein v N x

/-- The unpacking at the end of `trySimdFFT_R2C` (fft.hpp:245-256) -/
noncomputable def unpack (N : Nat) (p : Nat → ℝ) (out : Buf) : Buf :=
  let out := put out 0 ⟨p 0, 0⟩
  let out := loop (fun i o => put o (i + 1) ⟨p (2 * (i + 1)), p (2 * (i + 1) + 1)⟩) out (N / 2 - 1)
  let out := put out (N / 2) ⟨p 1, 0⟩
  loop (fun i o => put o (N / 2 + 1 + i) ⟨p (2 * (N - (N / 2 + 1 + i))), -p (2 * (N - (N / 2 + 1 + i)) + 1)⟩) out (N - (N / 2 + 1))

/-- `compute` of an `FFT` for real input (fft.hpp:113-153, 214-259); `out` is the buffer of the caller -/
noncomputable def computeR (v : Simd) (useSimd : Bool) (N : Nat) (x : Nat → ℝ) (out : Buf) : Buf :=
  if useSimd && canProcessSize true N then unpack N (v.r2c N x) out
  else if hasSingleBit N then radix2 N (fun i => ⟨x i, 0⟩)
  else bluestein v N (fun i => ⟨x i, 0⟩)

end Verif.Fft
