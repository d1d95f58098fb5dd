import Mathlib.Analysis.SpecialFunctions.Trigonometric.Inverse
import Mathlib.Analysis.SpecialFunctions.Pow.NNReal

/-!
# Electrical power blocks

Model of `/repo/blocks/electrical/include/gnuradio-4.0/electrical/PowerEstimators.hpp`.  Samples are real numbers
instead of `float`/`double`; the square root of a negative number is "not a number", represented by `none`.  The
high-pass and low-pass filters (designed in lines 63-93, modelled in `Verif.Filter`) are arbitrary state machines here.
Uncertain values are not modelled.
-/

namespace Verif.Power

/-- A filter: its state and what `processOne` does with a sample. -/
structure Flt (σ : Type) where
  step : σ → ℝ → σ × ℝ

/-- `math::sqrt`: not a number for negative arguments. -/
noncomputable def sqrtF (x : ℝ) : Option ℝ := if x < 0 then none else some (Real.sqrt x)

/-- What is written for one phase, PowerEstimators.hpp:119-124. -/
structure Row where
  P : ℝ
  Q : Option ℝ
  S : Option ℝ
  Urms : Option ℝ
  Irms : Option ℝ

/-- PowerEstimators.hpp:113-124: the quantities for the three averages.  Products with "not a number" are "not a
number", and `std::max(a, 0)` returns `a` if `a` is not a number. -/
noncomputable def row (p u2 i2 : ℝ) : Row :=
  let urms := sqrtF u2
  let irms := sqrtF i2
  let s := urms.bind fun u => irms.map fun i => u * i
  let q := s.bind fun s => sqrtF (max (s * s - p * p) 0)
  { P := p, Q := q, S := s, Urms := urms, Irms := irms }

/-- The five filters of one phase, PowerEstimators.hpp:56-61. -/
structure Filters (σ : Type) where
  hpU : σ
  hpI : σ
  lpU : σ
  lpI : σ
  lpP : σ

/-- One pass of the sample loop, PowerEstimators.hpp:103-109: the filters after it and the three averages. -/
def sample {σ : Type} (hp lp : Flt σ) (f : Filters σ) (u i : ℝ) : Filters σ × ℝ × ℝ × ℝ :=
  let a := hp.step f.hpU u
  let b := hp.step f.hpI i
  let p := lp.step f.lpP (a.2 * b.2)
  let u2 := lp.step f.lpU (a.2 * a.2)
  let i2 := lp.step f.lpI (b.2 * b.2)
  ({ hpU := a.1, hpI := b.1, lpU := u2.1, lpI := i2.1, lpP := p.1 }, p.2, u2.2, i2.2)

/-- The loop over the samples of one call for one phase, PowerEstimators.hpp:102-126, from sample number `i` of the
call on: a row for every sample whose number is a multiple of the decimation factor. -/
noncomputable def loop {σ : Type} (hp lp : Flt σ) (decimate : Nat) :
    Nat → Filters σ → List (ℝ × ℝ) → Filters σ × List Row
  | _, f, [] => (f, [])
  | i, f, (u, c) :: rest =>
    let r := sample hp lp f u c
    let t := loop hp lp decimate (i + 1) r.1 rest
    (t.1, if i % decimate = 0 then row r.2.1 r.2.2.1 r.2.2.2 :: t.2 else t.2)

/-- `PowerMetrics::processBulk` for one phase, PowerEstimators.hpp:98-130. -/
noncomputable def metrics {σ : Type} (hp lp : Flt σ) (decimate : Nat) (f : Filters σ) (xs : List (ℝ × ℝ)) :
    Filters σ × List Row := loop hp lp decimate 0 f xs

/-- `PowerFactor::processBulk`, PowerEstimators.hpp:167-176, for one sample of one phase: the power factor and the
phase angle. -/
noncomputable def powerFactor (p s : ℝ) : ℝ × ℝ :=
  let c := if s ≠ 0 then p / s else 0
  let c := if c < -1 then -1 else if 1 < c then 1 else c
  (c, Real.arccos c)

/-- `std::accumulate` from 0, divided by the number of phases, PowerEstimators.hpp:233 and 242. -/
noncomputable def average (xs : List ℝ) : ℝ := xs.foldl (· + ·) 0 / xs.length

/-- The greatest deviation with `std::transform_reduce`, PowerEstimators.hpp:234-237. -/
noncomputable def deviationReduce (avg : ℝ) (xs : List ℝ) : ℝ := xs.foldl (fun m x => max m |x - avg|) 0

/-- `std::max_element` with the comparison of lines 243-244: the first element no later one exceeds. -/
noncomputable def maxElement (avg : ℝ) : ℝ → List ℝ → ℝ
  | best, [] => best
  | best, x :: xs => maxElement avg (if |best - avg| < |x - avg| then x else best) xs

/-- The greatest deviation with `std::max_element`, PowerEstimators.hpp:243-245. -/
noncomputable def deviationMax (avg : ℝ) (xs : List ℝ) : ℝ :=
  match xs with
  | [] => 0
  | x :: xs => |maxElement avg x xs - avg|

/-- PowerEstimators.hpp:233-239. -/
noncomputable def voltageUnbalance (xs : List ℝ) : ℝ :=
  let avg := average xs
  if 0 < avg then (deviationReduce avg xs / avg) * 100 else 0

/-- PowerEstimators.hpp:242-247. -/
noncomputable def currentUnbalance (xs : List ℝ) : ℝ :=
  let avg := average xs
  if 0 < avg then (deviationMax avg xs / avg) * 100 else 0

/-- `SystemUnbalance::processBulk`, PowerEstimators.hpp:221-253, for one sample of all phases: total power, voltage
and current unbalance. -/
noncomputable def unbalance (us cs ps : List ℝ) : ℝ × ℝ × ℝ :=
  (ps.foldl (· + ·) 0, voltageUnbalance us, currentUnbalance cs)

end Verif.Power
