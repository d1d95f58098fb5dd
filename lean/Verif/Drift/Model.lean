/-!
# Clock drift

Model of `algorithm/include/gnuradio-4.0/algorithm/SampleRateEstimator.hpp`: the estimate of a sample rate from the times at which
chunks arrive, and the insertion and removal of frames which makes up for the drift of a clock. Numbers are exact rationals. A sample
is a rational too, and `toS` stands for the conversion of a computed value to the sample type (`toSample` or a cast).
-/
namespace Verif.Drift

/-! ## the estimated rate -/

/-- `SampleRateEstimator` — SampleRateEstimator.hpp:32-42. The low-pass filter is any state machine. -/
structure Est (σ : Type) where
  period : Rat := 0
  nominal : Rat := 0
  tPrev : Rat := 0
  initialised : Bool := false
  hasPrev : Bool := false
  filter : σ

/-- `reset` — SampleRateEstimator.hpp:44-55, 100-107. `mk p` is the filter designed anew and put to rest at the period `p`; `ppm` is
the initial deviation. The case of an update rate or cutoff that is not positive, which keeps the old filter, is not modelled. -/
def Est.reset {σ : Type} (mk : Rat → σ) (ppm nominal : Rat) : Est σ :=
  let p := if 0 < nominal then 1 / nominal else 0
  let p := if ppm ≠ 0 then p * (1 + ppm / 1000000) else p
  { period := p, nominal := nominal, filter := mk p }

/-- `resetPhase` — SampleRateEstimator.hpp:57-60 -/
def Est.resetPhase {σ : Type} (e : Est σ) : Est σ := { e with tPrev := 0, hasPrev := false }

/-- `update` — SampleRateEstimator.hpp:62-83; `F` is `processOne` of the filter. -/
def Est.update {σ : Type} (F : σ → Rat → Rat × σ) (e : Est σ) (t : Rat) (n : Nat) : Est σ :=
  if e.nominal ≤ 0 ∨ n = 0 then e
  else if e.hasPrev = false then { e with tPrev := t, hasPrev := true }
  else
    let dt := t - e.tPrev
    if dt ≤ 0 then { e with tPrev := t }
    else
      let r := F e.filter (dt / n)
      { e with tPrev := t, period := r.1, filter := r.2, initialised := true }

/-- `estimatedRate` — SampleRateEstimator.hpp:85-90 -/
def Est.rate {σ : Type} (e : Est σ) : Rat :=
  if e.initialised = false ∨ e.period ≤ 0 ∨ e.nominal ≤ 0 then e.nominal else 1 / e.period

/-- `estimatedPpm` — SampleRateEstimator.hpp:92-98 -/
def Est.ppm {σ : Type} (e : Est σ) : Rat :=
  if e.initialised = false ∨ e.period ≤ 0 ∨ e.nominal ≤ 0 then 0 else (1 / e.period - e.nominal) / e.nominal * 1000000

/-! ## making up for the drift -/

/-- `DriftCorrection` — SampleRateEstimator.hpp:124-129 -/
inductive Mode where
  | none
  | linear
  | cubic
  | adaptive
deriving DecidableEq, Repr

/-- `getSample` — SampleRateEstimator.hpp:234-242 -/
def getSample (data : List Rat) (frame ch chans : Nat) : Rat := data[frame * chans + ch]?.getD 0

/-- `cubicHermite` — SampleRateEstimator.hpp:253-259 -/
def hermite (y0 y1 y2 y3 t : Rat) : Rat :=
  let a := -(1 / 2) * y0 + 3 / 2 * y1 - 3 / 2 * y2 + 1 / 2 * y3
  let b := y0 - 5 / 2 * y1 + 2 * y2 - 1 / 2 * y3
  let c := -(1 / 2) * y0 + 1 / 2 * y2
  ((a * t + b) * t + c) * t + y1

/-- `interpolateAtSplice` — SampleRateEstimator.hpp:263-276 -/
def splice (toS : Rat → Rat) (mode : Mode) (data : List Rat) (n ch chans : Nat) (t : Rat) : Rat :=
  let frames := n / chans
  if mode = .cubic ∧ 2 ≤ frames then
    let y0 := if 3 ≤ frames then getSample data (frames - 3) ch chans else getSample data (frames - 2) ch chans
    let y1 := getSample data (frames - 2) ch chans
    let y2 := getSample data (frames - 1) ch chans
    toS (hermite y0 y1 y2 y2 t)
  else
    let prev := if 2 ≤ frames then getSample data (frames - 2) ch chans else 0
    let curr := if 1 ≤ frames then getSample data (frames - 1) ch chans else 0
    toS (prev + (curr - prev) * t)

/-- a loop `for (ch = 0; ch < k; ++ch) buf[base + ch] = f(ch)` where `f` reads the buffer; writing past the end is undefined
(`none`). -/
def writeLoop (base : Nat) (f : List Rat → Nat → Option Rat) (buf : List Rat) : Nat → Option (List Rat)
  | 0 => some buf
  | k + 1 => do
    let b ← writeLoop base f buf k
    let v ← f b k
    if base + k < b.length then some (b.set (base + k) v) else .none

/-- `std::clamp` to `±kMaxAccumulator` — SampleRateEstimator.hpp:141, 163, 199 -/
def clamp2 (x : Rat) : Rat := if x < -2 then -2 else if 2 < x then 2 else x

/-- The insertion or removal of a frame — SampleRateEstimator.hpp:161-184 and, after the copy, 197-221: the new accumulator, the
buffer and the number of samples. Reading past the end is undefined. -/
def adjust (toS : Rat → Rat) (mode : Mode) (acc : Rat) (buf : List Rat) (n : Nat) (ratio : Rat) (chans : Nat) :
    Option (Rat × List Rat × Nat) :=
  let acc := clamp2 (acc + (n / chans : Nat) * (ratio - 1))
  if 1 ≤ acc ∧ n + chans ≤ buf.length then do
    -- 165-172
    let b ← writeLoop n (fun b ch => some (splice toS mode b n ch chans (1 / 2))) buf chans
    return (acc - 1, b, n + chans)
  else if acc ≤ -1 ∧ 2 * chans ≤ n then do
    -- 174-182
    let b ← writeLoop (n - 2 * chans) (fun b ch => do
      let kept ← b[n - 2 * chans + ch]?
      let dropped ← b[n - chans + ch]?
      return toS (kept + (dropped - kept) * (1 / 2))) buf chans
    return (acc + 1, b, n - chans)
  else some (acc, buf, n)

/-- One channel of one frame of the resampled signal — SampleRateEstimator.hpp:300-312, 338-350: `step` input frames per output
frame. -/
def resampled (data : List Rat) (inFrames chans : Nat) (step : Rat) (frame ch : Nat) : Rat :=
  let pos := (frame : Rat) * step
  let i := pos.floor.toNat
  let y0 := if 1 ≤ i then getSample data (i - 1) ch chans else getSample data 0 ch chans
  let y1 := getSample data i ch chans
  let y2 := if i + 1 < inFrames then getSample data (i + 1) ch chans else y1
  let y3 := if i + 2 < inFrames then getSample data (i + 2) ch chans else y2
  hermite y0 y1 y2 y3 (pos - (i : Rat))

/-- `resampleInPlace` and `resampleSink` after the exact number of frames is known — SampleRateEstimator.hpp:288-318, 330-352.
`src` is what is read (the first copy of the buffer, since the source computes all of it before it writes), `none` says that the data
are left as they are. -/
def resample (toS : Rat → Rat) (src : List Rat) (room inFrames chans : Nat) (exact : Rat) : Option (List Rat) :=
  let outFrames := (exact + 1 / 2).floor.toNat
  if room < outFrames * chans ∨ outFrames = 0 then .none
  else
    let step := ((inFrames - 1 : Nat) : Rat) / (max 1 (outFrames - 1) : Nat)
    some ((List.range (outFrames * chans)).map fun i => toS (resampled src inFrames chans step (i / chans) (i % chans)))

/-- `compensateSource` — SampleRateEstimator.hpp:152-185, 280-319: accumulator, buffer and number of samples afterwards. -/
def source (toS : Rat → Rat) (mode : Mode) (acc : Rat) (buf : List Rat) (n : Nat) (est nom : Rat) (chans : Nat) :
    Option (Rat × List Rat × Nat) :=
  if mode = .none ∨ est ≤ 0 ∨ nom ≤ 0 ∨ n = 0 ∨ chans = 0 then some (acc, buf, n)
  else if mode = .adaptive then
    let ratio := est / nom
    if n / chans < 2 then some (acc, buf, n)
    else
      match resample toS buf buf.length (n / chans) chans ((n / chans : Nat) / ratio) with
      | .none => some (acc, buf, n)
      | some out => some (acc, out ++ buf.drop out.length, out.length)
  else adjust toS mode acc buf n (est / nom) chans

/-- `std::copy_n(input, n, adjusted)`: reading or writing past an end is undefined. SampleRateEstimator.hpp:189, 201, 325, 332 -/
def copyN (inp out : List Rat) (n : Nat) : Option (List Rat) :=
  if n ≤ inp.length ∧ n ≤ out.length then some (inp.take n ++ out.drop n) else .none

/-- `compensateSink` — SampleRateEstimator.hpp:187-222, 322-353 -/
def sink (toS : Rat → Rat) (mode : Mode) (acc : Rat) (inp out : List Rat) (n : Nat) (est nom : Rat) (chans : Nat) :
    Option (Rat × List Rat × Nat) :=
  if mode = .none ∨ est ≤ 0 ∨ nom ≤ 0 ∨ n = 0 ∨ chans = 0 then do
    let b ← copyN inp out n
    return (acc, b, n)
  else if mode = .adaptive then
    let ratio := nom / est
    if n / chans < 2 then do
      let b ← copyN inp out n
      return (acc, b, n)
    else
      match resample toS inp out.length (n / chans) chans ((n / chans : Nat) * ratio) with
      | .none => do
        let b ← copyN inp out n
        return (acc, b, n)
      | some r => some (acc, r ++ out.drop r.length, r.length)
  else do
    let b ← copyN inp out n
    adjust toS mode acc b n (nom / est) chans

end Verif.Drift
