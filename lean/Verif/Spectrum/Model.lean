import Init.Data.Rat.Lemmas

/-!
# Spectra

Model of `/repo/algorithm/include/gnuradio-4.0/algorithm/fourier/fft_common.hpp` and of the data set made by the block in
`/repo/blocks/fourier/include/gnuradio-4.0/fourier/fft.hpp`.  Values are exact; the functions of the standard library are parameters.
-/

namespace Verif.Spectrum

/-- A complex number. -/
structure Cx where
  re : Rat
  im : Rat
deriving DecidableEq

/-- `std::hypot`, `std::log10`, `std::atan2`, π, and the lowest value of the type. -/
structure Std where
  hypot : Rat → Rat → Rat
  log10 : Rat → Rat
  atan2 : Rat → Rat → Rat
  pi : Rat
  lowest : Rat

/-- `std::ranges::rotate` with the middle at `h`. -/
def rotate {α : Type} (l : List α) (h : Nat) : List α := l.drop h ++ l.take h

/-- The value for one bin — fft_common.hpp:38-46 -/
def magnitude1 (s : Std) (inDb : Bool) (n : Nat) (c : Cx) : Rat :=
  let mag := s.hypot c.re c.im * 2 / n
  if inDb && decide (mag > 0) then 20 * s.log10 mag
  else if inDb then s.lowest
  else mag

/-- `computeMagnitudeSpectrum` — fft_common.hpp:22-58; `none` is the exception. -/
def magnitude (s : Std) (half inDb shift : Bool) (x : List Cx) : Option (List Rat) :=
  if x.length = 0 then none
  else
    let size := if half then x.length / 2 else x.length
    let mag := (x.take size).map (magnitude1 s inDb x.length)
    some (if !half && shift then rotate mag (mag.length / 2) else mag)

/-- The first loop of `unwrapPhase` for one value — fft_common.hpp:78-81, with a bound on the number of passes. -/
def down (pi prev : Rat) : Nat → Rat → Rat
  | 0, cur => cur
  | fuel + 1, cur => if cur - prev > pi then down pi prev fuel (cur - 2 * pi) else cur

/-- The second loop — fft_common.hpp:82-85 -/
def up (pi prev : Rat) : Nat → Rat → Rat
  | 0, cur => cur
  | fuel + 1, cur => if cur - prev < -pi then up pi prev fuel (cur + 2 * pi) else cur

/-- A number of passes that is enough (`down_done`, `up_done` in Lemmas.lean). -/
def passes (pi d : Rat) : Nat := (d / (2 * pi)).floor.toNat + 1

/-- One value of `unwrapPhase` — fft_common.hpp:76-88 -/
def unwrap1 (pi prev cur : Rat) : Rat :=
  let cur := down pi prev (passes pi (cur - prev)) cur
  up pi prev (passes pi (prev - cur)) cur

/-- The rest of the values, given the one before. -/
def unwrapRest (pi : Rat) : Rat → List Rat → List Rat
  | _, [] => []
  | prev, c :: cs => unwrap1 pi prev c :: unwrapRest pi (unwrap1 pi prev c) cs

/-- `unwrapPhase` — fft_common.hpp:73-89; `none` is the access to the first value of none. -/
def unwrapPhase (pi : Rat) : List Rat → Option (List Rat)
  | [] => none
  | p :: ps => some (p :: unwrapRest pi p ps)

/-- What `computePhaseSpectrum` yields: the phases, the exception, or undefined behaviour. -/
inductive Phase where
  | ok (p : List Rat)
  | throws
  | undefined
deriving DecidableEq

/-- `computePhaseSpectrum` — fft_common.hpp:93-124 -/
def phase (s : Std) (half inDeg unwrap shift : Bool) (x : List Cx) : Phase :=
  if x.length = 0 then .throws
  else
    let size := if half then x.length / 2 else x.length
    let raw := (x.take size).map fun c => s.atan2 c.im c.re
    match if unwrap then unwrapPhase s.pi raw else some raw with
    | none => .undefined
    | some p =>
      let p := if inDeg then p.map fun v => v * 180 * (1 / s.pi) else p
      .ok (if !half && shift then rotate p (p.length / 2) else p)

/-- What the data set has for a user: the frequencies and the four signals with their ranges. -/
structure Set where
  axis : List Rat
  mag : List Rat
  phase : List Rat
  re : List Rat
  im : List Rat
  ranges : List (Rat × Rat)
deriving DecidableEq

/-- `std::minmax_element` with the values it points to; `none` if there are none, when the end is dereferenced. -/
def minmax : List Rat → Option (Rat × Rat)
  | [] => none
  | v :: vs => some (vs.foldl (fun m x => (if x < m.1 then x else m.1, if x < m.2 then m.2 else x)) (v, v))

/-- The settings of the block — blocks fft.hpp:105-110 -/
structure Cfg where
  fftSize : Nat
  inDb : Bool
  inDeg : Bool
  unwrap : Bool
  sampleRate : Rat
deriving DecidableEq

/-- `createDataset` — blocks fft.hpp:173-250: `cplx` is the kind of the input, `x` the transform. -/
def createDataset (c : Cfg) (cplx : Bool) (x : List Cx) (mag ph : List Rat) : Option Set :=
  let n := mag.length
  let width := c.sampleRate / c.fftSize
  let axis := (List.range n).map fun (i : Nat) => if cplx then (i : Rat) * width - ((n / 2 : Nat) : Rat) * width else (i : Rat) * width
  let part := if cplx then x else x.drop (x.length - n)
  let re := part.map (·.re)
  let im := part.map (·.im)
  match minmax mag, minmax ph, minmax re, minmax im with
  | some a, some b, some d, some e => some ⟨axis, mag, ph, re, im, [a, b, d, e]⟩
  | _, _, _, _ => none

/-- `processBulk` — blocks fft.hpp:147-171, after the window: `fft` is the transform. `none` is undefined behaviour or an exception. -/
def process (s : Std) (fft : List Cx → List Cx) (c : Cfg) (cplx : Bool) (input : List Cx) (window : List Rat) : Option Set :=
  let x := fft (List.zipWith (fun v w => ⟨v.re * w, v.im * w⟩) input window)
  match magnitude s (!cplx) c.inDb true x, phase s (!cplx) c.inDeg c.unwrap true x with
  | some mag, .ok ph => createDataset c cplx x mag ph
  | _, _ => none

end Verif.Spectrum
