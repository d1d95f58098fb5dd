import Verif.Tone.Model
/-!
# The function generator

Model of `blocks/basic/include/gnuradio-4.0/basic/FunctionGenerator.hpp` for real samples before their conversion to the output type.
Numbers are exact rationals; a division by zero, which gives an infinity or no number, is `none`. How many samples a call makes is the
matter of `Verif.Clock`; tags are not modelled beyond the settings they carry.
-/
namespace Verif.Func

/-- `SignalType` — FunctionGenerator.hpp:21 -/
inductive Sig where
  | const
  | linear
  | parabolic
  | spline
  | impulse
  | noise (t : Verif.Rng.Noise)
  | sin
  | cos
  | fastSin
  | fastCos
deriving DecidableEq, Repr

/-- `toToneType` and `isToneType` — FunctionGenerator.hpp:28-38 -/
def Sig.tone? : Sig → Option Verif.Tone.Kind
  | .sin => some .sin
  | .cos => some .cos
  | .fastSin => some .fastSin
  | .fastCos => some .fastCos
  | _ => none

/-- The settings which say what is generated — FunctionGenerator.hpp:157-166, 173 -/
structure Shape where
  type : Sig := .const
  start : Rat := 0
  final : Rat := 0
  duration : Rat := 0
  roundOff : Rat := 0
  impulse0 : Rat := 0
  impulse1 : Rat := 0
  frequency : Rat := 0
  phase : Rat := 0
  seed : BitVec 64 := 0
deriving DecidableEq

/-- A division of floating point numbers, as far as it gives a number. -/
def quot (a b : Rat) : Option Rat := if b = 0 then none else some (a / b)

/-- `LinearRamp` — FunctionGenerator.hpp:286 -/
def linear (s : Shape) (t : Rat) : Option Rat :=
  if s.duration < t then some s.final else do
    let q ← quot t s.duration
    return s.start + (s.final - s.start) * q

/-- `calculateParabolicRamp` — FunctionGenerator.hpp:314-336 -/
def parabolic (s : Shape) (t : Rat) : Option Rat :=
  let length := s.duration - 2 * s.roundOff
  let a := quot (s.final - s.start) (2 * s.roundOff * (length + s.roundOff))
  -- 325-327
  if s.duration < t then some s.final
  -- 328-330
  else if t < s.roundOff then do
    let a ← a
    return s.start + a * t * t
  else do
    let a ← a
    let ar2 := a * s.roundOff * s.roundOff
    let slope ← quot (s.final - s.start - 2 * ar2) length
    -- 331-333
    if t < s.duration - s.roundOff then return s.start + ar2 + slope * (t - s.roundOff)
    else
      -- 334-335
      let x := t - (s.duration - s.roundOff)
      return s.final - ar2 + slope * x - a * x * x

/-- `CubicSpline` — FunctionGenerator.hpp:288-294 -/
def spline (s : Shape) (t : Rat) : Option Rat :=
  if s.duration < t then some s.final else do
    let q ← quot t s.duration
    let t2 := 3 * q * q
    let t3 := 2 * q * q * q
    return (t3 - t2 + 1) * s.start + (-t3 + t2) * s.final

/-- `ImpulseResponse` — FunctionGenerator.hpp:295-300 -/
def impulse (s : Shape) (t : Rat) : Rat := if t < s.impulse0 ∨ s.impulse0 + s.impulse1 < t then s.start else s.final

/-- The generator — FunctionGenerator.hpp:153-183; `trigger` is `signal_trigger`. -/
structure Gen where
  shape : Shape := {}
  rate : Rat := 1000
  trigger : String := ""
  time : Rat := 0
  tick : Rat := 1 / 1000
  noise : Verif.Rng.Gen := {}
  tone : Verif.Tone.Tone Rat := Verif.Tone.Tone.new

/-- `configureGeneratorsFromSettings` — FunctionGenerator.hpp:338-348 -/
def Gen.configure (A : Verif.Tone.Arith Rat) (g : Gen) : Gen :=
  match g.shape.type with
  | .noise t => { g with noise := g.noise.configure t g.shape.start 0 g.shape.seed }
  | ty =>
    match ty.tone? with
    | some k =>
      { g with tone := (g.tone.configure A k g.shape.frequency g.rate g.shape.phase g.shape.final g.shape.start).reset A }
    | none => g

/-- `start` — FunctionGenerator.hpp:185-190 -/
def Gen.begin (A : Verif.Tone.Arith Rat) (g : Gen) : Gen := ({ g with time := 0, tick := 1 / g.rate } : Gen).configure A

/-- `generateSample` before the conversion — FunctionGenerator.hpp:242-311. -/
def Gen.sample (A : Verif.Tone.Arith Rat) (e : Verif.Rng.Env) (g : Gen) : Option (Rat × Gen) :=
  let later : Gen := { g with time := g.time + g.tick }
  match g.shape.type with
  -- 246-255
  | .noise _ =>
    match g.noise.sample e with
    | none => none
    | some (x, n) => some (x, { later with noise := n })
  | .const => some (g.shape.start, later)
  | .linear => (linear g.shape g.time).map (·, later)
  | .parabolic => (parabolic g.shape g.time).map (·, later)
  | .spline => (spline g.shape g.time).map (·, later)
  | .impulse => some (impulse g.shape g.time, later)
  | _ =>
    -- 257-277
    if 0 < g.shape.duration ∧ g.shape.duration < g.time then some (g.shape.start, later)
    else
      let r := g.tone.sample A
      some (r.1, { later with tone := r.2 })

/-- What a change of settings brings: the settings afterwards, whether the type was among them, and the name of a trigger if there
was one. -/
structure Change where
  shape : Shape
  rate : Rat
  trigger : String
  hasType : Bool
  name : Option String := none

/-- The settings assigned, then `settingsChanged` — FunctionGenerator.hpp:194-223; the old settings are all there. -/
def Gen.change (A : Verif.Tone.Arith Rat) (g : Gen) (c : Change) : Gen :=
  let old := g.shape
  let g := { g with shape := c.shape, rate := c.rate, trigger := c.trigger }
  let g : Gen :=
    if c.hasType then
      -- 196-197
      if g.trigger = "" then { g with time := 0 }
      else
        match c.name with
        | none => g
        -- 200-218
        | some name => if name = g.trigger then { g with time := 0 } else { g with shape := old }
    else g
  ({ g with tick := 1 / g.rate } : Gen).configure A

end Verif.Func
