import Verif.Rng.Model
/-!
# Tones and the signal generator

Model of /repo/algorithm/include/gnuradio-4.0/algorithm/signal/ToneGenerator.hpp, SignalGeneratorCore.hpp
in the same place and what /repo/blocks/basic/include/gnuradio-4.0/SignalGenerator.hpp does with them. The
numbers are those of any commutative ring with the functions that the code calls, so rounding is left out;
the rationals and the reals are instances. The sample counter does not wrap.
-/
namespace Verif.Tone
open Lean.Grind (CommRing)

attribute [local instance] Lean.Grind.Semiring.natCast

/-- What the code calls besides adding and multiplying. -/
structure Arith (α : Type) where
  sin : α → α
  cos : α → α
  twoPi : α
  div : α → α → α
  floor : α → α
  abs : α → α
  sqrt : α → α
  less : α → α → Bool

/-- `ToneType`. ToneGenerator.hpp:12 -/
inductive Kind where
  | const
  | sin
  | cos
  | square
  | saw
  | triangle
  | fastSin
  | fastCos
deriving DecidableEq, Repr

/-- `std::complex`. -/
structure Cx (α : Type) where
  re : α
  im : α
deriving DecidableEq, Repr

variable {α β : Type} [CommRing α]

/-- The product of complex numbers as the code writes it out. ToneGenerator.hpp:132, 140-143, 159-160, 227 -/
def Cx.mul (a b : Cx α) : Cx α := ⟨a.re * b.re - a.im * b.im, a.re * b.im + a.im * b.re⟩

/-- Division by the absolute value. ToneGenerator.hpp:149-154, 195-200, 229-230 -/
def Cx.unit (A : Arith α) (a : Cx α) : Cx α :=
  let inv := A.div 1 (A.sqrt (a.re * a.re + a.im * a.im))
  ⟨a.re * inv, a.im * inv⟩

/-- `ToneGenerator`. ToneGenerator.hpp:25-39 -/
structure Tone (α : Type) where
  kind : Kind
  frequency : α
  amplitude : α
  offset : α
  phase : α
  time : α
  tick : α
  omega : α
  phaseInCycles : α
  phasor : Cx α
  rotation : Cx α
  count : Nat
deriving DecidableEq

/-- A new generator. ToneGenerator.hpp:25-39 -/
def Tone.new : Tone α := ⟨.sin, 1, 1, 0, 0, 0, 0, 0, 0, ⟨1, 0⟩, ⟨1, 0⟩, 0⟩

/-- `initPhasor`. ToneGenerator.hpp:216-222 -/
def Tone.initPhasor (A : Arith α) (g : Tone α) : Tone α :=
  let dphi := A.twoPi * g.frequency * g.tick
  { g with rotation := ⟨A.cos dphi, A.sin dphi⟩, phasor := ⟨A.cos g.phase, A.sin g.phase⟩, count := 0 }

/-- `configure`; the time is kept. ToneGenerator.hpp:41-52 -/
def Tone.configure (A : Arith α) (kind : Kind) (frequency sampleRate phase amplitude offset : α) (g : Tone α) : Tone α :=
  Tone.initPhasor A
    { g with
      frequency := frequency
      amplitude := amplitude
      offset := offset
      phase := phase
      tick := A.div 1 sampleRate
      -- 48
      kind := if A.less 0 frequency = false ∧ kind ≠ .const then .const else kind
      omega := A.twoPi * frequency
      phaseInCycles := A.div phase A.twoPi }

/-- `reset`. ToneGenerator.hpp:54-57 -/
def Tone.reset (A : Arith α) (g : Tone α) : Tone α := Tone.initPhasor A { g with time := 0 }

/-- `Square` before scaling. ToneGenerator.hpp:245-248 -/
def square (A : Arith α) (cycle : α) : α := if A.less (cycle - A.floor cycle) (A.div 1 2) then 1 else -1

/-- `Saw` before scaling. ToneGenerator.hpp:249 -/
def saw (A : Arith α) (cycle : α) : α := 2 * (cycle - A.floor (cycle + A.div 1 2))

/-- `Triangle` before scaling. ToneGenerator.hpp:250-252 -/
def triangle (A : Arith α) (cycle : α) : α := 4 * A.abs (cycle - A.floor (cycle + A.div 3 4) + A.div 1 4) - 1

/-- `computeSample`. ToneGenerator.hpp:235-255 -/
def Tone.compute (A : Arith α) (g : Tone α) : α :=
  let theta := g.omega * g.time + g.phase
  let cycle := g.frequency * g.time + g.phaseInCycles
  match g.kind with
  | .sin => g.amplitude * A.sin theta + g.offset
  | .cos => g.amplitude * A.cos theta + g.offset
  | .fastSin => g.amplitude * g.phasor.im + g.offset
  | .fastCos => g.amplitude * g.phasor.re + g.offset
  | .const => g.amplitude + g.offset
  | .square => g.amplitude * square A cycle + g.offset
  | .saw => g.amplitude * saw A cycle + g.offset
  | .triangle => g.amplitude * triangle A cycle + g.offset

/-- `advanceState`. ToneGenerator.hpp:224-233 -/
def Tone.advance (A : Arith α) (g : Tone α) : Tone α :=
  let g := { g with time := g.time + g.tick }
  if g.kind = .fastSin ∨ g.kind = .fastCos then
    let p := g.phasor.mul g.rotation
    { g with phasor := if (g.count + 1) % 0x10000 = 0 then p.unit A else p, count := g.count + 1 }
  else g

/-- `generateSample`. ToneGenerator.hpp:59-63 -/
def Tone.sample (A : Arith α) (g : Tone α) : α × Tone α := (g.compute A, g.advance A)

/-- The loop over pairs of `fillPhasor` and `fillPhasorComplex`; `extract` is the scaled value. `k` pairs are
left, `p` are done. ToneGenerator.hpp:137-156, 181-202 -/
def pairs (A : Arith α) (rotation2 : Cx α) (extract : Cx α → β) : Nat → Nat → Cx α → Cx α → List β × Cx α
  | 0, _, a, _ => ([], a)
  | k + 1, p, a, b =>
    let a' := a.mul rotation2
    let b' := b.mul rotation2
    let (xs, e) :=
      if p % 0x8000 = 0x7FFF then pairs A rotation2 extract k (p + 1) (a'.unit A) (b'.unit A)
      else pairs A rotation2 extract k (p + 1) a' b'
    (extract a :: extract b :: xs, e)

/-- `fillPhasor` and `fillPhasorComplex`. ToneGenerator.hpp:123-167, 169-214 -/
def Tone.fillPhasor (A : Arith α) (extract : Cx α → β) (n : Nat) (g : Tone α) : List β × Tone α :=
  let r := g.rotation
  -- 131-133, 175-177
  let b := g.phasor.mul r
  let r2 : Cx α := ⟨r.re * r.re - r.im * r.im, 2 * r.re * r.im⟩
  let (xs, a) := pairs A r2 extract (n / 2) 0 g.phasor b
  -- 157-163, 203-210
  let (ys, a) := if n % 2 = 1 then ([extract a], a.mul r) else ([], a)
  -- 164-166, 211-213
  (xs ++ ys, { g with phasor := a, count := g.count + n, time := g.time + g.tick * (n : α) })

/-- The loop of `fill` and `fillComplex` for the other kinds. ToneGenerator.hpp:70-72, 115-117 -/
def Tone.each (f : Tone α → β × Tone α) : Nat → Tone α → List β × Tone α
  | 0, g => ([], g)
  | n + 1, g =>
    let (x, g) := f g
    let (xs, g) := Tone.each f n g
    (x :: xs, g)

/-- `fill`. ToneGenerator.hpp:65-75 -/
def Tone.fill (A : Arith α) (n : Nat) (g : Tone α) : List α × Tone α :=
  match g.kind with
  | .fastSin => g.fillPhasor A (fun p => g.amplitude * p.im + g.offset) n
  | .fastCos => g.fillPhasor A (fun p => g.amplitude * p.re + g.offset) n
  | _ => Tone.each (Tone.sample A) n g

/-- `generateComplexSample`. ToneGenerator.hpp:77-102 -/
def Tone.complexSample (A : Arith α) (g : Tone α) : Cx α × Tone α :=
  let theta := g.omega * g.time + g.phase
  let result : Cx α :=
    match g.kind with
    | .sin => ⟨g.amplitude * A.sin theta + g.offset, -g.amplitude * A.cos theta⟩
    | .cos => ⟨g.amplitude * A.cos theta + g.offset, g.amplitude * A.sin theta⟩
    | .fastSin => ⟨g.amplitude * g.phasor.im + g.offset, -g.amplitude * g.phasor.re⟩
    | .fastCos => ⟨g.amplitude * g.phasor.re + g.offset, g.amplitude * g.phasor.im⟩
    | _ => ⟨g.compute A, 0⟩
  (result, g.advance A)

/-- `fillComplex`. ToneGenerator.hpp:104-120 -/
def Tone.fillComplex (A : Arith α) (n : Nat) (g : Tone α) : List (Cx α) × Tone α :=
  match g.kind with
  | .fastSin => g.fillPhasor A (fun p => ⟨g.amplitude * p.im + g.offset, g.amplitude * -p.re⟩) n
  | .fastCos => g.fillPhasor A (fun p => ⟨g.amplitude * p.re + g.offset, g.amplitude * p.im⟩) n
  | _ => Tone.each (Tone.complexSample A) n g

/-! ## The generator of all signals -/

/-- `SignalType`; the numbering of the tones is that of `ToneType`. SignalGeneratorCore.hpp:16, 43-47 -/
inductive Signal where
  | tone (k : Kind)
  | noise (t : Verif.Rng.Noise)
deriving DecidableEq, Repr

/-- The conversion of a number to an integer that ignores its fraction. -/
def trunc (v : Rat) : Int := if v < 0 then v.ceil else v.floor

/-- `clampToInt` for an integer type from `lo` to `hi`; `hiF` is `hi` as a floating point number.
SignalGeneratorCore.hpp:49-60 -/
def clampToInt (lo hi : Int) (hiF : Rat) (v : Rat) : Int :=
  if hiF ≤ v then hi else if v ≤ lo then lo else trunc v

/-- `SignalGeneratorCore` for real numbers. SignalGeneratorCore.hpp:75-78 -/
structure Core where
  type : Signal
  tone : Tone Rat
  noise : Verif.Rng.Gen
  seed : BitVec 64
deriving DecidableEq

/-- `configure`. SignalGeneratorCore.hpp:80-88 -/
def Core.configure (A : Arith Rat) (type : Signal) (frequency sampleRate phase amplitude offset : Rat)
    (seed : BitVec 64) (c : Core) : Core :=
  let c := { c with type := type, seed := seed }
  match type with
  | .tone k => { c with tone := c.tone.configure A k frequency sampleRate phase amplitude offset }
  | .noise t => { c with noise := c.noise.configure t amplitude offset seed }

/-- `reset`. SignalGeneratorCore.hpp:90-93 -/
def Core.reset (A : Arith Rat) (c : Core) : Core :=
  { c with tone := c.tone.reset A, noise := c.noise.reset c.seed }

/-- `generateSample` before the conversion; `none` if no pair of random numbers was found.
SignalGeneratorCore.hpp:95-106 -/
def Core.sample (A : Arith Rat) (e : Verif.Rng.Env) (c : Core) : Option (Rat × Core) :=
  match c.type with
  | .tone _ =>
    let (x, t) := c.tone.sample A
    some (x, { c with tone := t })
  | .noise _ =>
    match c.noise.sample e with
    | none => none
    | some (x, n) => some (x, { c with noise := n })

end Verif.Tone
