/-!
# Elementary blocks

Counting sources, head and counting sinks (`NullSources.hpp`), delay (`Delay.hpp`), arithmetic with a constant and with several
inputs (`Math.hpp`), type conversion (`ConverterBlocks.hpp`) and rotation of complex samples (`Rotator.hpp`).

Paths: `blocks/testing/include/gnuradio-4.0/testing/NullSources.hpp`, `.../Delay.hpp`,
`blocks/math/include/gnuradio-4.0/math/Math.hpp`, `.../Rotator.hpp`,
`blocks/basic/include/gnuradio-4.0/basic/ConverterBlocks.hpp`, `core/include/gnuradio-4.0/Block.hpp`.
-/

namespace Verif.Basic

/-! ## sample by sample processing -/

/-- what `processOne` did with a sample: the block's new members, the output sample and whether it called `requestStop()`. -/
structure One (σ β : Type) where
  state : σ
  out : β
  stop : Bool
  deriving DecidableEq, Repr

/-- `invokeProcessOneNonConst` — Block.hpp:1723-1761: one call per sample, leaving the loop after the sample during which the
block started to shut down. The result is the members, the samples written and whether the block is shutting down. Tags
published by `processOne` are not part of this model. -/
def runOne {σ α β : Type} (step : σ → α → One σ β) : σ → List α → σ × List β × Bool
  | s, [] => (s, [], false)
  | s, x :: xs =>
    let r := step s x
    if r.stop then (r.state, [r.out], true)
    else
      let t := runOne step r.state xs
      (t.1, r.out :: t.2.1, t.2.2)

/-- a running block: its members, all samples published, the number of samples consumed, and whether it stopped. -/
structure Run (σ β : Type) where
  state : σ
  out : List β
  consumed : Nat
  stopped : Bool
  deriving DecidableEq, Repr

/-- one `work` call which is offered `n` samples of `stream` (fewer if fewer are left): `dispatchProcessing` and `finaliseIO` —
Block.hpp:1906-1909, 1989-2026. A stopped block does nothing. When the block is shutting down the samples are published but
`processedIn` is set to zero, so nothing is consumed (1997-2002). -/
def call {σ α β : Type} (step : σ → α → One σ β) (stream : List α) (r : Run σ β) (n : Nat) : Run σ β :=
  if r.stopped then r
  else
    let t := runOne step r.state ((stream.drop r.consumed).take n)
    ⟨t.1, r.out ++ t.2.1, if t.2.2 then r.consumed else r.consumed + t.2.1.length, t.2.2⟩

/-- a sequence of `work` calls -/
def calls {σ α β : Type} (step : σ → α → One σ β) (stream : List α) (r : Run σ β) (ns : List Nat) : Run σ β :=
  ns.foldl (call step stream) r

/-- `count` and `n_samples_max` (`gr::Size_t`, 32 bit) — NullSources.hpp:48-49, 106-107, 168-169, 207-208 -/
structure Counter where
  max : BitVec 32
  count : BitVec 32
  deriving DecidableEq, Repr

/-- `count++; if (n_samples_max > 0 && count >= n_samples_max) requestStop()` — NullSources.hpp:56-59, 114-117, 176-179 -/
def Counter.tick (c : Counter) : Counter × Bool :=
  let k := c.count + 1
  ({ c with count := k }, decide (0 < c.max) && decide (c.max ≤ k))

/-- `reset` — NullSources.hpp:53, 111, 173 -/
def Counter.reset (c : Counter) : Counter := { c with count := 0 }

/-- `HeadBlock::processOne` — NullSources.hpp:175-181 -/
def headStep {α : Type} (c : Counter) (x : α) : One Counter α := ⟨c.tick.1, x, c.tick.2⟩

/-- `ConstantSource::processOne` — NullSources.hpp:55-61. A source is called once for each free output sample. -/
def constantStep {α : Type} (value : α) (c : Counter) (_ : Unit) : One Counter α := ⟨c.tick.1, value, c.tick.2⟩

/-- `CountingSource::processOne` for an integer type of `w` bits — NullSources.hpp:113-122. The overload for vectors (124-137)
is not `const` and so is never chosen by `dispatchProcessing`, Block.hpp:1892. -/
def countingStep {w : Nat} (value : BitVec w) (c : Counter) (_ : Unit) : One Counter (BitVec w) :=
  ⟨c.tick.1, value + c.tick.1.count.setWidth w, c.tick.2⟩

/-- a source which is asked for `ns` samples, call by call: there is always room for the samples asked for. -/
def source {σ β : Type} (step : σ → Unit → One σ β) (s : σ) (ns : List Nat) : Run σ β :=
  calls step (List.replicate ns.sum ()) ⟨s, [], 0, false⟩ ns

/-- `CountingSinkImpl::processBulk` — NullSources.hpp:220-230: new count, number of samples consumed and whether it returned
`DONE`. `input.consume` refuses more than is offered, and then all samples of the call are consumed (Block.hpp:1864-1873). -/
def sinkCall (c : Counter) (avail : Nat) : Counter × Nat × Bool :=
  let n := BitVec.ofNat 32 avail
  if decide (0 < c.max) && decide (c.max ≤ c.count + n) then
    let k := (c.max - c.count).toNat
    ({ c with count := c.max }, if k ≤ avail then k else avail, true)
  else ({ c with count := c.count + n }, avail, false)

/-- calls of a counting sink, offered `ns` samples each: counter, samples consumed, whether it stopped. -/
def sinkCalls : Counter → List Nat → Counter × Nat × Bool
  | c, [] => (c, 0, false)
  | c, n :: ns =>
    let r := sinkCall c n
    if r.2.2 then r
    else
      let t := sinkCalls r.1 ns
      (t.1, r.2.1 + t.2.1, t.2.2)

/-! ## waiting -/

/-- `Delay` — Delay.hpp:19-24: milliseconds to wait, start time and whether it still waits (times in milliseconds). -/
structure Delay where
  delay : Nat
  start : Nat
  waiting : Bool
  deriving DecidableEq, Repr

/-- `start` — Delay.hpp:43-46 -/
def Delay.begin (delay now : Nat) : Delay := ⟨delay, now, true⟩

/-- `processBulk` — Delay.hpp:26-41: `now` is the time read, `inp` what is offered and `room` the free output samples; the result
is what is copied (and consumed). The steady clock never goes back, so `now - start` does not underflow. -/
def Delay.call {α : Type} (d : Delay) (now : Nat) (inp : List α) (room : Nat) : Delay × List α :=
  if d.waiting && decide (now - d.start < d.delay) then (d, [])
  else ({ d with waiting := false }, inp.take (min inp.length room))

/-- calls at times with the number of samples offered and free output samples: all that was copied. -/
def Delay.calls {α : Type} : Delay → List α → List (Nat × Nat × Nat) → List α
  | _, _, [] => []
  | d, stream, (now, offered, room) :: rest =>
    let r := d.call now (stream.take offered) room
    r.2 ++ Delay.calls r.1 (stream.drop r.2.length) rest

/-- `SlowSource::processBulk` — NullSources.hpp:81-92: `last` is the time of the last sample, the two clock readings of a call are
`now` and `now'` (nanoseconds, system clock), `delay` in nanoseconds. The result is the new `lastEventAt` and whether a sample was
published. -/
def slowCall (delay : Int) (last : Option Int) (now now' : Int) : Option Int × Bool :=
  match last with
  | none => (some now', true)
  | some t => if delay < now - t then (some now', true) else (some t, false)

/-- the times of the samples published by calls with the given pairs of clock readings -/
def slowTimes (delay : Int) : Option Int → List (Int × Int) → List Int
  | _, [] => []
  | last, (now, now') :: rest =>
    let r := slowCall delay last now now'
    if r.2 then now' :: slowTimes delay r.1 rest else slowTimes delay r.1 rest

/-! ## arithmetic -/

/-- `std::transform(sout.begin(), sout.end(), in.begin(), sout.begin(), op)` — Math.hpp:104; reading past the end of `in` is
undefined (`none`), as is an undefined operation. -/
def transform {α : Type} (op : α → α → Option α) : List α → List α → Option (List α)
  | [], _ => some []
  | _ :: _, [] => none
  | y :: ys, x :: xs => do
    let z ← op y x
    let zs ← transform op ys xs
    return z :: zs

/-- the loop over the further inputs — Math.hpp:103-105 -/
def combineRest {α : Type} (op : α → α → Option α) : List α → List (List α) → Option (List α)
  | sout, [] => some sout
  | sout, x :: xs => do
    let s ← transform op sout x
    combineRest op s xs

/-- `MathOpMultiPortImpl::processBulk` — Math.hpp:101-107. `ins[0]` of no inputs is undefined, and so is copying more samples than
the output has room for. -/
def combine {α : Type} (op : α → α → Option α) (ins : List (List α)) (sout : List α) : Option (List α) :=
  match ins with
  | [] => none
  | x :: xs => if sout.length < x.length then none else combineRest op (x ++ sout.drop x.length) xs

/-! ## conversion between integer types -/

/-- an integer type: whether it is signed and its number of bits -/
structure IntTy where
  signed : Bool
  bits : Nat
  deriving DecidableEq, Repr

/-- smallest and largest value -/
def IntTy.lo (t : IntTy) : Int := if t.signed then -(2 ^ (t.bits - 1) : Nat) else 0
def IntTy.hi (t : IntTy) : Int := if t.signed then (2 ^ (t.bits - 1) : Nat) - 1 else (2 ^ t.bits : Nat) - 1

/-- a value the type can hold -/
def IntTy.holds (t : IntTy) (x : Int) : Bool := decide (t.lo ≤ x) && decide (x ≤ t.hi)

/-- `static_cast` to an integer type: the value modulo two to the number of bits — ConverterBlocks.hpp:28, 30. -/
def IntTy.cast (t : IntTy) (x : Int) : Int := if t.signed then x.bmod (2 ^ t.bits) else x % ((2 ^ t.bits : Nat) : Int)

/-- the type in which arithmetic on `t` is done: everything narrower than `int` is promoted to `int`. -/
def IntTy.promoted (t : IntTy) : IntTy := if t.bits < 32 then ⟨true, 32⟩ else t

/-- an arithmetic result in a type: signed overflow is undefined -/
def IntTy.arith (t : IntTy) (x : Int) : Option Int := if t.signed then (if t.holds x then some x else none) else some (t.cast x)

/-- `std::plus<T>`, `std::minus<T>`, `std::multiplies<T>`, `std::divides<T>` on integers — Math.hpp:54, 104: computed in the
promoted type, converted back to `T`. -/
inductive Op
  | add | sub | mul | div
  deriving DecidableEq, Repr

def Op.exact (o : Op) (a b : Int) : Option Int :=
  match o with
  | .add => some (a + b)
  | .sub => some (a - b)
  | .mul => some (a * b)
  | .div => if b = 0 then none else some (a.tdiv b)

def Op.eval (o : Op) (t : IntTy) (a b : Int) : Option Int := do
  let x ← o.exact a b
  let y ← t.promoted.arith x
  return t.cast y

/-- `Convert::processOne`, one value at a time and as part of a vector — ConverterBlocks.hpp:25-32 -/
def convert (r : IntTy) (x : Int) : Int := r.cast x

/-- `ScalingConvert::processOne` for a single value: the product is formed in the promoted type — ConverterBlocks.hpp:56 -/
def scaleOne (t r : IntTy) (scale x : Int) : Option Int := do
  let p ← t.promoted.arith (x * scale)
  return r.cast p

/-- `ScalingConvert::processOne` for a lane of a vector: `input * scale` has the lanes' type `T` — ConverterBlocks.hpp:54. Signed
overflow in a lane wider than or as wide as `int` is undefined. -/
def scaleLane (t r : IntTy) (scale x : Int) : Option Int := do
  let p ← t.promoted.arith (x * scale)
  return r.cast (t.cast p)

/-- `Abs::processOne` — ConverterBlocks.hpp:73-80: an unsigned value is first converted to the signed type of the same size.
`std::abs` of the smallest `int` or wider type is undefined. -/
def absOne (t : IntTy) (x : Int) : Option Int := do
  let s : IntTy := ⟨true, t.bits⟩
  let v := if t.signed then x else s.cast x
  let a ← s.promoted.arith v.natAbs
  return t.cast a

/-! ## complex numbers -/

/-- `ComplexToInterleaved::processBulk` — ConverterBlocks.hpp:247-253; `c` converts a component. -/
def interleave {α β : Type} (c : α → β) : List (α × α) → List β
  | [] => []
  | z :: zs => c z.1 :: c z.2 :: interleave c zs

/-- `InterleavedToComplex::processBulk` — ConverterBlocks.hpp:271-276: `n` is the size of the output; reading past the input's end
is undefined. -/
def deinterleave {α β : Type} (c : α → β) : Nat → List α → Option (List (β × β))
  | 0, _ => some []
  | _ + 1, [] => none
  | _ + 1, [_] => none
  | n + 1, x :: y :: rest => do
    let t ← deinterleave c n rest
    return (c x, c y) :: t

/-- `ToRealImag::processOne` and `RealImagToComplex::processOne` — ConverterBlocks.hpp:175-177, 192-194 -/
def toRealImag {α : Type} (z : α × α) : α × α := (z.1, z.2)
def fromRealImag {α : Type} (re im : α) : α × α := (re, im)

/-! ## rotation -/

/-- `Rotator`: settings and the accumulated phase — Rotator.hpp:31-36. Numbers are exact here; `tau` stands for 2π. -/
structure Rotator where
  sampleRate : Rat
  shift : Rat
  increment : Rat
  initial : Rat
  phase : Rat

/-- new settings: those present are assigned before `settingsChanged` is called. -/
structure RotSettings where
  sampleRate : Option Rat := none
  shift : Option Rat := none
  increment : Option Rat := none
  initial : Option Rat := none

/-- settings applied, then `settingsChanged` — Rotator.hpp:40-49. Setting both the shift and the increment throws (`none`). -/
def Rotator.set (tau : Rat) (r : Rotator) (n : RotSettings) : Option Rotator :=
  let a : Rotator := { r with sampleRate := n.sampleRate.getD r.sampleRate, shift := n.shift.getD r.shift,
                              increment := n.increment.getD r.increment, initial := n.initial.getD r.initial }
  match n.shift, n.increment with
  | some _, none => some { a with increment := tau * (a.shift / a.sampleRate), phase := a.initial }
  | none, some _ => some { a with shift := a.increment / tau * a.sampleRate, phase := a.initial }
  | some _, some _ => none
  | none, none => some { a with phase := a.initial }

/-- `_accumulated_phase` after a sample — Rotator.hpp:52-58 -/
def nextPhase (tau inc phase : Rat) : Rat :=
  let p := phase + inc
  if tau < p then p - tau else if p < 0 then p + tau else p

/-- `processOne` — Rotator.hpp:51-61: the sample is turned by the new phase; `turn p x` is `x · (cos p + i sin p)`. -/
def rotStep {α : Type} (tau : Rat) (turn : Rat → α → α) (r : Rotator) (x : α) : One Rotator α :=
  let p := nextPhase tau r.increment r.phase
  ⟨{ r with phase := p }, turn p x, false⟩

end Verif.Basic
