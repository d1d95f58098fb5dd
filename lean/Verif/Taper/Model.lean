/-!
# Burst taper

algorithm/include/gnuradio-4.0/algorithm/BurstTaper.hpp.  Samples and coefficients are elements of a commutative
ring: rounding, infinities and NaN are left out.
-/
namespace Verif.Taper

/-- `Phase` (BurstTaper.hpp:39). -/
inductive Phase where
  | off
  | up
  | on
  | down
deriving DecidableEq

/-- The members that change while running (BurstTaper.hpp:47-51). -/
structure Taper (α : Type) where
  phase : Phase
  pos : Nat
  target : Bool
  rise : List α
  fall : List α
deriving DecidableEq

variable {α : Type}

/-- `rampLength` (BurstTaper.hpp:142). -/
def Taper.len (t : Taper α) : Nat := t.rise.length

/-- `isRamping` (BurstTaper.hpp:141). -/
def Taper.ramping (t : Taper α) : Bool := t.phase == .up || t.phase == .down

/-- `remainingSamples` (BurstTaper.hpp:143). -/
def Taper.remaining (t : Taper α) : Nat := if t.ramping then t.len - min t.pos t.len else 0

/-- `reset` (BurstTaper.hpp:87-91). -/
def Taper.reset (t : Taper α) : Taper α := { t with phase := .off, pos := 0, target := false }

/-- `configure` (BurstTaper.hpp:78-84) with arguments that are accepted and the coefficients they give. -/
def Taper.configure (t : Taper α) (rise fall : List α) : Taper α := { t.reset with rise := rise, fall := fall }

/-- `startRamp` in `setTarget` (BurstTaper.hpp:95-102). -/
def Taper.startRamp (t : Taper α) (p : Phase) : Taper α :=
  if t.len = 0 then { t with phase := if p = .up then .on else .off } else { t with phase := p, pos := 0 }

/-- Turning round in a ramp, in `setTarget` (BurstTaper.hpp:119-121, 127-129). -/
def Taper.turn (t : Taper α) (p : Phase) : Taper α := { t with pos := t.len - min t.pos t.len, phase := p }

/-- `setTarget` (BurstTaper.hpp:93-135). -/
def Taper.setTarget (t : Taper α) (on force : Bool) : Taper α × Bool :=
  let t := { t with target := on }
  match t.phase with
  | .off => if on then (t.startRamp .up, true) else (t, false)
  | .on => if !on then (t.startRamp .down, true) else (t, false)
  | .up => if !on && force then (t.turn .down, true) else (t, !on)
  | .down => if on && force then (t.turn .up, true) else (t, on)

/-- `transitionAfterRamp` (BurstTaper.hpp:237-244). -/
def Taper.transition (t : Taper α) : Taper α :=
  { t with
    phase := if t.phase = .up then (if t.target then .on else .down) else (if t.target then .up else .off)
    pos := 0 }

variable [Lean.Grind.CommRing α]

/-- The ramps in `processOne` (BurstTaper.hpp:154-164) with the coefficients of the direction; reading outside of
them is no result. -/
def Taper.rampOne (t : Taper α) (coeffs : List α) : Option (α × Taper α) :=
  if t.len = 0 ∨ t.len ≤ t.pos then
    let t := t.transition
    some (if t.phase = .on then 1 else 0, t)
  else
    match coeffs[t.pos]? with
    | none => none
    | some v =>
      let t := { t with pos := t.pos + 1 }
      some (v, if t.len ≤ t.pos then t.transition else t)

/-- `processOne` (BurstTaper.hpp:148-168). -/
def Taper.one (t : Taper α) : Option (α × Taper α) :=
  match t.phase with
  | .off => some (0, t)
  | .on => some (1, t)
  | .up => t.rampOne t.rise
  | .down => t.rampOne t.fall

/-- `applyRamp` (BurstTaper.hpp:224-235) on the samples that are left: what it writes, which samples are left
then, and the state.  A position behind the end of the ramp, or a coefficient that is not there, is no result.
The zeros that it writes behind a finished ramp are written again by the next turn of the loop and are left out
here. -/
def Taper.applyRamp (t : Taper α) (xs coeffs : List α) : Option (List α × List α × Taper α) :=
  if t.len < t.pos then none
  else
    let count := min (t.len - t.pos) xs.length
    if coeffs.length < t.pos + count then none
    else
      let ys := List.zipWith (· * ·) (xs.take count) ((coeffs.drop t.pos).take count)
      let t := { t with pos := t.pos + count }
      some (ys, xs.drop count, if t.len ≤ t.pos then t.transition else t)

/-- The loop of `applyBulk` (BurstTaper.hpp:208-222); in place or not makes no difference to what is there in the
end.  The number bounds the turns. -/
def Taper.bulk : Nat → Taper α → List α → Option (List α × Taper α)
  | 0, _, _ => none
  | n + 1, t, xs =>
    if xs = [] then some ([], t)
    else
      match t.phase with
      | .off => some (xs.map fun _ => 0, t)
      | .on => some (xs, t)
      | .up =>
        match t.applyRamp xs t.rise with
        | none => none
        | some (ys, xs, t) => (Taper.bulk n t xs).map fun r => (ys ++ r.1, r.2)
      | .down =>
        match t.applyRamp xs t.fall with
        | none => none
        | some (ys, xs, t) => (Taper.bulk n t xs).map fun r => (ys ++ r.1, r.2)

/-- `applyTo` and `applyInPlace` (BurstTaper.hpp:170-172). -/
def Taper.apply (t : Taper α) (xs : List α) : Option (List α × Taper α) := t.bulk (2 * xs.length + 2) xs

/-! ## sequences of calls -/

/-- A call. -/
inductive Op (α : Type) where
  | set (on force : Bool)
  | one
  | apply (xs : List α)
  | reset
  | configure (rise fall : List α)

/-- The state after a call. -/
def Taper.op (t : Taper α) : Op α → Option (Taper α)
  | .set on force => some (t.setTarget on force).1
  | .one => t.one.map Prod.snd
  | .apply xs => (t.apply xs).map Prod.snd
  | .reset => some t.reset
  | .configure rise fall => some (t.configure rise fall)

/-- Calls one after the other. -/
def Taper.ops (t : Taper α) : List (Op α) → Option (Taper α)
  | [] => some t
  | o :: os => match t.op o with
    | none => none
    | some t => t.ops os

/-- The values of `processOne`, called some times in a row. -/
def Taper.values (t : Taper α) : Nat → Option (List α × Taper α)
  | 0 => some ([], t)
  | n + 1 => match t.one with
    | none => none
    | some (v, t) => (Taper.values t n).map fun r => (v :: r.1, r.2)

/-- Requests without force, each followed by some calls of `processOne`: all values. -/
def Taper.requests (t : Taper α) : List (Bool × Nat) → Option (List α × Taper α)
  | [] => some ([], t)
  | (on, n) :: rs => match (t.setTarget on false).1.values n with
    | none => none
    | some (vs, t) => (Taper.requests t rs).map fun r => (vs ++ r.1, r.2)

/-! ## edges -/

/-- `generateEdge` (BurstTaper.hpp:174-192) with exact arithmetic; `g` is `computeRise` of the type. -/
def edge (g : Rat → Rat) (n : Nat) (rising : Bool) : List Rat :=
  let nInv : Rat := if n > 1 then 1 / ((n - 1 : Nat) : Rat) else 1
  if rising then (List.range n).map fun (i : Nat) => g ((i : Rat) * nInv)
  else (List.range n).map fun (i : Nat) => g (1 - (i : Rat) * nInv)

/-- `generateTaper` into a vector (BurstTaper.hpp:194-205). -/
def taper (g : Rat → Rat) (nRise nFlat nFall : Nat) : List Rat :=
  edge g nRise true ++ List.replicate nFlat 1 ++ edge g nFall false

/-- `computeRise` for `None` (BurstTaper.hpp:259). -/
def riseNone (_ : Rat) : Rat := 1

/-- `computeRise` for `Linear` (BurstTaper.hpp:260). -/
def riseLinear (u : Rat) : Rat := u

/-- `computeRise` for `Mushroom` (BurstTaper.hpp:275-278). -/
def riseMushroom (u : Rat) : Rat :=
  let u2 := u * u
  u2 * (-12 + u * (28 - 15 * u))

end Verif.Taper
