import Verif.Taper.Model
/-! # What a burst taper is for -/
namespace Verif.Taper.Spec
open Verif.Taper

variable {α : Type} [Lean.Grind.CommRing α]

mutual
/-- What may come out from when the envelope is 0: zeros, then a whole rise, unless the observation ends in it. -/
inductive FromOff (rise fall : List α) : List α → Prop where
  | stop : FromOff rise fall []
  | zero {e : List α} : FromOff rise fall e → FromOff rise fall (0 :: e)
  | part {p : List α} : p <+: rise → FromOff rise fall p
  | ramp {e : List α} : FromOn rise fall e → FromOff rise fall (rise ++ e)

/-- What may come out from when the envelope is 1: ones, then a whole fall, unless the observation ends in it. -/
inductive FromOn (rise fall : List α) : List α → Prop where
  | stop : FromOn rise fall []
  | one {e : List α} : FromOn rise fall e → FromOn rise fall (1 :: e)
  | part {p : List α} : p <+: fall → FromOn rise fall p
  | ramp {e : List α} : FromOff rise fall e → FromOn rise fall (fall ++ e)
end

/-- A sensible configuration: both ramps are equally long. -/
def Even (t : Taper α) : Prop := t.fall.length = t.rise.length

/-- Calls that configure do so with ramps of equal length. -/
def EvenOp : Op α → Prop
  | .configure rise fall => fall.length = rise.length
  | _ => True

/-- The taper as constructed. -/
def fresh (rise fall : List α) : Taper α := ⟨.off, 0, false, rise, fall⟩

end Verif.Taper.Spec
