import Verif.Conv.Model

/- What a value means, and which values a type has. -/
namespace Verif.Conv

/-- The type of a value. -/
def Val.ty : Val → Ty
  | .bool _ => .bool
  | .int s w _ => .int s w
  | .flt d _ => .flt d
  | .cpx d _ _ => .cpx d
  | .str _ => .str

/-- `n` (times 2 ^ -1074) is a number of the format `d`: a whole number of at most 24 (`float`) or 53 (`double`) binary
digits times a power of two, 2 ^ -149 at the least for `float`, not beyond the largest number. -/
def Rep (d : Bool) (n : Int) : Prop :=
  (∃ (m : Int) (k : Nat), (if d then 0 else 1074 - 149) ≤ k ∧ m.natAbs < 2 ^ (if d then 53 else 24) ∧ n = m * 2 ^ k) ∧
  n.natAbs ≤ if d then (2 ^ 53 - 1) * 2 ^ (971 + 1074) else (2 ^ 24 - 1) * 2 ^ (104 + 1074)

/-- A floating-point object of the format. -/
def Fl.Ok (d : Bool) : Fl → Prop
  | .fin n => Rep d n
  | _ => True

/-- The range of an integer type. -/
def InRange (s : Bool) (w : W) (x : Int) : Prop :=
  if s then -(2 ^ (w.bits - 1) : Nat) ≤ x ∧ x < (2 ^ (w.bits - 1) : Nat) else 0 ≤ x ∧ x < (2 ^ w.bits : Nat)

/-- A value of its type. -/
def Val.Ok : Val → Prop
  | .bool _ => True
  | .int s w x => InRange s w x
  | .flt d f => f.Ok d
  | .cpx d re im => re.Ok d ∧ im.Ok d
  | .str _ => True

/-- The number a value stands for, real and imaginary part in units of 2 ^ -1074; `false` is 0 and `true` is 1. -/
def Val.number : Val → Option (Int × Int)
  | .bool b => some (if b then 2 ^ 1074 else 0, 0)
  | .int _ _ x => some (x * 2 ^ 1074, 0)
  | .flt _ (.fin n) => some (n, 0)
  | .cpx _ (.fin a) (.fin b) => some (a, b)
  | _ => none

/-- The formats of numbers that lose digits when going from the first to the second. -/
def Rounds : Ty → Ty → Prop
  | .flt true, .flt false => True
  | .flt true, .cpx false => True
  | _, _ => False

/-- An unsigned number with the highest of 64 bits set, for a signed target. -/
def TooLarge : Val → Ty → Prop
  | .int false .w64 x, .int true _ => 2 ^ 63 ≤ x
  | _, _ => False

end Verif.Conv
