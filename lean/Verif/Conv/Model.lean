/-
Model of the conversion of single values: PmtTypeHelpers.hpp:137-356 `convert_safely`, Settings.hpp:256-306
`convertParameter`.

Simplifications: the sign of a zero and the payload of a NaN are left out; enumerations, tensors and
maps as single values are left out.
-/
namespace Verif.Conv

/-- The widths of the integer types. -/
inductive W where
  | w8 | w16 | w32 | w64
deriving DecidableEq, Repr

def W.bits : W → Nat
  | .w8 => 8
  | .w16 => 16
  | .w32 => 32
  | .w64 => 64

/-- The types of single values (Value.hpp:31-40). `flt true` is `double`, `cpx true` is `std::complex<double>`. -/
inductive Ty where
  | bool
  | int (signed : Bool) (w : W)
  | flt (wide : Bool)
  | cpx (wide : Bool)
  | str
deriving DecidableEq, Repr

/-- Every finite `float` and `double` is a whole multiple of 2 ^ -1074, the smallest `double`; `one` is the
number 1 in this unit. -/
def one : Nat := 2 ^ 1074

/-- A `float` or `double`: `fin n` is the number n * 2 ^ -1074. -/
inductive Fl where
  | nan
  | inf (neg : Bool)
  | fin (n : Int)
deriving DecidableEq, Repr

inductive Val where
  | bool (b : Bool)
  | int (signed : Bool) (w : W) (x : Int)
  | flt (wide : Bool) (f : Fl)
  | cpx (wide : Bool) (re im : Fl)
  | str (s : String)
deriving DecidableEq, Repr

/-- Result of a conversion: a value, an error, or undefined behaviour. -/
inductive Out where
  | ok (v : Val)
  | refused
  | undefined
deriving DecidableEq, Repr

/-- `std::numeric_limits<T>::digits` of the integer types. -/
def digits (s : Bool) (w : W) : Nat := if s then w.bits - 1 else w.bits

/-- `std::numeric_limits<T>::lowest()` of the integer types. -/
def lowest (s : Bool) (w : W) : Int := if s then -(2 ^ (w.bits - 1) : Nat) else 0

/-- `std::numeric_limits<T>::max()` of the integer types. -/
def highest (s : Bool) (w : W) : Int := (2 ^ digits s w : Nat) - 1

/-- `static_cast` from an integer type to an integer type: modulo 2 ^ bits (C++20). -/
def wrap (s : Bool) (w : W) (x : Int) : Int :=
  let m := x % (2 ^ w.bits : Nat)
  if s ∧ (2 ^ (w.bits - 1) : Nat) ≤ m then m - (2 ^ w.bits : Nat) else m

/-- `std::numeric_limits<T>::digits` of `float` and `double`. -/
def prec (d : Bool) : Nat := if d then 53 else 24

/-- Exponent of the smallest positive number, in the unit of `one`. -/
def tiny (d : Bool) : Nat := if d then 0 else 925

/-- Exponent of the last digit of the largest number, in the unit of `one`. -/
def top (d : Bool) : Nat := if d then 2045 else 1178

/-- `std::numeric_limits<T>::max()` of `float` and `double`. -/
def maxFin (d : Bool) : Nat := (2 ^ prec d - 1) * 2 ^ top d

/-- `std::bit_width`. -/
def bitWidth (a : Nat) : Nat := if a = 0 then 0 else a.log2 + 1

/-- Rounding of a magnitude to `p` binary digits, at least `q` digits behind the last one being dropped; to the
nearest, ties to the even one. -/
def roundMag (p q a : Nat) : Nat :=
  let s := 2 ^ max q (bitWidth a - p)
  if 2 * (a % s) < s then a / s * s
  else if s < 2 * (a % s) then a / s * s + s
  else if a / s % 2 = 0 then a / s * s
  else a / s * s + s

/-- `static_cast` to `float` or `double` of a number, rounding to nearest as IEC 559 does. -/
def round (d : Bool) (n : Int) : Fl :=
  let m := roundMag (prec d) (tiny d) n.natAbs
  if maxFin d < m then .inf (decide (n < 0))
  else .fin (if n < 0 then -(m : Int) else m)

/-- PmtTypeHelpers.hpp:163-178: integer to integer. -/
def intToInt (s : Bool) (w : W) (x : Int) (t : Bool) (v : W) : Out :=
  if t = false ∧ s = true ∧ x < 0 then .refused
  else if digits s w ≤ digits t v then .ok (.int t v (wrap t v x))
  else if lowest t v ≤ wrap true .w64 x ∧ wrap true .w64 x ≤ highest t v then .ok (.int t v (wrap t v x))
  else .refused

/-- PmtTypeHelpers.hpp:163-178 with `bool` as target: one digit, 0 to 1, unsigned. -/
def intToBool (s : Bool) (x : Int) : Out :=
  if s = true ∧ x < 0 then .refused
  else if 0 ≤ wrap true .w64 x ∧ wrap true .w64 x ≤ 1 then .ok (.bool (decide (x ≠ 0)))
  else .refused

/-- PmtTypeHelpers.hpp:181-199: integer to floating point. `WideType` is `long long`, or the source type if that
has 64 bits. -/
def intToFlt (s : Bool) (w : W) (x : Int) (d : Bool) : Option Fl :=
  if digits s w ≤ prec d then some (round d (x * one))
  else
    if x = lowest (if w = .w64 then s else true) .w64 then none
    else if bitWidth x.natAbs ≤ prec d then some (round d (x * one))
    else none

/-- `static_cast` of a finite number to an integer type: the fraction is dropped; undefined if the rest does
not fit. -/
def truncTo (t : Bool) (v : W) (n : Int) : Out :=
  let x := n.tdiv one
  if lowest t v ≤ x ∧ x ≤ highest t v then .ok (.int t v x) else .undefined

/-- Is the first number below the second (`<` on floating-point numbers, no NaN involved)? -/
def Fl.below : Fl → Fl → Bool
  | .fin a, .fin b => decide (a < b)
  | .inf true, .fin _ => true
  | .fin _, .inf false => true
  | .inf true, .inf false => true
  | _, _ => false

/-- PmtTypeHelpers.hpp:220-233: floating point to integer. -/
def fltToInt (d : Bool) (f : Fl) (t : Bool) (v : W) : Out :=
  match f with
  | .fin n =>
    if f.below (round d (lowest t v * one)) ∨ (round d (highest t v * one)).below f then .refused
    else if n % one ≠ 0 then .refused
    else truncTo t v n
  | _ => .refused

/-- PmtTypeHelpers.hpp:220-233 with `bool` as target. -/
def fltToBool (f : Fl) : Out :=
  match f with
  | .fin n =>
    if n < 0 ∨ (one : Int) < n then .refused
    else if n % one ≠ 0 then .refused
    else .ok (.bool (decide (n ≠ 0)))
  | _ => .refused

/-- PmtTypeHelpers.hpp:235-240: floating point to floating point, after 143-145 for equal types. -/
def fltToFlt (d : Bool) (f : Fl) (e : Bool) : Option Fl :=
  if d = e then some f
  else match f with
    | .fin n => if -(maxFin e : Int) ≤ n ∧ n ≤ maxFin e then some (round e n) else none
    | _ => none

/-- PmtTypeHelpers.hpp:137-356 `convert_safely<T>` of a stored value (358-370): text arrives as a `std::string_view`, which
none of the branches takes. A complex number of another type or as target of another kind is passed on
inside a `std::variant` (272, 276, 290), which none of the branches takes either. -/
def convertSafely (t : Ty) (v : Val) : Out :=
  match v, t with
  | .bool b, .bool => .ok (.bool b)
  | .bool b, .str => .ok (.str (if b then "true" else "false"))
  | .bool _, _ => .refused
  | .int s w x, .int t v => if s = t ∧ w = v then .ok (.int s w x) else intToInt s w x t v
  | .int s _ x, .bool => intToBool s x
  | .int s w x, .flt d => match intToFlt s w x d with
    | some f => .ok (.flt d f)
    | none => .refused
  | .int s w x, .cpx d => match intToFlt s w x d with
    | some f => .ok (.cpx d f (.fin 0))
    | none => .refused
  | .int _ _ _, .str => .refused
  | .flt d f, .int t v => fltToInt d f t v
  | .flt _ f, .bool => fltToBool f
  | .flt d f, .flt e => match fltToFlt d f e with
    | some g => .ok (.flt e g)
    | none => .refused
  | .flt d f, .cpx e => match fltToFlt d f e with
    | some g => .ok (.cpx e g (.fin 0))
    | none => .refused
  | .flt _ _, .str => .refused
  | .cpx d re im, .cpx e => if d = e then .ok (.cpx d re im) else .refused
  | .cpx _ _ _, _ => .refused
  | .str _, _ => .refused

/-- Settings.hpp:256-306 `convertParameter` for members of the types of single values: text is taken from text
only, everything else goes through `convert_safely`. -/
def convertParameter (t : Ty) (v : Val) : Out :=
  match t, v with
  | .str, .str s => .ok (.str s)
  | .str, _ => .refused
  | t, v => convertSafely t v

end Verif.Conv
