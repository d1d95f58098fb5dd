import Verif.Conv.Spec
import Verif.Conv.PolicyModel

/- What the policies promise. -/
namespace Verif.Conv

/-- The number (real and imaginary part in units of 2 ^ -1074) is one of the type. -/
def Fits : Ty → Int × Int → Prop
  | .bool, n => (n.1 = 0 ∨ n.1 = 2 ^ 1074) ∧ n.2 = 0
  | .int s w, n => (∃ x, InRange s w x ∧ n.1 = x * 2 ^ 1074) ∧ n.2 = 0
  | .flt d, n => Rep d n.1 ∧ n.2 = 0
  | .cpx d, n => Rep d n.1 ∧ Rep d n.2
  | .str, _ => False

/-- The first number is the nearest of the format to the second. -/
def Nearest (d : Bool) (r n : Int) : Prop := Rep d r ∧ ∀ z, Rep d z → (r - n).natAbs ≤ (z - n).natAbs

/-- Integers of as many bits as the floating-point type, which has fewer digits. -/
def FewerDigits : Ty → Ty → Prop
  | .int _ .w32, .flt false => True
  | .int _ .w64, .flt true => True
  | _, _ => False

/-- A wider type: of the same kind with more bits, or floating point with at least as many bits. -/
def Wider : Ty → Ty → Prop
  | .int a v, .int b w => a = b ∧ v.bits < w.bits
  | .int _ w, .flt d => w.bits ≤ if d then 64 else 32
  | .flt false, .flt true => True
  | .cpx false, .cpx true => True
  | _, _ => False

def Stored.shape : Stored → List Nat
  | .typed _ s _ => s
  | .values s _ => s
  | _ => []

def Stored.elems : Stored → List Val
  | .typed _ _ vs => vs
  | .values _ vs => vs
  | _ => []

/-- A stored array: its elements are values, of its type if it has one. -/
def Stored.Ok : Stored → Prop
  | .typed t _ vs => ∀ v ∈ vs, v.Ok ∧ v.ty = t
  | .values _ vs => ∀ v ∈ vs, v.Ok
  | .map es => ∀ e ∈ es, e.2.Ok
  | .single v => v.Ok

/-- The order of the policies. -/
def Policy.le : Policy → Policy → Prop
  | .safe, _ => True
  | .widening, .safe => False
  | .widening, _ => True
  | .narrowing, .safe | .narrowing, .widening => False
  | .narrowing, _ => True
  | .unchecked, q => q = .unchecked

/-- The shape is one the target can have with this rank policy. -/
def Suits (rp : RankPolicy) (shape : List Nat) (n : Nat) : Target → Prop
  | .vector => rp = .strict → shape.length = 1
  | .array m => (rp = .strict → shape.length = 1) ∧ n = m
  | .dyn => True
  | .ranked r => shape.length = r
  | .fixed es => (rp = .strict → shape = es) ∧ n = es.foldl (· * ·) 1

/-- The shape is one of the target's. -/
def Target.Has : Target → List Nat → List Val → Prop
  | .vector, s, vs => s = [vs.length]
  | .array n, s, vs => s = [n] ∧ vs.length = n
  | .dyn, _, _ => True
  | .ranked r, s, _ => s.length = r
  | .fixed es, s, vs => s = es ∧ vs.length = es.foldl (· * ·) 1

/-- What becomes of a number: an integer type takes integers modulo 2 ^ bits and drops the fraction of others, `bool` takes everything but zero for
true, floating-point types take the nearest number, and infinity or the largest number for what is beyond that. -/
def Becomes (v w : Val) : Prop :=
  match v, w with
  | .int _ _ x, .int s u y => InRange s u y ∧ (y - x) % (2 ^ u.bits : Nat) = 0
  | .bool b, .int _ _ y => y = if b then 1 else 0
  | .flt _ f, .int s u y => InRange s u y ∧ ∃ n, f = .fin n ∧ y = n.tdiv (2 ^ 1074)
  | .int _ _ x, .bool b => b = true ↔ x ≠ 0
  | .flt _ f, .bool b => b = true ↔ f ≠ .fin 0
  | .int _ _ x, .flt d f => ∃ r, f = .fin r ∧ Nearest d r (x * 2 ^ 1074)
  | .flt _ (.fin n), .flt d f => if n.natAbs ≤ maxFin d then ∃ r, f = .fin r ∧ Nearest d r n
      else f = .inf (decide (n < 0)) ∨ f = .fin (if n < 0 then -(maxFin d : Int) else maxFin d)
  | .flt _ f, .flt _ g => f = g
  | _, _ => True

/-- The shapes of the result and of the array with the policy `Strict`: the same, for vectors and `std::array` of one
dimension. -/
def SameShape : Target → List Nat → List Nat → Prop
  | .vector, _, s => s.length = 1
  | .array _, _, s => s.length = 1
  | _, r, s => r = s

end Verif.Conv
