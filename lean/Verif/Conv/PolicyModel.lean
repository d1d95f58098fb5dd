import Verif.Conv.Model

/-
Model of the conversion of stored arrays and maps under a policy: ValueHelper.hpp:22-33, 84-96, 139-731, 760-935
(`convertTo`, `convertTo_or`, `assignTo`).

Simplifications: `Value` itself as the type of the elements of the target is left out; memory resources are left out; the
target shapes are those that have at least one dimension; the products of extents do not overflow (Tensor.hpp:245-258).
-/
namespace Verif.Conv

/-- ValueHelper.hpp:21-26 `ConversionPolicy`. -/
inductive Policy where
  | safe | widening | narrowing | unchecked
deriving DecidableEq, Repr

/-- The order of the enumerators, for `>=`. -/
def Policy.rank : Policy → Nat
  | .safe => 0
  | .widening => 1
  | .narrowing => 2
  | .unchecked => 3

/-- ValueHelper.hpp:28-32 `RankPolicy`. -/
inductive RankPolicy where
  | strict | flatten | reshape
deriving DecidableEq, Repr

/-- ValueHelper.hpp:40 `ConversionError::Kind`, as far as used. -/
inductive Kind where
  | typeMismatch | elementTypeMismatch | rankMismatch | sizeMismatch | notATensor | notAMap | narrowingNotAllowed | wideningNotAllowed
deriving DecidableEq, Repr

/-- `sizeof` in bytes. -/
def size : Ty → Nat
  | .bool => 1
  | .int _ w => w.bits / 8
  | .flt d => if d then 8 else 4
  | .cpx d => if d then 16 else 8
  | .str => 0

/-- ValueHelper.hpp:79-82 `is_static_castable_v`: a complex number is made from a number, not the other way round. -/
def castable : Ty → Ty → Bool
  | .str, .str => true
  | .str, _ => false
  | _, .str => false
  | .cpx _, .cpx _ => true
  | .cpx _, _ => false
  | _, _ => true

/-- ValueHelper.hpp:87-88 `is_widening_v`. -/
def isWidening (s t : Ty) : Bool :=
  match s, t with
  | .int a _, .int b _ => decide (size s < size t) && decide (a = b)
  | .flt d, .flt e => !d && e
  | .cpx d, .cpx e => !d && e
  | .int _ _, .flt _ => decide (size s ≤ size t)
  | _, _ => false

/-- ValueHelper.hpp:90-91 `is_narrowing_v`. -/
def isNarrowing (s t : Ty) : Bool := decide (s ≠ t) && !isWidening s t && castable s t

/-- ValueHelper.hpp:93-94 `conversion_allowed_v`. -/
def allowed (p : Policy) (s t : Ty) : Bool :=
  decide (s = t) || (decide (1 ≤ p.rank) && isWidening s t) || (decide (2 ≤ p.rank) && isNarrowing s t) ||
  (decide (p = .unchecked) && castable s t)

/-- Conversion of a floating-point object to another format, as by `static_cast`. -/
def castFlt (e : Bool) : Fl → Fl
  | .fin n => round e n
  | f => f

/-- `static_cast<t>(v)`; `refused` where it does not compile. A number as source of a complex number becomes its real
part. -/
def cast (t : Ty) (v : Val) : Out :=
  match v, t with
  | .bool b, .bool => .ok (.bool b)
  | .bool b, .int s w => .ok (.int s w (if b then 1 else 0))
  | .bool b, .flt d => .ok (.flt d (.fin (if b then one else 0)))
  | .bool b, .cpx d => .ok (.cpx d (.fin (if b then one else 0)) (.fin 0))
  | .int _ _ x, .bool => .ok (.bool (decide (x ≠ 0)))
  | .int _ _ x, .int s w => .ok (.int s w (wrap s w x))
  | .int _ _ x, .flt d => .ok (.flt d (round d (x * one)))
  | .int _ _ x, .cpx d => .ok (.cpx d (round d (x * one)) (.fin 0))
  | .flt _ f, .bool => .ok (.bool (decide (f ≠ .fin 0)))
  | .flt _ f, .int s w => match f with
    | .fin n => truncTo s w n
    | _ => .undefined
  | .flt _ f, .flt e => .ok (.flt e (castFlt e f))
  | .flt _ f, .cpx e => .ok (.cpx e (castFlt e f) (.fin 0))
  | .cpx _ a b, .cpx e => .ok (.cpx e (castFlt e a) (castFlt e b))
  | .str s, .str => .ok (.str s)
  | _, _ => .refused

/-- The type of the object in a value (`get_if`, exact). -/
def tyOf : Val → Ty
  | .bool _ => .bool
  | .int s w _ => .int s w
  | .flt d _ => .flt d
  | .cpx d _ _ => .cpx d
  | .str _ => .str

/-- ValueHelper.hpp:289-352: the sources tried with `Widening`, by type of the target. -/
def wideningTable : Ty → List Ty
  | .flt true => [.flt false, .int true .w32, .int true .w64]
  | .flt false => [.int true .w32, .int true .w16]
  | .int true .w64 => [.int true .w32, .int true .w16, .int true .w8]
  | .int true .w32 => [.int true .w16, .int true .w8]
  | .int true .w16 => [.int true .w8]
  | .int false .w64 => [.int false .w32, .int false .w16, .int false .w8]
  | .int false .w32 => [.int false .w16, .int false .w8]
  | .int false .w16 => [.int false .w8]
  | .cpx true => [.cpx false]
  | _ => []

/-- ValueHelper.hpp:354-403: the sources tried with `Narrowing`. -/
def narrowingTable : Ty → List Ty
  | .flt false => [.flt true]
  | .int true .w32 => [.int true .w64, .flt true, .flt false]
  | .int true .w16 => [.int true .w32, .int true .w64]
  | .int true .w8 => [.int true .w16, .int true .w32]
  | .int false .w32 => [.int false .w64]
  | .int false .w16 => [.int false .w32]
  | .int false .w8 => [.int false .w16, .int false .w32]
  | .cpx false => [.cpx true]
  | _ => []

/-- ValueHelper.hpp:405-451: the sources tried with `Unchecked`. -/
def uncheckedTable : Ty → List Ty
  | .bool | .int _ _ | .flt _ =>
    [.bool, .int true .w8, .int true .w16, .int true .w32, .int true .w64, .int false .w8, .int false .w16, .int false .w32,
      .int false .w64, .flt false, .flt true]
  | .cpx _ => [.cpx false, .cpx true]
  | .str => []

/-- ValueHelper.hpp:276-454 `tryConvertElement`. -/
def tryElement (p : Policy) (t : Ty) (v : Val) : Out :=
  if tyOf v = t then .ok v
  else if 1 ≤ p.rank ∧ tyOf v ∈ wideningTable t then cast t v
  else if 2 ≤ p.rank ∧ tyOf v ∈ narrowingTable t then cast t v
  else if p = .unchecked ∧ tyOf v ∈ uncheckedTable t then cast t v
  else .refused

/-- A stored value: an array of one type, an array of values, a map, or something else. -/
inductive Stored where
  | typed (t : Ty) (shape : List Nat) (vs : List Val)
  | values (shape : List Nat) (vs : List Val)
  | map (es : List (String × Val))
  | single (v : Val)
deriving DecidableEq, Repr

/-- Where to convert to: `std::vector`, `std::array` of n, `Tensor` of dynamic rank, of `rank` dynamic extents, of static
extents. -/
inductive Target where
  | vector
  | array (n : Nat)
  | dyn
  | ranked (rank : Nat)
  | fixed (es : List Nat)
deriving DecidableEq, Repr

/-- Result of a conversion: shape and elements; the error with the index of the element, if any; an exception; undefined
behaviour. -/
inductive Conv where
  | ok (shape : List Nat) (vs : List Val)
  | error (k : Kind) (index : Option Nat)
  | threw
  | undefined
deriving DecidableEq, Repr

/-- The loops over the elements: the first element that is refused ends them with its index. -/
def convAll (f : Val → Out) (i : Nat) : List Val → Except Conv (List Val)
  | [] => .ok []
  | v :: vs => match f v with
    | .ok w => match convAll f (i + 1) vs with
      | .ok ws => .ok (w :: ws)
      | .error e => .error e
    | .refused => .error (.error .elementTypeMismatch (some i))
    | .undefined => .error .undefined

/-- Number of elements of static extents (ValueHelper.hpp:71-77). -/
def extentsProduct (es : List Nat) : Nat := es.foldl (· * ·) 1

/-- The result of the loop, with the shape. -/
def finish (shape : List Nat) : Except Conv (List Val) → Conv
  | .ok ws => .ok shape ws
  | .error e => e

/-- `Tensor::resize` and the loop over the elements of the resized tensor (ValueHelper.hpp:259-267, 532-544): no extents
clear the tensor; a value written behind its elements is undefined behaviour. `walksTarget` tells whether the loop ends with the elements of
the target (typed arrays) or of the source. -/
def intoDyn (walksTarget : Bool) (f : Val → Out) (shape : List Nat) (vs : List Val) : Conv :=
  if shape = [] then
    if walksTarget ∨ vs = [] then .ok [] []
    else match convAll f 0 (vs.take 1) with
      | .ok _ => .undefined
      | .error e => e
  else finish shape (convAll f 0 vs)

/-- Tensor.hpp:1995-2015 `owned`: an array without elements becomes one without dimensions. -/
def owned (shape : List Nat) (vs : List Val) : Conv := if vs = [] then .ok [] [] else .ok shape vs

/-- The checks of shape before the elements are converted (ValueHelper.hpp:151-155, 186-194, 218-239 for typed arrays, 458-462,
481-488, 505-514 for arrays of values): the error, if any. -/
def checkShape (typed : Bool) (rp : RankPolicy) (tg : Target) (shape : List Nat) (n : Nat) : Option Conv :=
  match tg with
  | .vector => if rp = .strict ∧ shape.length ≠ 1 then some (.error .rankMismatch none) else none
  | .array m =>
    if rp = .strict ∧ shape.length ≠ 1 then some (.error .rankMismatch none)
    else if n ≠ m then some (.error .sizeMismatch none) else none
  | .dyn => none
  | .ranked r => if rp = .strict ∧ shape.length ≠ r then some (.error .rankMismatch none) else none
  | .fixed es =>
    if rp = .strict ∧ shape.length ≠ es.length then some (.error .rankMismatch none)
    else if rp = .strict ∧ typed ∧ shape ≠ es then some (.error .sizeMismatch none)
    else if n ≠ extentsProduct es then some (.error .sizeMismatch none) else none

/-- The elements and the shape of the result (ValueHelper.hpp:156-170, 195-200, 236-270 and 463-475, 489-499, 516-545). A target
of given rank throws for another number of extents (Tensor.hpp:1219-1225). -/
def fillTarget (typed same : Bool) (f : Val → Out) (tg : Target) (shape : List Nat) (vs : List Val) : Conv :=
  match tg with
  | .vector | .array _ => finish [vs.length] (convAll f 0 vs)
  | .dyn => if typed ∧ same then owned shape vs else intoDyn typed f shape vs
  | .ranked r => if shape.length ≠ r then .threw else finish shape (convAll f 0 vs)
  | .fixed es => finish es (convAll f 0 vs)

/-- ValueHelper.hpp:139-273 `tensorToVector`, `tensorToArray`, `tensorToTensor`. -/
def fromTyped (p : Policy) (rp : RankPolicy) (tg : Target) (t s : Ty) (shape : List Nat) (vs : List Val) : Conv :=
  if allowed p s t = false then
    if isWidening s t then .error .wideningNotAllowed none
    else if castable s t then .error .narrowingNotAllowed none
    else .error .typeMismatch none
  else match checkShape true rp tg shape vs.length with
    | some e => e
    | none => fillTarget true (decide (s = t)) (cast t) tg shape vs

/-- ValueHelper.hpp:456-546 `tensorOfValueToVector`, `tensorOfValueToArray`, `tensorOfValueToTensor`. -/
def fromValues (p : Policy) (rp : RankPolicy) (tg : Target) (t : Ty) (shape : List Nat) (vs : List Val) : Conv :=
  match checkShape false rp tg shape vs.length with
  | some e => e
  | none => fillTarget false false (tryElement p t) tg shape vs

/-- ValueHelper.hpp:613-718, 760-779 `convertTo` for arrays. -/
def convertTo (p : Policy) (rp : RankPolicy) (tg : Target) (t : Ty) : Stored → Conv
  | .typed s shape vs => fromTyped p rp tg t s shape vs
  | .values shape vs => fromValues p rp tg t shape vs
  | _ => .error .notATensor none

/-- ValueHelper.hpp:548-611, 720-731: conversion to a map of elements of one type. The keys are those of the stored map, each once. -/
def convertMap (p : Policy) (t : Ty) : Stored → Except Conv (List (String × Val))
  | .map es => match convAll (tryElement p t) 0 (es.map (·.2)) with
    | .ok ws => .ok ((es.map (·.1)).zip ws)
    | .error e => .error e
  | _ => .error (.error .notAMap none)

/-- An array: shape and elements. -/
structure Array where
  shape : List Nat
  vs : List Val
deriving DecidableEq, Repr

/-- ValueHelper.hpp:858-897 `assignTo` of a tensor of dynamic rank with room for `cap` elements: what the destination holds
afterwards, and the error. None is undefined behaviour. For an array of the same type and enough room the elements are copied into the resized
destination, otherwise the result of `convertTo` is (890-893) or takes its place. -/
def assignDyn (p : Policy) (rp : RankPolicy) (t : Ty) (cap : Nat) (dst : Array) (v : Stored) : Option (Array × Option Conv) :=
  let copy (shape : List Nat) (vs : List Val) : Option (Array × Option Conv) :=
    if shape = [] ∧ vs ≠ [] then none else some (⟨shape, vs⟩, none)
  let viaConvert : Option (Array × Option Conv) :=
    match convertTo p rp .dyn t v with
    | .ok shape vs => if vs.length ≤ cap then copy shape vs else some (⟨shape, vs⟩, none)
    | .undefined => none
    | e => some (dst, some e)
  match v with
  | .typed s shape vs => if s = t ∧ vs.length ≤ cap then copy shape vs else viaConvert
  | _ => viaConvert

/-- ValueHelper.hpp:820-832, 850-856 `assignTo` of vectors and arrays. -/
def assignFlat (p : Policy) (rp : RankPolicy) (tg : Target) (t : Ty) (dst : List Val) (v : Stored) :
    Option (List Val × Option Conv) :=
  match convertTo p rp tg t v with
  | .ok _ vs => some (vs, none)
  | .undefined => none
  | e => some (dst, some e)

/-- ValueHelper.hpp:808-818 `convertTo_or`. -/
def convertOr (p : Policy) (rp : RankPolicy) (tg : Target) (t : Ty) (v : Stored) (fallback : Array) : Option Array :=
  match convertTo p rp tg t v with
  | .ok shape vs => some ⟨shape, vs⟩
  | .undefined => none
  | .threw => none
  | _ => some fallback

end Verif.Conv
