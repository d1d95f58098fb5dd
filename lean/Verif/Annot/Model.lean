import Init.Data.Rat.Lemmas

/-!
# Limits of annotated settings

Model of `Limits` and `Annotated::validate_and_set` in `/repo/core/include/gnuradio-4.0/annotated.hpp` and of the step of
`/repo/core/include/gnuradio-4.0/Settings.hpp` that gives a setting a staged value.
-/

namespace Verif.Annot

/-- A number type as `Limits` uses it: `<=` and `==`. -/
structure Num (L : Type) where
  le : L → L → Bool
  eq : L → L → Bool

/-- `Limits<LowerLimit, UpperLimit, Validator>` — annotated.hpp:289-297. A validator answers or throws (`none`). -/
structure Limits (L : Type) where
  lower : L
  upper : L
  validator : Option (L → Option Bool) := none

/-- `Limits::validate` — annotated.hpp:299-329 -/
def validate {L : Type} (num : Num L) (l : Limits L) (v : L) : Bool :=
  if num.eq l.lower l.upper then
    match l.validator with
    | some f => (f v).getD false
    | none => true
  else
    match l.validator with
    | some f => num.le l.lower v && num.le v l.upper && (f v).getD false
    | none => num.le l.lower v && num.le v l.upper

/-- What an attempt to set a value does: the new value and the answer, or the conversion has no defined result. -/
inductive Outcome (T : Type) where
  | done (value : T) (ok : Bool)
  | undefined
deriving DecidableEq, Repr

/-- `validate_and_set` — annotated.hpp:386-401. `limits = none` stands for `EmptyLimit`; `cast` is the `static_cast` to the type of the
limits (line 393), `none` where it is undefined. -/
def validateAndSet {T L : Type} (num : Num L) (limits : Option (Limits L)) (cast : T → Option L) (old new : T) : Outcome T :=
  match limits with
  | none => .done new true
  | some l =>
    match cast new with
    | none => .undefined
    | some c => if validate num l c then .done new true else .done old false

/-- A setting with the maps of applied and staged values; a value that is staged has the right type (`some`) or not. -/
structure Member (T : Type) where
  value : T
  applied : List (String × T) := []
  staged : List (String × T) := []
deriving DecidableEq, Repr

/-- `insert_or_assign` -/
def assign {T : Type} (m : List (String × T)) (k : String) (v : T) : List (String × T) := (k, v) :: m.filter (·.1 ≠ k)

/-- The end of the helper that applies one staged value to an annotated member — Settings.hpp:709-720; `none` is the undefined
conversion. -/
def apply {T L : Type} (num : Num L) (limits : Option (Limits L)) (cast : T → Option L) (hasCallback : Bool) (key : String) (m : Member T)
    (v : Option T) : Option (Member T × Bool) :=
  match v with
  | none => some (m, false)
  | some v =>
    match validateAndSet num limits cast m.value v with
    | .undefined => none
    | .done x true => some ({ value := x, applied := assign m.applied key v,
                              staged := if hasCallback then assign m.staged key v else m.staged }, true)
    | .done x false => some ({ m with value := x }, false)

/-- One staged value after the other. -/
def applyAll {T L : Type} (num : Num L) (limits : Option (Limits L)) (cast : T → Option L) (cb : Bool) (key : String) :
    Member T → List (Option T) → Option (Member T)
  | m, [] => some m
  | m, v :: vs => (apply num limits cast cb key m v).bind fun r => applyAll num limits cast cb key r.1 vs

/-- Whole numbers. -/
def intNum : Num Int := ⟨fun a b => decide (a ≤ b), fun a b => decide (a = b)⟩

/-- Floating point values; the finite ones are exact. -/
inductive Flt where
  | fin (r : Rat)
  | inf (neg : Bool)
  | nan
deriving DecidableEq

/-- `<=` of floating point values. -/
def Flt.le : Flt → Flt → Bool
  | .nan, _ | _, .nan => false
  | .fin a, .fin b => decide (a ≤ b)
  | .inf true, _ => true
  | _, .inf false => true
  | _, _ => false

/-- Floating point values as `Limits` compares them. -/
def fltNum : Num Flt := ⟨Flt.le, fun a b => Flt.le a b && Flt.le b a⟩

/-- Towards zero. -/
def trunc (r : Rat) : Int := if r < 0 then -(-r).floor else r.floor

/-- `static_cast<std::int64_t>` of a floating point value: undefined outside the range. The limits of the sample rate in
/repo/blocks/testing/include/gnuradio-4.0/testing/SettingsChangeRecorder.hpp:59 need it. -/
def fltToInt64 : Flt → Option Int
  | .fin r => if -9223372036854775808 ≤ trunc r ∧ trunc r ≤ 9223372036854775807 then some (trunc r) else none
  | _ => none

/-- `static_cast<int>` of a `std::uint64_t`: modulo 2^32. -/
def u64ToInt (v : Nat) : Option Int := some (if v % 4294967296 < 2147483648 then (v % 4294967296 : Nat) else (v % 4294967296 : Nat) - 4294967296)

/-- The limits of the sample rate of `SettingsChangeRecorder` — SettingsChangeRecorder.hpp:59 -/
def rateLimits : Limits Int := { lower := 0, upper := 9223372036854775807 }

end Verif.Annot
