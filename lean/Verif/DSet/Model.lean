/-!
# Data sets: look-up, arithmetic and sliding windows

Model of `algorithm/include/gnuradio-4.0/algorithm/dataset/DataSetHelper.hpp` and `DataSetMath.hpp`, and of the layout checks of
`core/include/gnuradio-4.0/DataSet.hpp`. Values are exact rationals; "not a number" is `none`.
-/
namespace Verif.DSet

/-- The outcome of a call: a value, an exception, or behaviour that is not defined. -/
inductive Res (α : Type) where
  | ok (a : α)
  | throws
  | undef
deriving DecidableEq, Repr

/-- A loop which puts one value at each place: the first exception or undefined behaviour ends it. -/
def each {α β : Type} (f : α → Res β) : List α → Res (List β)
  | [] => .ok []
  | a :: rest =>
    match f a with
    | .ok b =>
      match each f rest with
      | .ok bs => .ok (b :: bs)
      | .throws => .throws
      | .undef => .undef
    | .throws => .throws
    | .undef => .undef

/-! ## the data set -/

/-- `DataSet` without names, units and time stamps, whose contents do not matter here — DataSet.hpp:88-118. Names are counted. -/
structure DataSet where
  axisNames : Nat
  axisUnits : Nat
  axisValues : List (List Rat)
  extents : List Int
  names : Nat
  quantities : Nat
  units : Nat
  values : List Rat
  ranges : Nat
  metas : Nat
  events : Nat
deriving DecidableEq, Repr

/-- `_valsPerSig` — DataSet.hpp:214 -/
def DataSet.perSignal (d : DataSet) : Nat := if d.names = 0 then 0 else d.values.length / d.names

/-- `signalValues` — DataSet.hpp:136-137; an index out of range is fatal. -/
def DataSet.signal (d : DataSet) (i : Nat) : Res (List Rat) :=
  if d.names ≤ i then .throws else .ok ((d.values.drop (i * d.perSignal)).take d.perSignal)

/-- `checkConsistency` — DataSetHelper.hpp:182-231 -/
def DataSet.consistent (d : DataSet) : Bool :=
  -- 190-194
  !d.extents.any (fun e => decide (e ≤ 0)) &&
  -- 196-199
  (d.extents.length = d.axisNames && d.axisNames = d.axisUnits && d.axisNames = d.axisValues.length) &&
  -- 201-206
  ((List.range d.extents.length).all fun i => ((d.axisValues[i]?.map List.length).getD 0 : Int) = (d.extents[i]?).getD 0) &&
  -- 208-212
  (d.names = d.quantities && d.names = d.units && d.names = d.ranges) &&
  -- 214-220
  (d.metas = d.names && d.events = d.names) &&
  -- 222-227
  (d.extents.foldl (fun acc e => acc * e.toNat) 1 * d.names = d.values.length)

/-! ## look-up -/

/-- `getIndexValue` for `dim::X` and `dim::Y` — DataSetHelper.hpp:57-79 -/
def indexValue (vals : List Rat) (i : Nat) : Option Rat := vals[i]?

/-- `std::lower_bound` of a sorted range: the first place whose value is not below `v`. -/
def lowerBound (xs : List Rat) (v : Rat) : Nat := xs.findIdx fun a => decide (v ≤ a)

/-- `getValue` for `dim::Y` — DataSetHelper.hpp:98-150. A value array shorter than the axis is read past its end. -/
def interp (xs ys : List Rat) (v : Rat) : Res (Option Rat) :=
  -- 112-114
  match xs.head?, xs.getLast?, ys.head?, ys.getLast? with
  | some x0, some xn, some y0, some yn =>
    -- 115-120
    if v ≤ x0 then .ok (some y0)
    else if xn ≤ v then .ok (some yn)
    else
      -- 122-132
      let hi := lowerBound xs v
      if hi = xs.length then .ok (some yn)
      else if hi = 0 then .ok (some y0)
      else
        -- 134-146
        match xs[hi - 1]?, xs[hi]?, ys[hi - 1]?, ys[hi]? with
        | some xl, some xh, some yl, some yh =>
          if xh - xl = 0 then .ok (some yl) else .ok (some (yl + (v - xl) / (xh - xl) * (yh - yl)))
        | _, _, _, _ => .undef
  | _, _, _, _ => .ok none

/-! ## arithmetic -/

/-- `MathOp` without the logarithms — DataSetMath.hpp:16 -/
inductive Op where
  | add
  | sub
  | mul
  | div
  | sqr
  | sqrt
  | identity
deriving DecidableEq, Repr

/-- `applyMathOperation` — DataSetMath.hpp:36-53; `root` is the square root. -/
def Op.apply (root : Rat → Rat) : Op → Rat → Rat → Option Rat
  | .add, a, b => some (a + b)
  | .sub, a, b => some (a - b)
  | .mul, a, b => some (a * b)
  | .div, a, b => if b = 0 then none else some (a / b)
  | .sqr, a, b => some ((a + b) * (a + b))
  | .sqrt, a, b => if 0 < a + b then some (root (a + b)) else none
  | .identity, a, b => some (a + b)

/-- The same for a data set and a number — DataSetMath.hpp:99-113 -/
def Op.applyNum (root : Rat → Rat) : Op → Rat → Rat → Option Rat
  | .identity, a, _ => some a
  | op, a, b => op.apply root a b

/-- An operation of two values of which one may be no number. -/
def lift (f : Rat → Rat → Option Rat) (a b : Option Rat) : Option Rat :=
  match a, b with
  | some a, some b => f a b
  | _, _ => none

/-- `mathFunction` of two data sets: the new values — DataSetMath.hpp:56-91, with `sameHorizontalBase` 18-34. `xs`, `ys` and `us`, `vs`
are axis and first signal of the two. -/
def combine (root : Rat → Rat) (op : Op) (xs ys us vs : List Rat) : Res (List (Option Rat)) :=
  let step (i : Nat) : Res (Option Rat) :=
    match (if xs = us then Res.ok (indexValue vs i) else
      match xs[i]? with
      | some x => interp us vs x
      | none => .ok none) with
    | .ok b => .ok (lift (op.apply root) (indexValue ys i) b)
    | .throws => .throws
    | .undef => .undef
  each step (List.range xs.length)

/-- What `mathFunction` of two data sets makes of the layout of the first — DataSetMath.hpp:60-78 -/
def combineLayout (d : DataSet) (vals : List Rat) : DataSet :=
  { d with names := 1, quantities := 1, units := 1, ranges := 1, values := vals }

/-- `mathFunction` of a data set and a number: the first values are replaced — DataSetMath.hpp:93-117. -/
def combineNum (root : Rat → Rat) (op : Op) (n : Nat) (sig : List Rat) (c : Rat) : List (Option Rat) :=
  (List.range n).map fun i => lift (op.applyNum root) (indexValue sig i) (some c)

/-- `computeDerivative` — DataSetMath.hpp:130-143 -/
def differences : List Rat → Res (List Rat)
  | [] => .throws
  | [_] => .throws
  | a :: b :: rest => .ok (go a (b :: rest))
where
  go : Rat → List Rat → List Rat
    | _, [] => []
    | a, b :: rest => (b - a) :: go b rest

/-! ## sliding windows -/

/-- The window around place `i` with `h` values to each side — DataSetMath.hpp:190-191, 219-220, 258-259, 299-300. -/
def window (xs : List Rat) (h i : Nat) : List Rat := (xs.take (min (i + h + 1) xs.length)).drop (i - h)

/-- `applyMovingAverage` — DataSetMath.hpp:173-197 -/
def movingAverage (xs : List Rat) (w : Nat) : Res (List Rat) :=
  if w = 0 ∨ w % 2 = 0 then .throws
  else .ok ((List.range xs.length).map fun i => (window xs (w / 2) i).foldl (· + ·) 0 / ((window xs (w / 2) i).length : Rat))

/-- Insertion into a sorted list. -/
def insert (x : Rat) : List Rat → List Rat
  | [] => [x]
  | y :: ys => if x ≤ y then x :: y :: ys else y :: insert x ys

/-- The values in order. `std::nth_element` puts that one at the middle which would be there in a sorted range, and none greater before
it. -/
def sorted : List Rat → List Rat
  | [] => []
  | x :: xs => insert x (sorted xs)

/-- `applyMedian` — DataSetMath.hpp:199-238: the window is copied into a vector of `w` values (216, 223); writing past its end is not
defined. -/
def median (xs : List Rat) (w : Nat) : Res (List Rat) :=
  if w = 0 then .throws
  else
    let one (i : Nat) : Res Rat :=
      let win := window xs (w / 2) i
      if w < win.length then .undef
      else
        match (sorted win)[win.length / 2]? with
        | none => .undef
        | some mid =>
          if win.length % 2 = 0 then
            -- the greatest of those before the middle
            match (sorted win)[win.length / 2 - 1]? with
            | none => .undef
            | some prev => .ok (1 / 2 * (prev + mid))
          else .ok mid
    each one (List.range xs.length)

/-- `applyRms` — DataSetMath.hpp:240-277; `root` is the square root. -/
def rms (root : Rat → Rat) (xs : List Rat) (w : Nat) : Res (List Rat) :=
  if w = 0 then .throws
  else .ok ((List.range xs.length).map fun i =>
    let win := window xs (w / 2) i
    let sum := win.foldl (· + ·) 0
    let sum2 := win.foldl (fun acc x => acc + x * x) 0
    if 1 < win.length then
      let mean := sum / (win.length : Rat)
      root (sum2 / (win.length : Rat) - mean * mean).abs
    else 0)

/-- `applyPeakToPeak` — DataSetMath.hpp:279-315; `lo` and `hi` are the limits of the number type. -/
def peakToPeak (lo hi : Rat) (xs : List Rat) (w : Nat) : Res (List Rat) :=
  if w = 0 then .throws
  else .ok ((List.range xs.length).map fun i =>
    let r := (window xs (w / 2) i).foldl
      (fun (m : Rat × Rat) x => (if x < m.1 then x else m.1, if m.2 < x then x else m.2)) (hi, lo)
    r.2 - r.1)

end Verif.DSet
