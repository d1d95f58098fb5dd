import Verif.DSet.Model

/-!
# Estimators of data sets

Model of `/repo/algorithm/include/gnuradio-4.0/algorithm/dataset/DataSetEstimators.hpp` with the helpers of
`DataSetHelper.hpp`.  Values are exact rationals; a value that is not finite is `none`.  One signal `ys` over one axis
`xs` is looked at; the check of the signal number and the events and meta data that are added are left out.
-/

namespace Verif.DEst

open Verif.DSet (Res sorted)

/-- `checkIndexRange` — DataSetHelper.hpp:27-40; `none` as the upper end is `max_size`. -/
def checkRange (n lo : Nat) (hi : Option Nat) : Res Nat :=
  let hi := hi.getD n
  if lo > hi || lo ≥ n || hi > n then .throws else .ok hi

/-- The finite values of a range: the loops of lines 42-49, 111-116, 137-142 and the views of 156-157, 196-197, 211-212. -/
def finite (ys : List (Option Rat)) (lo hi : Nat) : List Rat := ((ys.drop lo).take (hi - lo)).filterMap id

/-- The loop of `getMaximum` — DataSetEstimators.hpp:109-116; `i` is the place of the next value. -/
def maxLoop : List (Option Rat) → Nat → Option Nat → Rat → Option Nat × Rat
  | [], _, loc, m => (loc, m)
  | y :: rest, i, loc, m =>
    match y with
    | some v => if v > m then maxLoop rest (i + 1) (some i) v else maxLoop rest (i + 1) loc m
    | none => maxLoop rest (i + 1) loc m

/-- `getMaximum` — DataSetEstimators.hpp:101-124: place and value. `lowest` is the least number of the type. -/
def getMaximum (lowest : Rat) (ys : List (Option Rat)) (lo hi : Nat) : Option (Nat × Option Rat) :=
  if lo = hi then some (lo, (ys[lo]?).getD none)
  else
    match maxLoop ((ys.drop lo).take (hi - lo)) lo none lowest with
    | (some i, m) => some (i, some m)
    | (none, _) => none

/-- The loop of `getMinimum` — DataSetEstimators.hpp:135-142. -/
def minLoop : List (Option Rat) → Nat → Option Nat → Rat → Option Nat × Rat
  | [], _, loc, m => (loc, m)
  | y :: rest, i, loc, m =>
    match y with
    | some v => minLoop rest (i + 1) (some i) (if v < m then v else m)
    | none => minLoop rest (i + 1) loc m

/-- `getMinimum` — DataSetEstimators.hpp:127-150. `highest` is the greatest number of the type. -/
def getMinimum (highest : Rat) (ys : List (Option Rat)) (lo hi : Nat) : Option (Nat × Option Rat) :=
  if lo = hi then some (lo, (ys[lo]?).getD none)
  else
    match minLoop ((ys.drop lo).take (hi - lo)) lo none highest with
    | (some i, m) => some (i, some m)
    | (none, _) => none

/-- `getMean` — DataSetEstimators.hpp:153-167 -/
def getMean (ys : List (Option Rat)) (lo hi : Nat) : Option Rat :=
  let vs := finite ys lo hi
  let sum := vs.foldl (· + ·) 0
  let count : Rat := vs.foldl (fun c _ => c + 1) 0
  if count > 0 then some (sum / count) else none

/-- `getMedian` of finite values — DataSetEstimators.hpp:170-190; `nth_element` by sorting. -/
def getMedian (vs : List Rat) : Option Rat :=
  if vs = [] then none
  else
    match (sorted vs)[vs.length / 2]?, (sorted vs)[vs.length / 2 - 1]? with
    | some mid, some prev => if vs.length % 2 = 0 then some (1 / 2 * (prev + mid)) else some mid
    | _, _ => none

/-- `getRms` before the root is taken — DataSetEstimators.hpp:208-229 -/
def getRms2 (ys : List (Option Rat)) (lo hi : Nat) : Rat :=
  let vs := finite ys lo hi
  if vs = [] then 0
  else
    let sum := vs.foldl (· + ·) 0
    let sum2 := vs.foldl (fun s v => s + v * v) 0
    let count : Rat := vs.foldl (fun c _ => c + 1) 0
    let mean1 := (sum / count) * (sum / count)
    let mean2 := sum2 / count
    if mean2 > mean1 then mean2 - mean1 else mean1 - mean2

/-- The area of one piece — DataSetEstimators.hpp:246-252: 0 if one of the ends is not finite. -/
def area (xs : List Rat) (ys : List (Option Rat)) (i : Nat) : Rat :=
  match xs[i]?, xs[i + 1]?, (ys[i]?).getD none, (ys[i + 1]?).getD none with
  | some x0, some x1, some y0, some y1 => 1 / 2 * (x1 - x0) * (y0 + y1)
  | _, _, _, _ => 0

/-- `getIntegral` after the check of the range — DataSetEstimators.hpp:235-256 -/
def getIntegral (xs : List Rat) (ys : List (Option Rat)) (lo hi : Nat) : Rat :=
  let sign : Rat := if (hi : Int) - lo ≥ 0 then 1 else -1
  let start := min lo hi
  let stop := max lo hi
  if stop ≤ start + 1 then 0
  else sign * ((List.range (stop - 1 - start)).map fun k => area xs ys (start + k)).foldl (· + ·) 0

/-- One pass of the loop of `computeCentreOfMass` — DataSetEstimators.hpp:43-49 -/
def comStep (acc : Rat × Rat) (p : Rat × Option Rat) : Rat × Rat :=
  match p.2 with
  | some v => (acc.1 + p.1 * v, acc.2 + v)
  | none => acc

/-- `computeCentreOfMass` — DataSetEstimators.hpp:37-54 -/
def centreOfMass (xs : List Rat) (ys : List (Option Rat)) (lo hi : Nat) : Option Rat :=
  let r := (((xs.zip ys).drop lo).take (hi - lo)).foldl comStep (0, 0)
  if r.2 = 0 then none else some (r.1 / r.2)

/-- The result of a width: a number, none, or behaviour that is not defined. -/
inductive Width where
  | undef
  | nan
  | val (w : Rat)
deriving DecidableEq, Repr

/-- The loop to the right — DataSetEstimators.hpp:65-67 -/
def scanUp (half : Rat) : List Rat → Nat → Nat
  | [], i => i
  | x :: xs, i => if x > half then scanUp half xs (i + 1) else i

/-- The loop to the left — DataSetEstimators.hpp:68-70. Nothing stops it at place 0: the counter wraps and the read
is past the end, which is not defined (`none`). -/
def scanDown (half : Rat) (data : List Rat) : Nat → Option Nat
  | 0 => match data[0]? with
    | some v => if v > half then none else some 0
    | none => none
  | i + 1 => match data[i + 1]? with
    | some v => if v > half then scanDown half data i else some (i + 1)
    | none => none

/-- Lines 59-73 and 80-94: the places left and right of the peak. `size() - 1` wraps for an empty list. -/
def halfPlaces (data : List Rat) (index : Nat) (k : Rat → Nat → Nat → Width) : Width :=
  if ¬ (0 < index ∧ (data.length = 0 ∨ index < data.length - 1)) then .nan
  else
    match data[index]? with
    | none => .undef
    | some v =>
      let half := 1 / 2 * v
      let up := scanUp half (data.drop index) index
      match scanDown half data index with
      | none => .undef
      | some low => if up ≥ data.length then .nan else k half low up

/-- `computeFWHM` — DataSetEstimators.hpp:57-75 -/
def fwhm (data : List Rat) (index : Nat) : Width :=
  halfPlaces data index fun _ low up => .val ((up - low : Nat) : Rat)

/-- `linearInterpolate` — DataSetHelper.hpp:42-48 -/
def linearInterpolate (x0 x1 y0 y1 y : Rat) : Rat :=
  if y1 = y0 then x0 else x0 + (y - y0) * (x1 - x0) / (y1 - y0)

/-- The two interpolations — DataSetEstimators.hpp:95-97 -/
def interpolatedWidth (data : List Rat) (half : Rat) (low up : Nat) : Width :=
  match data[low]?, data[low + 1]?, data[up - 1]?, data[up]? with
  | some a, some b, some c, some d =>
    .val (linearInterpolate ((up - 1 : Nat) : Rat) (up : Rat) c d half -
      linearInterpolate (low : Rat) ((low + 1 : Nat) : Rat) a b half)
  | _, _, _, _ => .undef

/-- `computeInterpolatedFWHM` — DataSetEstimators.hpp:78-98 -/
def fwhmInterpolated (data : List Rat) (index : Nat) : Width := halfPlaces data index (interpolatedWidth data)

/-- `getDutyCycle` — DataSetEstimators.hpp:289-316, for the finite values and their extremes. -/
def dutyCycle (vs : List Rat) (minVal maxVal : Rat) : Option Rat :=
  if minVal = maxVal then none
  else
    let range := if maxVal > minVal then maxVal - minVal else minVal - maxVal
    let tMin := minVal + 45 / 100 * range
    let tMax := minVal + 55 / 100 * range
    let c := vs.foldl (fun (c : Nat × Nat) v =>
      if v < tMin then (c.1 + 1, c.2) else if v > tMax then (c.1, c.2 + 1) else c) (0, 0)
    if c.1 + c.2 > 0 then some ((c.2 : Rat) / ((c.1 + c.2 : Nat) : Rat)) else none

/-- The state of the loop of `getFrequencyEstimate` — DataSetEstimators.hpp:332-338. -/
structure Freq where
  rise : Option Rat := none
  fall : Option Rat := none
  period : Rat := 0
  count : Nat := 0
  high : Bool := false
deriving DecidableEq, Repr

/-- One pass of that loop for a finite value — DataSetEstimators.hpp:344-372 -/
def Freq.step (tMin tMax : Rat) (s : Freq) (x y : Rat) : Freq :=
  if s.high = false then
    if y > tMax then
      match s.rise with
      | some r => { s with high := true, rise := some x, period := s.period + (x - r), count := s.count + 1 }
      | none => { s with high := true, rise := some x }
    else s
  else
    if y < tMin then
      match s.fall with
      | some f => { s with high := false, fall := some x, period := s.period + (x - f), count := s.count + 1 }
      | none => { s with high := false, fall := some x }
    else s

/-- Samples that are not finite are passed over — DataSetEstimators.hpp:340-343 -/
def Freq.feed (tMin tMax : Rat) (s : Freq) (p : Rat × Option Rat) : Freq :=
  match p.2 with
  | some y => s.step tMin tMax p.1 y
  | none => s

/-- `getFrequencyEstimate` after the thresholds are known — DataSetEstimators.hpp:332-378 -/
def frequency (tMin tMax : Rat) (pts : List (Rat × Option Rat)) : Option Rat :=
  let s := pts.foldl (Freq.feed tMin tMax) {}
  if s.count = 0 then none else some ((s.count : Rat) / s.period)

/-- The search of `getZeroCrossing` — DataSetEstimators.hpp:440-462, from place `i` on. -/
def crossLoop (rising : Bool) (threshold : Rat) (xs : List Rat) (ys : List (Option Rat)) (hi : Nat) :
    Nat → Nat → Option (Nat × Rat)
  | 0, _ => none
  | fuel + 1, i =>
    if i < hi then
      match (ys[i - 1]?).getD none, (ys[i]?).getD none with
      | some yp, some yc =>
        if (if rising then yc ≥ threshold else yc ≤ threshold) then
          some (i, linearInterpolate (xs.getD (i - 1) 0) (xs.getD i 0) yp yc threshold)
        else crossLoop rising threshold xs ys hi fuel (i + 1)
      | _, _ => crossLoop rising threshold xs ys hi fuel (i + 1)
    else none

/-- `getZeroCrossing` — DataSetEstimators.hpp:431-482: the value returned. A comparison with "not a number" is false. -/
def getZeroCrossing (xs : List Rat) (ys : List (Option Rat)) (threshold : Rat) (lo hi : Nat) : Option Rat :=
  let rising := match (ys[0]?).getD none with
    | some v => decide (v < threshold)
    | none => false
  match crossLoop rising threshold xs ys hi (hi - lo) (lo + 1) with
  | some (_, v) => some v
  | none => (ys[hi - 1]?).getD none

end Verif.DEst
