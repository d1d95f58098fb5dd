import Verif.DEst.Model

/-!
# Step starts and settling times

Model of `detectStepStart` and `getSettingTime` of
`/repo/algorithm/include/gnuradio-4.0/algorithm/dataset/DataSetEstimators.hpp`.
-/

namespace Verif.DEst

open Verif.DSet (Res)

/-- `detectStepStart` — DataSetEstimators.hpp:494-553, for a signal of finite values and a range already checked: the place of
the step and whether it rises. `lower_bound` (line 531) as the first place that is not less, which is what it finds on a
sorted axis. The check of the data set (line 497) and the events added are left out. -/
def detectStepStart (lowest highest : Rat) (xs ys : List Rat) (threshold : Rat) (lo hi : Nat) : Res (Option (Nat × Bool)) :=
  match ys with
  | [] => .throws
  | initial :: _ =>
    match getMaximum lowest (ys.map some) lo hi, getMinimum highest (ys.map some) lo hi with
    | some (_, some maxVal), some (_, some minVal) =>
      let rising := decide (initial < maxVal)
      let falling := decide (initial > minVal)
      if !rising && !falling then .ok none
      else
        let level := if rising then initial + threshold * (maxVal - initial) else initial - threshold * (initial - minVal)
        match getZeroCrossing xs (ys.map some) level lo hi with
        | none => .ok none
        | some t =>
          let index := xs.findIdx fun x => !decide (x < t)
          if index ≥ xs.length then .ok none
          else if index ≥ ys.length then .ok none
          else .ok (some (index, rising))
    | _, _ => .throws

/-- The first loop of `getSettingTime` — DataSetEstimators.hpp:570-576: the first window whose spread is within the tolerance.
Squares are compared instead of roots. -/
def settleScan (ys : List (Option Rat)) (w : Nat) (tol : Rat) (hi : Nat) : Nat → Nat → Option Nat
  | 0, _ => none
  | fuel + 1, i =>
    if i + w ≤ hi then
      if 0 ≤ tol ∧ getRms2 ys i (i + w) ≤ tol * tol then some i else settleScan ys w tol hi fuel (i + 1)
    else none

/-- The second loop — DataSetEstimators.hpp:585-591: how far the window may grow. -/
def growLoop (ys : List (Option Rat)) (s w hi : Nat) : Nat → Nat → Rat → Nat
  | 0, m, _ => m
  | fuel + 1, m, prev =>
    if m + w < hi then
      let r := getRms2 ys s (m + w)
      if r ≥ prev then m else growLoop ys s w hi fuel (m + 1) r
    else m

/-- `getSettingTime` — DataSetEstimators.hpp:556-612, for a range already checked. `optional::value` of a missing extreme throws. -/
def settling (lowest highest : Rat) (ys : List (Option Rat)) (w : Nat) (tolerance : Rat) (lo hi : Nat) :
    Res (Option (Nat × Option Rat)) :=
  if w = 0 || hi - lo < w then .ok none
  else
    let tol : Res Rat :=
      if tolerance = 0 then
        match getMinimum highest ys lo hi, getMaximum lowest ys lo hi with
        | some (_, some mn), some (_, some mx) => .ok (2 / 100 * (if mx - mn < 0 then -(mx - mn) else mx - mn))
        | _, _ => .throws
      else .ok tolerance
    match tol with
    | .ok tol =>
      match settleScan ys w tol hi (hi - lo + 1) lo with
      | none => .ok none
      | some s =>
        let m := growLoop ys s w hi (hi - s) s (getRms2 ys s (s + w))
        .ok (some (s + w / 2, getMean ys s (m + w)))
    | .throws => .throws
    | .undef => .undef

end Verif.DEst
