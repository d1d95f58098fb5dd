/-!
# Merging and thinning out ranges

Models `MergeView` and `PairDeduplicateView` of `meta/include/gnuradio-4.0/meta/RangesHelper.hpp`. An iterator into an inner range is what
is left of that range.
-/

namespace Verif.Ranges

variable {α : Type}

/-- `Iterator::next`: the loop over the inner ranges, with the number of the range and the chosen number and element so far —
RangesHelper.hpp:163-174 -/
def next (lt : α → α → Bool) : Nat → Option (Nat × α) → List (List α) → Option (Nat × α)
  | _, c, [] => c
  | idx, c, [] :: r => next lt (idx + 1) c r
  | idx, none, (x :: _) :: r => next lt (idx + 1) (some (idx, x)) r
  | idx, some b, (x :: _) :: r => next lt (idx + 1) (if lt x b.2 then some (idx, x) else some b) r

/-- The iteration: take the chosen element and move its iterator; there are at most as many steps as elements —
RangesHelper.hpp:176-190, 211-212 -/
def run (lt : α → α → Bool) : Nat → List (List α) → List α
  | 0, _ => []
  | fuel + 1, its => match next lt 0 none its with
    | none => []
    | some (i, x) => x :: run lt fuel (its.modify i List.tail)

/-- All elements that a `MergeView` yields — RangesHelper.hpp:121-213 -/
def merge (lt : α → α → Bool) (its : List (List α)) : List α := run lt (its.flatten.length + 1) its

/-- The backward search for a duplicate; results have the newest first — RangesHelper.hpp:64-76 -/
def isDuplicate (eq1 eq2 : α → α → Bool) (start cur : α) : List α → Bool
  | [] => false
  | r :: rs => if !eq1 start r then false else if eq2 r cur then true else isDuplicate eq1 eq2 start cur rs

/-- The loops: an element that is not in the chunk begins the next one — RangesHelper.hpp:50-83 -/
def loop (eq1 eq2 : α → α → Bool) : Option α → List α → List α → List α
  | _, acc, [] => acc.reverse
  | none, acc, cur :: rest => loop eq1 eq2 (some cur) (if isDuplicate eq1 eq2 cur cur acc then acc else cur :: acc) rest
  | some s, acc, cur :: rest =>
    let start := if eq1 s cur then s else cur
    loop eq1 eq2 (some start) (if isDuplicate eq1 eq2 start cur acc then acc else cur :: acc) rest

/-- `PairDeduplicateView::operator()` — RangesHelper.hpp:43-86 -/
def dedup (eq1 eq2 : α → α → Bool) (l : List α) : List α := loop eq1 eq2 none [] l

end Verif.Ranges
