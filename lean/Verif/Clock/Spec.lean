import Verif.Clock.Model
/-! # What is asked of the clock source and its timing -/
namespace Verif.Clock.Spec
open Verif.Clock

/-- Samples published by a sequence of calls. -/
def total : List Out → Nat
  | [] => 0
  | o :: os => o.samples + total os

/-- Tags with the sample of the stream they are at; `p` samples were published before. -/
def placed (p : Nat) : List Out → List (Nat × Event)
  | [] => []
  | o :: os =>
    (match o.tag with
      | some (d, e) => [(p + d, e)]
      | none => []) ++ placed (p + o.samples) os

/-- The entries of `tags` among them. -/
def tagsOf : List (Nat × Event) → List (Nat × Nat) :=
  List.filterMap fun x => match x with
    | (p, .tag i) => some (p, i)
    | _ => none

/-- The entries of `tag_times` among them. -/
def timesOf : List (Nat × Event) → List (Nat × String) :=
  List.filterMap fun x => match x with
    | (p, .time l) => some (p, l)
    | _ => none

/-- Where the `k`-th tag by time belongs: within the first round at its time; in later rounds, if the sequence
repeats, a period later each time, in whole microseconds. -/
def timeAt (c : Cfg) (k : Nat) : Option Nat :=
  match c.times[k % c.times.length]? with
  | none => none
  | some t =>
    if k < c.times.length ∨ c.times.getLast?.getD 0 ≤ c.period then
      some (c.sampleAt (((k / c.times.length) * (c.period / 1000 * 1000) + t : Nat) : Int))
    else none

/-- Its text: that given for it, or the last one or none where there are fewer texts than times. -/
def timeLabel (c : Cfg) (k : Nat) : String :=
  match c.values[k % c.times.length]? with
  | some v => v
  | none => if c.hold then c.values.getLast?.getD "" else ""

/-- There is a text to hold, if texts are to be held. -/
def HasText (c : Cfg) : Prop := c.times = [] ∨ c.hold = false ∨ c.values ≠ []

/-- Tags in order, no two at the same sample. -/
structure Ordered (c : Cfg) : Prop where
  tags : ∀ i p q, c.tags[i]? = some p → c.tags[i + 1]? = some q → p < q
  small : ∀ p ∈ c.tags, p < 2 ^ 32
  times : ∀ k p q, timeAt c k = some p → timeAt c (k + 1) = some q → p < q
  apart : ∀ k p, timeAt c k = some p → p ∉ c.tags

/-- Times at which calls are made do not go back. -/
def Forward (from_ : Int) : List (Int × Nat) → Prop
  | [] => True
  | (t, _) :: l => from_ ≤ t ∧ Forward t l

/-- The last of these times. -/
def final_ (from_ : Int) : List (Int × Nat) → Int
  | [] => from_
  | (t, _) :: l => final_ t l

/-- Tasks that still use the block. -/
def live (ts : List Task) : Nat := (ts.filter (· != .notify)).length

end Verif.Clock.Spec
