import Verif.Log.Model
/-!
# What the log record store promises

A sequential description: a list of all accepted records, how many of them have been drained and
how many were refused, all since the last `clear`. It does not use the array, the indices or the
busy flag of the model.
-/
namespace Verif.Log.Spec
open Verif.Log (Rec Ev)

/-- Everything accepted since the last `clear` (oldest first), how many of these had been accepted
at the last drain, and how many records were refused since the last `clear`. -/
structure Store where
  accepted : List Rec := []
  seen : Nat := 0
  refused : Nat := 0

/-- The effect of an event. -/
def Store.after (a : Store) : Ev → Store
  | .accepted _ stored => { a with accepted := a.accepted ++ [stored] }
  | .refused _ => { a with refused := a.refused + 1 }
  | .gave true _ => { a with seen := a.accepted.length }
  | .cleared => {}
  | _ => a

/-- The state after a list of events. -/
def state (es : List Ev) : Store := es.foldl Store.after {}

/-- The newest twenty. -/
def newest (l : List Rec) : List Rec := (l.reverse.take 20).reverse

/-- An event that the state allows. -/
def Store.Allows (a : Store) : Ev → Prop
  /- the stored record is the given one; its count is raised to the number of records that are no
     longer there: those pushed out by then, this one included, and those refused -/
  | .accepted r stored =>
      stored.body = r.body ∧
      stored.droppedBefore = max r.droppedBefore ((a.accepted.length + 1 - 20) + a.refused)
  | .refused _ => True
  /- a snapshot shows the newest twenty, oldest first -/
  | .gave false given => given = newest a.accepted
  /- a drain shows those among the newest twenty that came after the previous drain -/
  | .gave true given =>
      given = newest (a.accepted.drop a.seen)
  | .gaveNothing => True
  | .cleared => True
  | .clearSkipped => True

/-- A list of events in which every event is allowed by what went before it. -/
def Legal (es : List Ev) : Prop :=
  ∀ before e rest, es = before ++ e :: rest → (state before).Allows e

/-- What all drains together handed out. -/
def drainedAll : List Ev → List Rec
  | [] => []
  | .gave true given :: es => given ++ drainedAll es
  | _ :: es => drainedAll es

end Verif.Log.Spec
