import Verif.FileIo.Model
/-!
The worker and the reader of a source, with the queue of bounded size between them, as a system of interleaved steps.

Simplified: the worker's program is the list of messages it publishes if it is not cancelled; a worker that sees the flag drops the pieces to come and goes on
with the final message. It looks at the flag before each piece only.
-/
namespace Verif.FileIo.Queue
open Verif.Bytes (Byte)

/-- The queue, the worker (the message it waits to publish, if any, and the messages after that), the flag, and the messages the reader took. -/
structure St where
  slots : Nat
  queue : List Msg
  holding : Option Msg
  todo : List Msg
  cancelled : Bool
  got : List Msg

/-- The start: nothing is published. -/
def St.init (slots : Nat) (program : List Msg) : St := { slots, queue := [], holding := none, todo := program, cancelled := false, got := [] }

/-- What is left of the program when the flag is seen. -/
def afterCancel : List Msg → List Msg
  | [] => []
  | .data _ :: ms => afterCancel ms
  | .error e :: ms => .error e :: afterCancel ms
  | .final :: ms => .final :: ms

/-- Steps of the worker. -/
inductive Work : St → St → Prop where
  /-- a piece and the flag is not set (FileIo.hpp:397-399) -/
  | begin {s : St} {b : List Byte} {ms : List Msg} : s.holding = none → s.todo = .data b :: ms → s.cancelled = false →
      Work s { s with holding := some (.data b), todo := ms }
  /-- a piece and the flag is set: it is dropped, with those after it -/
  | drop {s : St} {b : List Byte} {ms : List Msg} : s.holding = none → s.todo = .data b :: ms → s.cancelled = true →
      Work s { s with todo := afterCancel ms }
  /-- an error or the final message: published whatever the flag (460-491) -/
  | last {s : St} {m : Msg} {ms : List Msg} : s.holding = none → s.todo = m :: ms → (∀ b, m ≠ .data b) →
      Work s { s with holding := some m, todo := ms }
  /-- `publishMessage` (381-395): `reserve` waits for a free slot, and does not look at the flag -/
  | publish {s : St} {m : Msg} : s.holding = some m → s.queue.length < s.slots →
      Work s { s with holding := none, queue := s.queue ++ [m] }

/-- `poll` of the reader takes a message (FileIo.hpp:301-349). -/
inductive Take : St → St → Prop where
  | take {s : St} {m : Msg} {q : List Msg} : s.queue = m :: q → Take s { s with queue := q, got := s.got ++ [m] }

/-- `cancel` (FileIo.hpp:263-269). -/
def St.cancel (s : St) : St := { s with cancelled := true }

/-- All steps, in any order. -/
inductive Step : St → St → Prop where
  | work {s t : St} : Work s t → Step s t
  | take {s t : St} : Take s t → Step s t
  | cancel {s : St} : Step s s.cancel

/-- The states reached. -/
inductive Reach (slots : Nat) (program : List Msg) : St → Prop where
  | init : Reach slots program (.init slots program)
  | step {s t : St} : Reach slots program s → Step s t → Reach slots program t

/-- Steps of the worker only. -/
inductive Works : St → St → Prop where
  | refl {s : St} : Works s s
  | step {s t u : St} : Works s t → Work t u → Works s u

/-- Steps of the worker and of a reader that goes on taking. -/
inductive Runs : Nat → St → St → Prop where
  | refl {s : St} : Runs 0 s s
  | step {n : Nat} {s t u : St} : Runs n s t → (Work t u ∨ Take t u) → Runs (n + 1) s u

end Verif.FileIo.Queue
