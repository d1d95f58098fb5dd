import Verif.Sink.WinModel
/-!
# Data set pollers, and the sink for data sets — model of blocks/basic/include/gnuradio-4.0/basic/DataSink.hpp

The ring buffer between sink and user is a queue (C01, C02); the sink's thread and the user's thread take steps in any order.
-/
namespace Verif.Sink

/-- `DataSetPoller`, whether its listener may hold the sink back, and where its user is; `got` are the calls of the user's function
— DataSink.hpp:122-141 -/
structure Sets (δ : Type) where
  cap : Nat
  blocking : Bool
  lo : Nat
  hi : Nat
  queue : List δ
  dropped : Nat
  finished : Bool
  plan : Option Nat
  got : List (List δ)
deriving DecidableEq, Repr

/-- steps of the sink's thread (`publish`, `stop`) and of the user's thread (`look`, `take`) -/
inductive SetAct (δ : Type) where
  | publish (d : δ)
  | stop
  | look (requested : Nat)
  | take
deriving DecidableEq, Repr

variable {δ : Type}

/-- one step; `none` if the thread has to wait or is not at this place.
`publish`: DataSink.hpp:696-714, 1157-1175; `stop`: 907-909, 970-972, 1032-1034, 1185-1189;
`look` computes how many data sets to process (66-69, 137), and without enough of them `process` returns false (138-140);
`take` calls the function and frees the room (142-145) -/
def Sets.step (s : Sets δ) : SetAct δ → Option (Sets δ)
  | .publish d =>
    if s.queue.length < s.cap then some { s with queue := s.queue ++ [d] }
    else if s.blocking then none
    else some { s with dropped := s.dropped + 1 }
  | .stop => some { s with finished := true }
  | .look requested =>
    match s.plan with
    | some _ => none
    | none =>
      let n := min s.queue.length (max s.lo (min requested s.hi))
      some (if n < s.lo then s else { s with plan := some n })
  | .take =>
    match s.plan with
    | none => none
    | some n => some { s with plan := none, got := s.got ++ [s.queue.take n], queue := s.queue.drop n }

/-- steps in order -/
def Sets.run (s : Sets δ) : List (SetAct δ) → Option (Sets δ)
  | [] => some s
  | a :: r => match s.step a with
    | none => none
    | some s' => s'.run r

/-- `process` of the listeners of `DataSetSink`: the data sets that are published — DataSink.hpp:1177-1183 -/
def setListener (matcher : δ → Bool) (ins : List (List δ)) : List δ := ins.flatMap fun l => l.filter matcher

/-- which kind of poller is asked for -/
inductive PollKind where
  | streaming | trigger | multiplexed | snapshot | dataSet
deriving DecidableEq, Repr

/-- the flag `finished` of a new poller; `stopped` is `_listeners_finished` — DataSink.hpp:544-579, 1084-1091 -/
def newFinished (k : PollKind) (stopped : Bool) : Bool :=
  match k with
  | .streaming | .trigger | .dataSet => stopped
  | .multiplexed | .snapshot => false

end Verif.Sink
