import Verif.LifeCycle.Model
/-!
# Independent specification of the life cycle

`Diagram` transcribes the state diagram printed in LifeCycle.hpp:36-72 arrow by arrow.
-/
namespace Verif.LifeCycle

/-- The arrows of the documented state diagram (LifeCycle.hpp:36-72); ERROR is reachable from anywhere. -/
inductive Diagram : State → State → Prop where
  | toError (s)     : Diagram s .error
  | init            : Diagram .idle .initialised
  | idleStop        : Diagram .idle .stopped
  | initStop        : Diagram .initialised .stopped
  | start           : Diagram .initialised .running
  | stop            : Diagram .running .requestedStop
  | pause           : Diagram .running .requestedPause
  | paused          : Diagram .requestedPause .paused
  | resume          : Diagram .paused .running
  | stopPausing     : Diagram .requestedPause .requestedStop
  | stopPaused      : Diagram .paused .requestedStop
  | stopped         : Diagram .requestedStop .stopped
  | resetStopped    : Diagram .stopped .initialised
  | resetError      : Diagram .error .initialised

/-- Arrows the implementation has in addition to the printed diagram. -/
inductive Extra : State → State → Prop where
  | idleReqStop : Extra .idle .requestedStop
  | initReqStop : Extra .initialised .requestedStop

/-- The stores of a trace form a path from `s` to `t` all of whose arrows satisfy `R`. -/
def Path (R : State → State → Prop) : State → List (State × State) → State → Prop
  | s, [], t => s = t
  | s, (a, b) :: rest, t => a = s ∧ R a b ∧ Path R b rest t

/-- The state changes contained in a trace. -/
def stores : List Event → List (State × State)
  | [] => []
  | .set a b :: r => (a, b) :: stores r
  | _ :: r => stores r

/-- The completed hook calls of a trace with their outcome. -/
def hooks : List Event → List (Hook × Bool)
  | [] => []
  | .returned h ok :: r => (h, ok) :: hooks r
  | _ :: r => hooks r

/-- Which hook may directly follow which (possibly none) hook call.
`start` only directly after a successful `init` or `reset`; `pause` only directly after a successful `start` or
`resume`; `resume` only directly after a successful `pause`; `stop` never directly after another `stop`
or after a failed hook; `init` only as the very first hook. -/
def MayFollow : Option (Hook × Bool) → Hook → Prop
  | prev, .init   => prev = none
  | prev, .start  => prev = some (.init, true) ∨ prev = some (.reset, true)
  | prev, .pause  => prev = some (.start, true) ∨ prev = some (.resume, true)
  | prev, .resume => prev = some (.pause, true)
  | prev, .stop   => prev = none ∨ ∃ h, prev = some (h, true) ∧ h ≠ .stop
  | _,    .reset  => True

/-- The arrow on which each hook runs (documentation at LifeCycle.hpp:124-132). -/
inductive RunsOn : Hook → State → State → Prop where
  | init : RunsOn .init .idle .initialised
  | start : RunsOn .start .initialised .running
  | stop (s) : RunsOn .stop s .requestedStop
  | pause (s) : RunsOn .pause s .requestedPause
  | resume : RunsOn .resume .paused .running
  | resetStopped : RunsOn .reset .stopped .initialised
  | resetError : RunsOn .reset .error .initialised

end Verif.LifeCycle
