/-!
# Model of `gr::lifecycle` (core/include/gnuradio-4.0/LifeCycle.hpp)
-/
namespace Verif.LifeCycle

/-- `enum class State` — LifeCycle.hpp:74. -/
inductive State where
  | idle | initialised | running | requestedPause | paused | requestedStop | stopped | error
  deriving DecidableEq, Repr

/-- `isActive` — LifeCycle.hpp:98. -/
def isActive (s : State) : Bool := s == .running || s == .requestedPause || s == .paused

/-- `isShuttingDown` — LifeCycle.hpp:100. -/
def isShuttingDown (s : State) : Bool := s == .requestedStop || s == .stopped

/-- `isValidTransition` — LifeCycle.hpp:102-118. -/
def isValidTransition (src dst : State) : Bool :=
  if dst == .error || src == dst then true
  else match src with
    | .idle           => dst == .initialised || dst == .requestedStop || dst == .stopped
    | .initialised    => dst == .running || dst == .requestedStop || dst == .stopped
    | .running        => dst == .requestedPause || dst == .requestedStop
    | .requestedPause => dst == .paused
    | .paused         => dst == .running || dst == .requestedStop
    | .requestedStop  => dst == .stopped
    | .stopped        => dst == .initialised
    | .error          => dst == .initialised

/-- The optional user hooks `init/start/stop/pause/resume/reset` — LifeCycle.hpp:124-132, 243-270. -/
inductive Hook where
  | init | start | stop | pause | resume | reset
  deriving DecidableEq, Repr

/-- Which hook `changeStateTo` invokes — the cascade of `if constexpr` blocks, LifeCycle.hpp:242-271.
`has h` says whether the derived block implements hook `h` (the `requires` clauses). The first block
whose hook is implemented and whose condition holds returns. -/
def selectHook (has : Hook → Bool) (old new : State) : Option Hook :=
  if has .init && old == .idle && new == .initialised then some .init
  else if has .start && old == .initialised && new == .running then some .start
  else if has .stop && new == .requestedStop then some .stop
  else if has .pause && new == .requestedPause then some .pause
  else if has .resume && (old == .requestedPause || old == .paused) && new == .running then some .resume
  else if has .reset && old != .idle && new == .initialised then some .reset
  else none

/-- What an observer of the block sees: stores to the state (`setAndNotifyState`, LifeCycle.hpp:147-157)
and hook invocations with their outcome (`false` = an exception escaped the hook). `called` is emitted
when the hook is entered, `returned` when it is left. -/
inductive Event where
  | set (src dst : State)
  | called (h : Hook)
  | returned (h : Hook) (ok : Bool)
  deriving DecidableEq, Repr

/-- Behaviour of a user hook: it returns normally, throws, or first requests a state change itself
(re-entrancy; e.g. `requestStop()` inside `start()`), where `inner` is the behaviour of the hook that
request may trigger; the result of the nested request is ignored by the hook. -/
inductive Beh where
  | ret
  | throw
  | req (dst : State) (inner : Beh) (rest : Beh)
  deriving Repr, DecidableEq

/-- Result of `changeStateTo`: `ok`, `invalid` (rejected request), `threw` (hook threw). -/
inductive Result where
  | ok | invalid | threw
  deriving DecidableEq, Repr

/-- `StateMachine::changeStateTo` — LifeCycle.hpp:217-274, with `invokeLifecycleMethod`
(LifeCycle.hpp:170-189) inlined: an escaping exception stores `ERROR`.
`run` is what the invoked hook does to the state and the trace, and whether it returns normally.
Simplifications: sequential execution (for concurrent callers see `CState` below);
the `stateChanged` callback is assumed not to throw. -/
def change (has : Hook → Bool) (s : State) (dst : State)
    (run : State → State × List Event × Bool) : State × List Event × Result :=
  if s == dst || (s == .stopped && dst == .requestedStop) || (s == .paused && dst == .requestedPause) then
    (s, [], .ok)
  else if !isValidTransition s dst then
    (s, [], .invalid)
  else
    match selectHook has s dst with
    | none   => (dst, [.set s dst], .ok)
    | some h =>
      let (s', ev, ok) := run dst
      if ok then (s', [.set s dst, .called h] ++ ev ++ [.returned h true], .ok)
      else (.error, [.set s dst, .called h] ++ ev ++ [.returned h false, .set s' .error], .threw)

/-- Execution of a hook body with the given behaviour. -/
def runBeh (has : Hook → Bool) : Beh → State → State × List Event × Bool
  | .ret, s => (s, [], true)
  | .throw, s => (s, [], false)
  | .req dst inner rest, s =>
    let (s1, ev1, _) := change has s dst (runBeh has inner)
    let (s2, ev2, ok) := runBeh has rest s1
    (s2, ev1 ++ ev2, ok)

/-- A history of top-level requests, each with the behaviour of the hook it may trigger. -/
def runAll (has : Hook → Bool) : List (State × Beh) → State → State × List Event
  | [], s => (s, [])
  | (dst, b) :: rest, s =>
    let (s1, ev1, _) := change has s dst (runBeh has b)
    let (s2, ev2) := runAll has rest s1
    (s2, ev1 ++ ev2)

/-! ## Concurrent callers

`changeStateTo` loads the state, validates, and later *stores* the new state without a compare-and-swap
(LifeCycle.hpp:219-237). Two threads calling it concurrently are modelled with the load and the store as
separate atomic steps; hooks are omitted. -/

/-- Per-thread progress of one `changeStateTo` call. -/
inductive Pc where
  | ready                 -- not started
  | loaded (old : State)  -- validated against `old`, store pending
  | done
  deriving DecidableEq, Repr

/-- Shared state, per-thread requested target and progress, and the history of stores. -/
structure CState where
  shared : State
  want   : List State
  pc     : List Pc
  stores : List (State × State)
  deriving DecidableEq, Repr

/-- One atomic step of thread `t`: the load-and-check (LifeCycle.hpp:219-235) or the store (237). -/
def cstep (c : CState) (t : Nat) : CState :=
  match c.want[t]?, c.pc[t]? with
  | some w, some .ready =>
    let old := c.shared
    if old == w || (old == .stopped && w == .requestedStop) || (old == .paused && w == .requestedPause) then
      { c with pc := c.pc.set t .done }
    else if !isValidTransition old w then { c with pc := c.pc.set t .done }
    else { c with pc := c.pc.set t (.loaded old) }
  | some w, some (.loaded _) =>
    { c with shared := w, pc := c.pc.set t .done, stores := c.stores ++ [(c.shared, w)] }
  | _, _ => c

end Verif.LifeCycle
