/-!
# Model of work quiescence

Source: core/include/gnuradio-4.0/Scheduler.hpp:272-281 (`requestWorkQuiescence`, `releaseWorkQuiescence`), 331-338
(`WorkQuiescenceGuard`), 340-362 (`WorkGuard`), 897-945 (use by `poolWorker`).

Each atomic access is one step; any number of workers and of threads that take quiescence guards interleave arbitrarily. The model is
sequentially consistent: the code separates each store from the following load of the other variable by a sequentially consistent
fence on both sides (276 and 350), which rules out the only reordering that matters.
-/
namespace Verif.Sched.Quiesce

/-- where a worker thread is — Scheduler.hpp:346-360 -/
inductive Worker where
  /-- outside a `WorkGuard` -/
  | out
  /-- loaded the flag as false (347), not yet incremented -/
  | sawFalse
  /-- incremented the counter (348), not yet re-checked the flag -/
  | counted
  /-- re-checked the flag as false (352): executes block work until the guard is destroyed -/
  | working
  /-- re-checked the flag as true (352): does not work, guard still to be destroyed -/
  | abstain
  deriving DecidableEq, Repr

/-- where a thread that takes a quiescence guard is — Scheduler.hpp:272-281 -/
inductive Req where
  | idle
  /-- stored the flag (273), waiting for the counter to become zero (277) -/
  | waiting
  /-- the guard's constructor has returned: the topology may be changed -/
  | held
  deriving DecidableEq, Repr

/-- `_workQuiescenceRequested`, `_nWorkersInWork` (Scheduler.hpp:228-229) and the threads -/
structure St where
  flag : Bool := false
  n : Nat := 0
  workers : List Worker
  reqs : List Req
  deriving DecidableEq, Repr

/-- the steps: worker `i` loads the flag, increments, re-checks, destroys its guard; requester `j` stores the flag, reads the counter,
releases -/
inductive Act where
  | load (i : Nat) | incr (i : Nat) | recheck (i : Nat) | leave (i : Nat)
  | store (j : Nat) | readN (j : Nat) | release (j : Nat)
  deriving DecidableEq, Repr

/-- one step; `none` if the thread is not at that point — Scheduler.hpp:272-281, 346-360 -/
def step (s : St) : Act → Option St
  | .load i =>
    if s.workers[i]? = some .out then
      if s.flag then some s else some { s with workers := s.workers.set i .sawFalse }
    else none
  | .incr i =>
    if s.workers[i]? = some .sawFalse then some { s with n := s.n + 1, workers := s.workers.set i .counted } else none
  | .recheck i =>
    if s.workers[i]? = some .counted then
      some { s with workers := s.workers.set i (if s.flag then .abstain else .working) }
    else none
  | .leave i =>
    if s.workers[i]? = some .working ∨ s.workers[i]? = some .abstain then
      some { s with n := s.n - 1, workers := s.workers.set i .out }
    else none
  | .store j =>
    if s.reqs[j]? = some .idle then some { s with flag := true, reqs := s.reqs.set j .waiting } else none
  | .readN j =>
    if s.reqs[j]? = some .waiting then
      if s.n = 0 then some { s with reqs := s.reqs.set j .held } else some s
    else none
  | .release j =>
    if s.reqs[j]? = some .held then some { s with flag := false, reqs := s.reqs.set j .idle } else none

/-- the same, for guards that do not overlap: a guard is only requested while no other one is requested or held -/
def stepX (s : St) (a : Act) : Option St :=
  match a with
  | .store _ => if ∀ r ∈ s.reqs, r = .idle then step s a else none
  | _ => step s a

def run (f : St → Act → Option St) (s : St) (as : List Act) : Option St := as.foldlM f s

/-- `nw` workers and `nr` requesters, none active -/
def init (nw nr : Nat) : St := { workers := List.replicate nw .out, reqs := List.replicate nr .idle }

end Verif.Sched.Quiesce
