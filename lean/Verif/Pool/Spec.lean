import Verif.Pool.Model
/-!
# What can be observed of a thread pool
-/
namespace Verif.Pool

/-- the task is waiting in the queue. -/
def Waiting (c : Conf) (id : Nat) : Prop := ∃ t ∈ c.queue, t.id = id

/-- a worker has taken the task and is about to call it. -/
def Taken (c : Conf) (id : Nat) : Prop := ∃ t : Task, t.id = id ∧ (.got t ∈ c.workers ∨ .start t ∈ c.workers ∨ .call t ∈ c.workers)

/-- the task has been submitted: its place in the order of submissions has been reached. -/
def Submitted (c : Conf) (id : Nat) : Prop := id < c.nextId

/-- nobody asks for a shutdown. -/
def NoShutdown (s : List Act) : Prop := .shutdown ∉ s

/-- no thread start fails. -/
def NoFailure (s : List Act) : Prop := ∀ i, .caller i .fails ∉ s

/-- nobody changes the bounds on the number of threads. -/
def FixedBounds (s : List Act) : Prop := ∀ n, .setMin n ∉ s ∧ .setMax n ∉ s

/-- steps of the workers and of `execute` calls that are already going on: nothing new is submitted. -/
def Internal : Act → Prop
  | .worker _ _ => True
  | .caller _ .go => True
  | .caller _ (.wake _) => True
  | _ => False

/-- Steps that happen while nobody interferes from outside and no wait ends by time or chance. -/
def Undisturbed : Act → Prop
  | .worker _ .timeout => False
  | .worker _ .spurious => False
  | .worker _ _ => True
  | .caller _ .go => True
  | _ => False

/-- `wait_for` requires that all threads waiting on a condition variable at the same time use the same mutex; otherwise the
behaviour is undefined ([thread.condition.condvar]). Every worker uses its own one (thread_pool.hpp:618, 647). -/
def WaitsWithDifferentMutexes (c : Conf) : Prop := ∃ i j : Nat, i ≠ j ∧ c.workers[i]? = some .blocked ∧ c.workers[j]? = some .blocked

/-- `t` has to run before `u`: higher priority, or the same one and submitted earlier. -/
def Before (t u : Task) : Prop := u.prio < t.prio ∨ (u.prio = t.prio ∧ t.id < u.id)

/-- every submission uses a priority that fits into 31 bits. -/
def SmallPriorities (s : List Act) : Prop := ∀ i p, Act.caller i (.submit p) ∈ s → p < 2147483648

end Verif.Pool
