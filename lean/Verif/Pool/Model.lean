/-!
# Model of `gr::thread_pool::BasicThreadPool` (core/include/gnuradio-4.0/thread/thread_pool.hpp)

Every access to a shared atomic, every critical section of a task queue and every condition-variable operation is one step;
any number of submitting threads and workers; sequentially consistent interleaving. Counters are integers without wrap-around
(shown never to become negative). A task is its place in the order of submissions (the order of the `push` calls, which
need not be that of the code's task ids, as ids are not observable) and its priority; what its function does is
not modelled, except that it starts once it is called and may or may not return. A function that itself submits tasks is
covered by the submitting threads being independent of the workers. Task names, recycled task objects beyond their number,
CPU affinity of a single task, the process-wide thread counter and the joining of threads are not part of the state.
-/
namespace Verif.Pool

/-- `detail::Task` — thread_pool.hpp:183-197: id and priority (an `int32_t`). -/
structure Task where
  id : Nat
  prio : Int
  deriving DecidableEq, Repr

/-- Conversion of the template argument `uint32_t priority` to the `int32_t` member — thread_pool.hpp:190, 600. -/
def toInt32 (p : Nat) : Int := if p % 4294967296 < 2147483648 then (p % 4294967296 : Nat) else (p % 4294967296 : Nat) - 4294967296

/-- `TaskQueue::push` with one task — thread_pool.hpp:241-257: priority 0 goes to the end, any other one before the first
task whose priority is lower. -/
def push (q : List Task) (t : Task) : List Task :=
  if t.prio = 0 then q ++ [t]
  else q.takeWhile (fun u => !decide (u.prio < t.prio)) ++ t :: q.dropWhile (fun u => !decide (u.prio < t.prio))

/-- Progress of a worker in `worker` — thread_pool.hpp:614-676. -/
inductive WPc where
  | top                       -- before `popTask`, 624
  | got (t : Task)            -- popped, `_numTaskedQueued` not yet decremented, 607-609
  | start (t : Task)          -- before `_numTasksRunning.fetch_add(1)`, 627
  | call (t : Task)           -- before `currentTask.func()`, 632
  | busy (t : Task)           -- inside `currentTask.func()`
  | ran                       -- function returned; before `reset` and recycling, 634-635
  | fin                       -- before `_numTasksRunning.fetch_sub(1)`, 636
  | empty                     -- nothing popped, 642
  | pred                      -- `wait_for`: about to evaluate `numTasksQueued() > 0`, 647
  | pred2                     -- `wait_for`: about to evaluate `isShutdown()`, 647
  | toBlock                   -- `wait_for`: the condition was false, not yet waiting
  | blocked                   -- `wait_for`: waiting
  | check                     -- before `isShutdown()`, 651
  | leave                     -- before `_numThreads.fetch_sub(1)`, 652
  | shrink                    -- before `numThreads()`, 661
  | shrinkCmp (n : Int)       -- before the comparison with `minThreads()`, 662
  | shrinkCas (n : Int)       -- before the compare-and-swap, 663
  | clear1                    -- last thread: before `_recycledTasks.clear()`, 656, 667
  | clear2                    -- last thread: before `_taskQueue.clear()`, 657, 668
  | gone                      -- returned
  deriving DecidableEq, Repr

/-- Progress of a submitting thread in `execute` — thread_pool.hpp:440-465. -/
inductive CPc where
  | idle
  | counted (p : Nat)         -- `_numTaskedQueued` incremented, task not yet pushed, 449-451
  | notify                    -- before `_condition.notify_one()`, 452, 460
  | size                      -- before `_taskQueue.size() > 0`, 456
  | grow                      -- before `numThreads()` of 456
  | growCmp (n : Int)         -- before `maxThreads()` of 456
  | need                      -- before `numThreads()` of 457
  | needRun (n : Int)         -- before `numTasksRunning()` of 457
  | needMax (n : Int)         -- before `maxThreads()` of 457
  | create                    -- in `createWorkerThread` before `_numThreads.fetch_add`, 551
  | spawn                     -- before the thread is started, 554
  deriving DecidableEq, Repr

structure Conf where
  queue : List Task           -- `_taskQueue`
  queued : Int                -- `_numTaskedQueued`
  running : Int               -- `_numTasksRunning`
  threads : Int               -- `_numThreads`
  recycled : Nat              -- `_recycledTasks.size()`
  shutdown : Bool
  minT : Int
  maxT : Int
  nextId : Nat                -- `_taskID`; ids below it have been given to tasks that were pushed
  workers : List WPc
  callers : List CPc
  started : List Nat          -- observable: ids of tasks whose function was called, in order
  finished : List Nat         -- observable: ids of tasks whose function returned, in order
  dropped : List Nat          -- ids of tasks that were in a cleared queue
  deriving DecidableEq, Repr

/-- Steps of worker `i`. The arguments are choices the model leaves open: whether a worker that found nothing goes to sleep
(it does so after 256 fruitless attempts, 642) and whether its keep-alive time has run out (660). -/
inductive WAct where
  | go                        -- the next step, where there is only one
  | spin                      -- found nothing, try again, 642
  | sleep                     -- found nothing, wait, 647
  | timeout                   -- the wait ends because the time is over
  | spurious                  -- the wait ends without reason; the condition is evaluated again
  | expired                   -- at `check`: last used more than `keepAliveDuration` ago, 660
  | casFails                  -- spurious failure of `compare_exchange_weak`, 663
  deriving DecidableEq, Repr

/-- Steps of submitting thread `i`. -/
inductive CAct where
  | submit (p : Nat)          -- call `execute` with priority `p`
  | go
  | wake (w : Nat)            -- `notify_one` wakes worker `w`
  | fails                     -- `createWorkerThread` throws (thread limit 547-550, or the thread cannot be started 556-560)
  deriving DecidableEq, Repr

inductive Act where
  | worker (i : Nat) (a : WAct)
  | caller (i : Nat) (a : CAct)
  | setMin (n : Nat)          -- first store of `setThreadBounds`, 405
  | setMax (n : Nat)          -- second store of `setThreadBounds`, 406
  | notifyAll                 -- `notify_all` of `setThreadBounds`, `requestShutdown` and the destructor, 407, 412, 375
  | shutdown                  -- `_shutdown = true` of `requestShutdown` and the destructor, 411, 374
  deriving DecidableEq, Repr

def setW (c : Conf) (i : Nat) (p : WPc) : Conf := { c with workers := c.workers.set i p }
def setC (c : Conf) (i : Nat) (p : CPc) : Conf := { c with callers := c.callers.set i p }

/-- A notification ends the wait: the condition is evaluated again — thread_pool.hpp:647. -/
def wakeUp : WPc → WPc
  | .blocked => .pred
  | p => p

/-- One step of worker `i` standing at `pc` — thread_pool.hpp:606-676. Choices that do not fit are ignored. -/
def stepW (c : Conf) (i : Nat) : WPc → WAct → Conf
  | .top, .go =>                                                                     -- 259-266, 607
    match c.queue with
    | [] => setW c i .empty
    | t :: q => setW { c with queue := q } i (.got t)
  | .got t, .go => setW { c with queued := c.queued - 1 } i (.start t)               -- 609
  | .start t, .go => setW { c with running := c.running + 1 } i (.call t)            -- 627
  | .call t, .go => setW { c with started := c.started ++ [t.id] } i (.busy t)       -- 632
  | .busy t, .go => setW { c with finished := c.finished ++ [t.id] } i .ran          -- 632
  | .ran, .go => setW { c with recycled := c.recycled + 1 } i .fin                   -- 634-635
  | .fin, .go => setW { c with running := c.running - 1 } i .check                   -- 636-641
  | .empty, .spin => setW c i .check                                                 -- 642
  | .empty, .sleep => setW c i .pred                                                 -- 642-647
  | .pred, .go => if c.queued > 0 then setW c i .check else setW c i .pred2          -- 647
  | .pred2, .go => if c.shutdown then setW c i .check else setW c i .toBlock         -- 647
  | .toBlock, .go => setW c i .blocked                                               -- 647
  | .blocked, .timeout => setW c i .check                                            -- 647
  | .blocked, .spurious => setW c i .pred                                            -- 647
  | .check, .go => if c.shutdown then setW c i .leave else setW c i .top             -- 651, 675
  | .check, .expired => if c.shutdown then setW c i .leave else setW c i .shrink     -- 651, 660
  | .leave, .go =>                                                                   -- 652-659
    setW { c with threads := c.threads - 1 } i (if c.threads = 1 then .clear1 else .gone)
  | .shrink, .go => setW c i (.shrinkCmp c.threads)                                  -- 661
  | .shrinkCmp n, .go => if n > c.minT then setW c i (.shrinkCas n) else setW c i .top   -- 662, 675
  | .shrinkCas n, .go =>                                                             -- 663-671
    if c.threads = n then setW { c with threads := n - 1 } i (if n = 1 then .clear1 else .gone)
    else setW c i (.shrinkCmp c.threads)
  | .shrinkCas _, .casFails => setW c i (.shrinkCmp c.threads)                       -- 663
  | .clear1, .go => setW { c with recycled := 0 } i .clear2                          -- 656, 667
  | .clear2, .go =>                                                                  -- 657, 668
    setW { c with queue := [], dropped := c.dropped ++ c.queue.map Task.id } i .gone
  | _, _ => c

/-- One step of submitting thread `i` standing at `pc` — thread_pool.hpp:440-465, 543-569. -/
def stepC (c : Conf) (i : Nat) : CPc → CAct → Conf
  | .idle, .submit p => setC { c with queued := c.queued + 1 } i (.counted p)        -- 449
  | .counted p, .go =>                                                               -- 451, 571-604: takes a recycled object if there is one
    setC { c with queue := push c.queue ⟨c.nextId, toInt32 p⟩, nextId := c.nextId + 1, recycled := c.recycled - 1 } i .notify
  | .notify, .wake w =>                                                              -- 452, 460
    match c.workers[w]? with
    | some .blocked => setC (setW c w .pred) i .size
    | _ => c
  | .notify, .go => if .blocked ∈ c.workers then c else setC c i .size               -- 452, 460: nobody is waiting
  | .size, .go => if c.queue = [] then setC c i .idle else setC c i .grow            -- 456
  | .grow, .go => setC c i (.growCmp c.threads)                                      -- 456
  | .growCmp n, .go => if n < c.maxT then setC c i .need else setC c i .idle         -- 456
  | .need, .go => setC c i (.needRun c.threads)                                      -- 457
  | .needRun n, .go => if n ≤ c.running then setC c i (.needMax n) else setC c i .notify   -- 457
  | .needMax n, .go => if n ≤ c.maxT then setC c i .create else setC c i .notify     -- 457
  | .create, .go => setC { c with threads := c.threads + 1 } i .spawn                -- 551
  | .create, .fails => setC c i .idle                                                -- 547-550
  | .spawn, .go => setC { c with workers := c.workers ++ [.top] } i .notify          -- 554
  | .spawn, .fails => setC { c with threads := c.threads - 1 } i .idle               -- 556-560
  | _, _ => c

/-- One atomic step of the pool. -/
def step (c : Conf) : Act → Conf
  | .worker i a => match c.workers[i]? with
    | some pc => stepW c i pc a
    | none => c
  | .caller i a => match c.callers[i]? with
    | some pc => stepC c i pc a
    | none => c
  | .setMin n => if n = 0 then c else { c with minT := n }                           -- 397-405: zero is refused
  | .setMax n => if n = 0 then c else { c with maxT := n }                           -- 397-406
  | .notifyAll => { c with workers := c.workers.map wakeUp }
  | .shutdown => { c with shutdown := true }

/-- A new pool — thread_pool.hpp:366-371 — with `k` threads that may submit tasks. -/
def init (min max k : Nat) : Conf :=
  { queue := [], queued := 0, running := 0, threads := (Nat.min min max : Nat), recycled := 0, shutdown := false,
    minT := (Nat.min min max : Nat), maxT := max, nextId := 0, workers := List.replicate (Nat.min min max) .top,
    callers := List.replicate k .idle, started := [], finished := [], dropped := [] }

/-- The state after a schedule. -/
def run (min max k : Nat) (s : List Act) : Conf := s.foldl step (init min max k)

/-- Joining the threads — thread_pool.hpp:376-378 (destructor) and 413-415 (`requestShutdown`): `join` on a thread object that
is not joinable throws (`none`); afterwards the object stays in the list and is not joinable. -/
def joinAll : List Bool → Option (List Bool)
  | [] => some []
  | true :: l => (joinAll l).map (false :: ·)
  | false :: _ => none

end Verif.Pool
