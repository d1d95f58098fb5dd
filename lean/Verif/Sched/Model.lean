/-!
# Model of the schedulers' job lists, execution orders and work-list traversal

Sources: core/include/gnuradio-4.0/Scheduler.hpp:718-745 (`traverseBlockListOnce`, `availableThreadCount`), 1922-1952
(`Simple::customInit`), 1959-1968 (`detail::batchBlocks`), 1991-2054 (`BreadthFirst::customInit`), 2067-2122
(`DepthFirst::customInit`); Graph.hpp:967-974 (`computeAdjacencyList`), 1081-1097 (`findSourceBlocks`).

Blocks are identified by natural numbers (the code compares `shared_ptr`s). The graph is the flattened one. The order in which the
code's hash maps yield the outgoing edges of a block, and the order of the source blocks (sorted by name), are not fixed by the code
base: every theorem ranges over all edge lists and all orders of the source list, which covers all of these orders.
-/
namespace Verif.Sched

/-- the inner loop `for (j = i; j < nBlocks; j += n_batches) job.push_back(blocks[j])` —
Scheduler.hpp:1947-1949 and 1963-1965 -/
def strideFrom {α : Type} (xs : List α) (n : Nat) (j : Nat) : List α :=
  if h : j < xs.length ∧ 0 < n then xs[j] :: strideFrom xs n (j + n) else []
termination_by xs.length - j
decreasing_by omega

/-- `detail::batchBlocks` and the loop of `Simple::customInit` — Scheduler.hpp:1942-1951, 1959-1968 -/
def batchBlocks {α : Type} (xs : List α) (nBatches : Nat) : List (List α) :=
  (List.range nBatches).map (strideFrom xs nBatches)

/-- `availableThreadCount` — Scheduler.hpp:740-745 -/
def availableThreadCount (poolMaxThreads busyThreads : Nat) : Nat :=
  if poolMaxThreads > busyThreads then poolMaxThreads - busyThreads else 1

/-- `n_batches` — Scheduler.hpp:1929-1936, 2048 -/
def nBatches (multiThreaded : Bool) (threads nBlocks : Nat) : Nat :=
  if multiThreaded then min threads nBlocks else 1

/-- the execution order of the `Simple` scheduler — Scheduler.hpp:1922-1952 -/
def simpleOrder {α : Type} (multiThreaded : Bool) (poolMax busy : Nat) (blocks : List α) : List (List α) :=
  batchBlocks blocks (nBatches multiThreaded (availableThreadCount poolMax busy) blocks.length)

/-! ## one pass over a work list -/

/-- `work::Status` — WorkStatus.hpp:12-18 -/
inductive Status where
  | error | insufficientOut | insufficientIn | done | ok
  deriving DecidableEq, Repr

/-- `work::Result` — WorkStatus.hpp:20-24 -/
structure Result where
  requested : Nat
  performed : Nat
  status : Status
  deriving DecidableEq, Repr

/-- the loop of `traverseBlockListOnce` — Scheduler.hpp:722-731. `blocks` are the results the blocks' `work` calls return when called
in turn; the second component counts the calls made. -/
def traverseLoop (maxItems : Nat) : List Result → Nat → Bool → Nat → Result × Nat
  | [], performed, unfinished, calls => (⟨maxItems, performed, if unfinished then .ok else .done⟩, calls)
  | r :: rs, performed, unfinished, calls =>
    let performed := performed + r.performed
    if r.status = .error then (⟨r.requested, performed, .error⟩, calls + 1)
    else traverseLoop maxItems rs performed (unfinished || decide (r.status ≠ .done)) (calls + 1)

/-- `traverseBlockListOnce` — Scheduler.hpp:718-736 -/
def traverseBlockListOnce (maxItems : Nat) (blocks : List Result) : Result × Nat :=
  traverseLoop maxItems blocks 0 false 0

/-! ## execution orders computed by graph traversal -/

/-- an edge: source and destination block (ports only influence the order) — Graph.hpp Edge -/
abbrev Edge := Nat × Nat

/-- the destinations of the outgoing edges of a block — Graph.hpp:967-974 (`computeAdjacencyList`) -/
def outs (es : List Edge) (b : Nat) : List Nat := (es.filter (fun e => e.1 == b)).map (·.2)

/-- the keys of the adjacency list that are no destination — Graph.hpp:1081-1097 (`findSourceBlocks`); the code sorts them by name -/
def findSourceBlocks (es : List Edge) : List Nat :=
  (es.map (·.1)).eraseDups.filter (fun b => !(es.map (·.2)).contains b)

/-- the inner loops of the breadth-first search: `if (reached.insert(dst).second) queue.push(dst)` — Scheduler.hpp:2020-2024, 2035-2044 -/
def enqueueNew : List Nat → List Nat → List Nat → List Nat × List Nat
  | [], queue, reached => (queue, reached)
  | d :: ds, queue, reached =>
    if reached.contains d then enqueueNew ds queue reached else enqueueNew ds (queue ++ [d]) (reached ++ [d])

/-- `while (!queue.empty())` — Scheduler.hpp:2026-2046. `none`: `fuel` iterations were not enough. -/
def bfsLoop : Nat → List Edge → List Nat → List Nat → List Nat → Option (List Nat)
  | 0, _, _, _, _ => none
  | _ + 1, _, [], _, blockList => some blockList
  | fuel + 1, es, current :: queue, reached, blockList =>
    let blockList := if blockList.contains current then blockList else blockList ++ [current]
    let (queue, reached) := enqueueNew (outs es current) queue reached
    bfsLoop fuel es queue reached blockList

/-- `BreadthFirst::customInit` up to the batching — Scheduler.hpp:2011-2046 -/
def bfsOrder (es : List Edge) (sources : List Nat) : Option (List Nat) :=
  let (queue, reached) := enqueueNew sources [] []
  bfsLoop (sources.length + es.length + 1) es queue reached []

/-- the recursive lambda `dfs` — Scheduler.hpp:2096-2110. `none`: recursion deeper than `fuel`. -/
def dfsVisit : Nat → List Edge → List Nat → Nat → Option (List Nat)
  | 0, _, _, _ => none
  | fuel + 1, es, visited, node =>
    if visited.contains node then some visited
    else (outs es node).foldlM (dfsVisit fuel es) (visited ++ [node])

/-- `DepthFirst::customInit` up to the batching — Scheduler.hpp:2089-2114 -/
def dfsOrder (es : List Edge) (sources : List Nat) : Option (List Nat) :=
  sources.foldlM (dfsVisit (sources.length + es.length + 1) es) []

end Verif.Sched
