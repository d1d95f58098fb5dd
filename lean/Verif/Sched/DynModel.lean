/-!
# Model of adding and removing blocks while workers run

Source: core/include/gnuradio-4.0/Scheduler.hpp:838-944 (`poolWorker`), 1064-1110 (`adoptBlock`), 1121-1173
(`removeBlocksWhileRunning`), 1592-1654 (`cleanupZombieBlocks`), 1656-1674 (`adoptBlocks`), 1680-1692 (`cleanupRemovedBlocks`),
1702-1723 (`makeZombie`), 1867-1915 (`propertyCallbackReplaceBlock`).

Every function that holds a mutex is one step. A worker is inside a `WorkGuard` while its `pc` is not `out`; removal happens inside a
quiescence guard and therefore only while every worker is outside (C48). Steps of different threads interleave arbitrarily. Block life
cycle states enter only where they matter: a zombie clean-up step carries the list of blocks that are in a deletable state at that time.
-/
namespace Verif.Sched.Dyn

/-- where a worker is — Scheduler.hpp:859-944 -/
inductive Pc where
  /-- outside of a `WorkGuard` -/
  | out
  /-- in the message phase, after `cleanupRemovedBlocks` (900) -/
  | cleaned
  /-- in the message phase, after `cleanupZombieBlocks` (904) -/
  | zombied
  /-- traversing its work list (938); the blocks still to be worked on in this pass -/
  | work (rest : List Nat)
  /-- the worker function has returned -/
  | ended
  deriving DecidableEq, Repr

/-- per runner: `_executionOrder[i]`, `_adoptionBlocks[i]`, `_movedBlocks[i]`, the worker's `localBlockList` (`none`: the worker has not
copied it yet) and its position — Scheduler.hpp:197-223, 857-863 -/
structure Runner where
  exec : List Nat := []
  adopt : List Nat := []
  moved : List Nat := []
  loc : Option (List Nat) := none
  pc : Pc := .out
  deriving DecidableEq, Repr

/-- the scheduler: `n` runners and `_zombieBlocks` -/
structure St where
  n : Nat
  rs : Nat → Runner
  zombies : List Nat := []

def upd (rs : Nat → Runner) (i : Nat) (r : Runner) : Nat → Runner := fun j => if j = i then r else rs j

def St.set (s : St) (i : Nat) (r : Runner) : St := { s with rs := upd s.rs i r }

/-- `cleanupRemovedBlocks` — Scheduler.hpp:1680-1692; both sets are computed before either list is changed -/
def cleanupRemoved (r : Runner) (l : List Nat) : Runner × List Nat :=
  let l' := l.filter (fun b => !r.moved.contains b)
  ({ r with moved := r.moved.filter (fun b => !l.contains b), loc := some l' }, l')

/-- `for (auto& jobList : *_executionOrder)`: remove the block from the first job list that contains it — Scheduler.hpp:1639-1646 -/
def dropExec (n : Nat) (rs : Nat → Runner) (z : Nat) : Nat → Runner :=
  match (List.range n).find? (fun i => (rs i).exec.contains z) with
  | some i => upd rs i { rs i with exec := (rs i).exec.filter (fun b => b != z) }
  | none => rs

/-- one iteration of the loop of `cleanupZombieBlocks` of runner `i` — Scheduler.hpp:1602-1652; `stopped`: the zombie is in state IDLE,
STOPPED, INITIALISED or ERROR. The accumulator holds the runners, the local list and the zombies kept. -/
def zombieStep (n i : Nat) (stopped : List Nat) (acc : (Nat → Runner) × List Nat × List Nat) (z : Nat) :
    (Nat → Runner) × List Nat × List Nat :=
  if acc.2.1.contains z ∧ stopped.contains z then
    (dropExec n acc.1 z, acc.2.1.erase z, acc.2.2)
  else (acc.1, acc.2.1, acc.2.2 ++ [z])

/-- `cleanupZombieBlocks` of runner `i` — Scheduler.hpp:1592-1654 -/
def cleanupZombies (s : St) (i : Nat) (l : List Nat) (stopped : List Nat) : St :=
  if l.isEmpty then s
  else
    let acc := s.zombies.foldl (zombieStep s.n i stopped) (s.rs, l, [])
    { s with rs := upd acc.1 i { acc.1 i with loc := some acc.2.1 }, zombies := acc.2.2 }

/-- `adoptBlocks` — Scheduler.hpp:1656-1674 -/
def adoptBlocks (r : Runner) (l : List Nat) : Runner :=
  { r with exec := r.exec ++ r.adopt, loc := some (l ++ r.adopt), adopt := [] }

/-- the loop over the adoption lists in `removeBlocksWhileRunning` — Scheduler.hpp:1133-1144: the blocks still to be removed from the
execution order -/
def notAwaitingAdoption (n : Nat) (rs : Nat → Runner) (bs : List Nat) : List Nat :=
  bs.filter (fun b => !(List.range n).any (fun i => (rs i).adopt.contains b))

/-- `removeBlocksWhileRunning` — Scheduler.hpp:1121-1173 -/
def removeBlocks (s : St) (bs : List Nat) : St :=
  let bs' := notAwaitingAdoption s.n s.rs bs
  { s with rs := fun i =>
      if i < s.n then
        { s.rs i with
          adopt := (s.rs i).adopt.filter (fun b => !bs.contains b)
          exec := (s.rs i).exec.filter (fun b => !bs'.contains b)
          moved := (s.rs i).moved ++ (s.rs i).exec.filter (fun b => bs'.contains b) }
      else s.rs i }

/-- `makeZombie` — Scheduler.hpp:1702-1723 -/
def makeZombie (s : St) (b : Nat) : St :=
  match (List.range s.n).find? (fun i => (s.rs i).adopt.contains b) with
  | some i => s.set i { s.rs i with adopt := (s.rs i).adopt.erase b }
  | none => { s with zombies := s.zombies ++ [b] }

/-- what `propertyCallbackReplaceBlock` does to the lists — Scheduler.hpp:1867-1915: the old block becomes a zombie; the new block,
already in the graph (Graph.cpp:43), is passed to no scheduler function -/
def replaceBlock (s : St) (old _new : Nat) : St := makeZombie s old

/-- the steps -/
inductive Act where
  /-- worker `i` starts and copies its job list (857-867) -/
  | start (i : Nat)
  /-- message phase: enter the guard and `cleanupRemovedBlocks` (897-900) -/
  | enterMsg (i : Nat)
  /-- message phase: `cleanupZombieBlocks` (904) -/
  | zombie (i : Nat) (stopped : List Nat)
  /-- message phase: `adoptBlocks`, leave the guard (906-918) -/
  | adoptAll (i : Nat)
  /-- work phase: enter the guard, `cleanupRemovedBlocks`, begin the traversal unless the list is empty (933-938) -/
  | enterWork (i : Nat)
  /-- work on the next block of the pass (723) -/
  | workOne (i : Nat)
  /-- the pass is over (`final = false`: all blocks worked on, continue; `final = true`: return because every block is done or one failed, 939-944) -/
  | leaveWork (i : Nat) (final : Bool)
  /-- `adoptBlock` of `b`, whose hash selects runner `r` (1064-1087) -/
  | adopt (b r : Nat)
  /-- `removeBlocks` under a quiescence guard (665-681) -/
  | remove (bs : List Nat)
  /-- `makeZombie` (1702) -/
  | makeZombie (b : Nat)
  deriving DecidableEq, Repr

/-- no worker is inside a `WorkGuard` -/
def quiet (s : St) : Bool := (List.range s.n).all (fun i => (s.rs i).pc = .out ∨ (s.rs i).pc = .ended)

/-- one step; `none`: the thread is not at that point -/
def step (s : St) : Act → Option St
  | .start i =>
    if i < s.n ∧ (s.rs i).loc = none then
      some (s.set i { s.rs i with loc := some (s.rs i).exec, pc := if (s.rs i).exec.isEmpty then .ended else .out })
    else none
  | .enterMsg i =>
    match (s.rs i).loc with
    | some l => if i < s.n ∧ (s.rs i).pc = .out then some (s.set i { (cleanupRemoved (s.rs i) l).1 with pc := .cleaned }) else none
    | none => none
  | .zombie i stopped =>
    match (s.rs i).loc with
    | some l =>
      if i < s.n ∧ (s.rs i).pc = .cleaned then
        let s' := cleanupZombies s i l stopped
        some (s'.set i { s'.rs i with pc := .zombied })
      else none
    | none => none
  | .adoptAll i =>
    match (s.rs i).loc with
    | some l => if i < s.n ∧ (s.rs i).pc = .zombied then some (s.set i { adoptBlocks (s.rs i) l with pc := .out }) else none
    | none => none
  | .enterWork i =>
    match (s.rs i).loc with
    | some l =>
      if i < s.n ∧ (s.rs i).pc = .out then
        let c := cleanupRemoved (s.rs i) l
        some (s.set i { c.1 with pc := if c.2.isEmpty then .out else .work c.2 })
      else none
    | none => none
  | .workOne i =>
    match (s.rs i).pc with
    | .work (_ :: rest) => if i < s.n then some (s.set i { s.rs i with pc := .work rest }) else none
    | _ => none
  | .leaveWork i final =>
    match (s.rs i).pc with
    | .work rest => if i < s.n ∧ (rest = [] ∨ final = true) then some (s.set i { s.rs i with pc := if final then .ended else .out }) else none
    | _ => none
  | .adopt b r =>
    if s.n = 0 then some s
    else if r < s.n then some (s.set r { s.rs r with adopt := (s.rs r).adopt ++ [b] }) else none
  | .remove bs => if quiet s then some (removeBlocks s bs) else none
  | .makeZombie b => some (makeZombie s b)

/-- the block worker `i` is about to work on -/
def workingOn (s : St) (i : Nat) : Option Nat :=
  match (s.rs i).pc with
  | .work (b :: _) => if i < s.n then some b else none
  | _ => none

/-- `b` is in some worker's job list or waiting for adoption -/
def Scheduled (s : St) (b : Nat) : Prop := ∃ i, i < s.n ∧ (b ∈ (s.rs i).exec ∨ b ∈ (s.rs i).adopt)

/-- the blocks worked on in a run, with the worker -/
def trace : St → List Act → List (Nat × Nat)
  | _, [] => []
  | s, a :: as =>
    match step s a with
    | none => []
    | some s' =>
      match a with
      | .workOne i => (match workingOn s i with | some b => [(i, b)] | none => []) ++ trace s' as
      | _ => trace s' as

/-- how the callers use the functions: a block is adopted when it has just been added to the graph — it is neither scheduled nor
waiting to be deleted (Scheduler.hpp:1230, 1278, 1375, 1481) -/
def Legal (s : St) : Act → Prop
  | .adopt b _ => ¬Scheduled s b ∧ b ∉ s.zombies
  | _ => True

/-- the same, and blocks are only moved away once every worker has copied its job list -/
def LegalStarted (s : St) (a : Act) : Prop :=
  Legal s a ∧ ∀ bs, a = .remove bs → ∀ i, i < s.n → (s.rs i).loc ≠ none

/-- runs of steps that `L` allows -/
inductive Run (L : St → Act → Prop) : St → List Act → St → Prop where
  | nil (s : St) : Run L s [] s
  | cons {s s1 s2 : St} {a : Act} {as : List Act} : L s a → step s a = some s1 → Run L s1 as s2 → Run L s (a :: as) s2

/-- the state in which `start` leaves the scheduler: the job lists are given (C46), the rest is empty — Scheduler.hpp:1937-1951, 786 -/
def init (jobs : List (List Nat)) : St :=
  { n := jobs.length, rs := fun i => { exec := jobs[i]?.getD [] } }

end Verif.Sched.Dyn
