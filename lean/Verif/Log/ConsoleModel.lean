import Verif.Log.Model
/-!
# The console backend

Model of `FixedRecordBackend` (core/src/Logger.cpp:173-333): the default backend on hosted targets.
`publish` puts the record into a ring and then flushes the ring to the console itself; a full ring
makes it write to the console directly. Any number of threads publish and flush; each atomic
operation, each claim, commit and consume of the ring and each write to the console is one step.

Simplifications: sequentially consistent memory; the ring is a queue of claimed slots, each of
which is committed or not (its claims, commits and reads are modelled in `Verif.Ring`); counters do
not wrap; the history store that `publish` also feeds (295) is modelled in `Verif.Log.Model` and
shares no memory with the rest, it is left out here, as is the time stamp (293).
-/
namespace Verif.Log.Console
open Verif.Log (Rec)

/-- The fields of the backend and the console. core/src/Logger.cpp:176-181. `ring` are the slots
claimed and not yet consumed, oldest first, each with whether it is committed; `consumed` counts the
consumed ones. `lines` is what has been written, with whether it was written directly. `claimed`
and `turnedAway` record the records that got a slot and those that found the ring full. -/
structure Mem where
  ring : List (Rec × Bool) := []
  consumed : Nat := 0
  dropped : Nat := 0
  consoleBusy : Bool := false
  flushBusy : Bool := false
  lines : List (Bool × Rec) := []
  claimed : List Rec := []
  turnedAway : List Rec := []

/-- What a thread may call. core/src/Logger.cpp:291, 319 -/
inductive Op where
  | publish (r : Rec)
  | flush
deriving DecidableEq, Repr

/-- What a thread has to do next; the lines of core/src/Logger.cpp are given. -/
inductive Pc where
  | idle
  /-- 292-294 -/
  | stamp (r : Rec)
  /-- 298-300 -/
  | claim (r : Rec)
  /-- 305-306, the slot number is the absolute one -/
  | commit (r : Rec) (slot : Nat)
  /-- 301 -/
  | full (r : Rec)
  /-- 302, 239 -/
  | direct (r : Rec)
  /-- 302, 243-283 -/
  | directWrite (r : Rec)
  /-- 302, 285 -/
  | directDone
  /-- 320 -/
  | flushLock
  /-- 324-325 -/
  | flushGet
  /-- 326-327, 239: what is left of the span, and its length -/
  | flushNext (todo : List Rec) (n : Nat)
  /-- 327, 243-283 -/
  | flushWrite (r : Rec) (todo : List Rec) (n : Nat)
  /-- 327, 285 -/
  | flushWritten (todo : List Rec) (n : Nat)
  /-- 329 -/
  | flushConsume (n : Nat)
  /-- 330 -/
  | flushDone
deriving DecidableEq, Repr

/-- The whole system. -/
structure Sys where
  mem : Mem := {}
  pc : Nat → Pc := fun _ => .idle

/-- Thread `t` goes on with `p`. -/
def Sys.at_ (s : Sys) (t : Nat) (p : Pc) : Sys :=
  { s with pc := fun u => if u = t then p else s.pc u }

/-- Thread `t` calls a function; nothing happens if it is inside one already. -/
def invoke (s : Sys) (t : Nat) (op : Op) : Sys :=
  match s.pc t with
  | .idle =>
    match op with
    | .publish r => s.at_ t (.stamp r)
    | .flush => s.at_ t .flushLock
  | _ => s

/-- The committed records at the front of the ring: what the reader is given.
core/src/Logger.cpp:324 -/
def readable : List (Rec × Bool) → List Rec
  | (r, true) :: ring => r :: readable ring
  | _ => []

/-- One step of thread `t`, for a ring with `cap` slots. core/src/Logger.cpp:238-332 -/
def step (cap : Nat) (s : Sys) (t : Nat) : Sys :=
  let m := s.mem
  match s.pc t with
  | .idle => s
  -- 292-294
  | .stamp r => s.at_ t (.claim { r with droppedBefore := max r.droppedBefore m.dropped })
  -- 298-300
  | .claim r =>
    if m.ring.length < cap then
      ({ s with mem := { m with ring := m.ring ++ [(r, false)], claimed := m.claimed ++ [r] } } :
        Sys).at_ t (.commit r (m.consumed + m.ring.length))
    else ({ s with mem := { m with turnedAway := m.turnedAway ++ [r] } } : Sys).at_ t (.full r)
  -- 305-308
  | .commit r slot =>
    ({ s with mem := { m with ring := m.ring.set (slot - m.consumed) (r, true) } } : Sys).at_
      t .flushLock
  -- 301
  | .full r =>
    ({ s with mem := { m with dropped := m.dropped + 1 } } : Sys).at_
      t (.direct { r with droppedBefore := max r.droppedBefore (m.dropped + 1) })
  -- 302, 239-241
  | .direct r =>
    if m.consoleBusy then s.at_ t .idle
    else ({ s with mem := { m with consoleBusy := true } } : Sys).at_ t (.directWrite r)
  | .directWrite r =>
    ({ s with mem := { m with lines := m.lines ++ [(true, r)] } } : Sys).at_ t .directDone
  | .directDone => ({ s with mem := { m with consoleBusy := false } } : Sys).at_ t .idle
  -- 320-322
  | .flushLock =>
    if m.flushBusy then s.at_ t .idle
    else ({ s with mem := { m with flushBusy := true } } : Sys).at_ t .flushGet
  -- 324-325
  | .flushGet => s.at_ t (.flushNext (readable m.ring) (readable m.ring).length)
  -- 326-328, 239-241
  | .flushNext todo n =>
    match todo with
    | [] => s.at_ t (.flushConsume n)
    | r :: rest =>
      if m.consoleBusy then s.at_ t (.flushNext rest n)
      else ({ s with mem := { m with consoleBusy := true } } : Sys).at_ t (.flushWrite r rest n)
  | .flushWrite r todo n =>
    ({ s with mem := { m with lines := m.lines ++ [(false, r)] } } : Sys).at_ t (.flushWritten todo n)
  | .flushWritten todo n =>
    ({ s with mem := { m with consoleBusy := false } } : Sys).at_ t (.flushNext todo n)
  -- 329
  | .flushConsume n =>
    ({ s with mem := { m with ring := m.ring.drop n, consumed := m.consumed + n } } : Sys).at_
      t .flushDone
  -- 330
  | .flushDone => ({ s with mem := { m with flushBusy := false } } : Sys).at_ t .idle

/-- A schedule: who calls what and who takes the next step. -/
inductive Act where
  | call (t : Nat) (op : Op)
  | go (t : Nat)
deriving DecidableEq, Repr

/-- One entry of a schedule. -/
def act (cap : Nat) (s : Sys) : Act → Sys
  | .call t op => invoke s t op
  | .go t => step cap s t

/-- A whole schedule, from any state. -/
def runFrom (cap : Nat) (s : Sys) (acts : List Act) : Sys := acts.foldl (act cap) s

/-- A whole schedule, from an empty ring. -/
def run (cap : Nat) (acts : List Act) : Sys := runFrom cap {} acts

end Verif.Log.Console
