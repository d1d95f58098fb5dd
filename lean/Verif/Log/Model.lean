/-!
# The log record store shared by all threads

Model of `gr::log::HistoryLoggerBackend` (core/include/gnuradio-4.0/Logger.hpp:57-85,
core/src/Logger.cpp:36-112): the bounded store of the most recent log records that any number of
threads fill, look at, drain and clear without blocking.

Each atomic operation on the shared words, the record store and each call of the consumer is one
step; the threads' steps may be interleaved in any order. Simplifications: memory is sequentially
consistent (the fields other than the counter of refused records are only touched by the thread
that owns `_busy`); the 64-bit counters do not wrap; a record is its number of lost predecessors
and an opaque body standing for level, text, location and time stamp.
-/
namespace Verif.Log

/-- A log record. core/include/gnuradio-4.0/Logger.hpp:30-42 (all fields but `droppedBefore` are
the opaque `body`). -/
structure Rec where
  body : Nat
  droppedBefore : Nat
deriving DecidableEq, Repr

/-- A default-initialised record. core/include/gnuradio-4.0/Logger.hpp:30-42 -/
def blank : Rec := { body := 0, droppedBefore := 0 }

/-- `kCapacity`. core/include/gnuradio-4.0/Logger.hpp:68 -/
def capacity : Nat := 20

/-- `historyIndex`. core/src/Logger.cpp:38-46 -/
def historyIndex (sequence : Nat) : Nat := sequence % capacity

/-- The fields of the store. core/include/gnuradio-4.0/Logger.hpp:78-82 -/
structure Mem where
  records : List Rec := List.replicate capacity blank
  published : Nat := 0
  drained : Nat := 0
  contended : Nat := 0
  busy : Bool := false

/-- What a thread may call. `read consume hasConsumer` is `drain` (`consume`) or `snapshot`, with
or without a consumer function. core/include/gnuradio-4.0/Logger.hpp:70-73,
core/src/Logger.cpp:70-72 -/
inductive Op where
  | publish (r : Rec)
  | read (consume hasConsumer : Bool)
  | clear
deriving DecidableEq, Repr

/-- What a thread has to do next. core/src/Logger.cpp:50-112: the line numbers of the next action
are given with each constructor. -/
inductive Pc where
  /-- between calls -/
  | idle
  /-- 50-51: `publish` takes `_busy` -/
  | pubLock (r : Rec)
  /-- 52: `publish` counts its refused record -/
  | refused (r : Rec)
  /-- 57: `publish` loads `_published` -/
  | pubSeq (r : Rec)
  /-- 58-63: `publish` loads the refused records and stamps its copy -/
  | pubStamp (r : Rec) (sequence : Nat)
  /-- 64: `publish` stores its copy -/
  | pubStore (stamped : Rec) (sequence : Nat)
  /-- 65: `publish` stores `_published` -/
  | pubCommit (sequence : Nat)
  /-- 93: `read` takes `_busy` -/
  | readLock (consume : Bool)
  /-- 98-99: `read` loads `_published` -/
  | readEnd (consume : Bool)
  /-- 100-102: `read` loads `_drained` -/
  | readBegin (consume : Bool) (e : Nat)
  /-- 104-106: `read` calls the consumer, `i` of `n` done -/
  | readLoop (consume : Bool) (e b n i : Nat) (given : List Rec)
  /-- 107-109: `read` stores `_drained` -/
  | readStore (e : Nat) (given : List Rec)
  /-- 75: `clear` takes `_busy` -/
  | clearLock
  /-- 78: `clear` resets the records -/
  | clearRecords
  /-- 79: `clear` resets `_drained` -/
  | clearDrained
  /-- 80: `clear` resets the refused records -/
  | clearContended
  /-- 81: `clear` resets `_published` -/
  | clearPublished
  /-- 66, 82, 110: the call gives `_busy` back -/
  | unlock
deriving DecidableEq, Repr

/-- What happened, in order: the effects of the calls on the store, recorded by the model.
core/src/Logger.cpp:50-112 -/
inductive Ev where
  /-- `publish r` returns `true` and `stamped` is what is stored -/
  | accepted (r stamped : Rec)
  /-- `publish r` returns `false` -/
  | refused (r : Rec)
  /-- `drain` (`consume`) or `snapshot` handed these records to the consumer and returns how many -/
  | gave (consume : Bool) (given : List Rec)
  /-- `drain` or `snapshot` returns 0 because there is no consumer or the store is busy -/
  | gaveNothing
  /-- `clear` emptied the store -/
  | cleared
  /-- `clear` did nothing because the store is busy -/
  | clearSkipped
deriving DecidableEq, Repr

/-- The whole system. -/
structure Sys where
  mem : Mem := {}
  pc : Nat → Pc := fun _ => .idle
  events : List Ev := []

/-- Thread `t` goes on with `p`. -/
def Sys.at_ (s : Sys) (t : Nat) (p : Pc) : Sys :=
  { s with pc := fun u => if u = t then p else s.pc u }

/-- Thread `t` calls a function of the store; nothing happens if it is inside one already. A read
without consumer returns at once (core/src/Logger.cpp:90-92). -/
def invoke (s : Sys) (t : Nat) (op : Op) : Sys :=
  match s.pc t with
  | .idle =>
    match op with
    | .publish r => s.at_ t (.pubLock r)
    | .read c true => s.at_ t (.readLock c)
    | .read _ false => { s with events := s.events ++ [.gaveNothing] }
    | .clear => s.at_ t .clearLock
  | _ => s

/-- The copy that `publish` stores. core/src/Logger.cpp:58-63 -/
def stamp (r : Rec) (sequence contended : Nat) : Rec :=
  let overwritten := if capacity ≤ sequence then sequence + 1 - capacity else 0
  let lost := overwritten + contended
  if lost > 0 then { r with droppedBefore := max r.droppedBefore lost } else r

/-- One step of thread `t`. core/src/Logger.cpp:50-112 -/
def step (s : Sys) (t : Nat) : Sys :=
  let m := s.mem
  match s.pc t with
  | .idle => s
  -- 51-54
  | .pubLock r =>
    if m.busy then s.at_ t (.refused r)
    else ({ s with mem := { m with busy := true } } : Sys).at_ t (.pubSeq r)
  | .refused r =>
    ({ s with mem := { m with contended := m.contended + 1 },
              events := s.events ++ [.refused r] } : Sys).at_ t .idle
  -- 57
  | .pubSeq r => s.at_ t (.pubStamp r m.published)
  -- 58-63
  | .pubStamp r sequence =>
    let local_ := stamp r sequence m.contended
    ({ s with events := s.events ++ [.accepted r local_] } : Sys).at_ t (.pubStore local_ sequence)
  -- 64
  | .pubStore stamped sequence =>
    ({ s with mem := { m with records := m.records.set (historyIndex sequence) stamped } } : Sys).at_
      t (.pubCommit sequence)
  -- 65
  | .pubCommit sequence =>
    ({ s with mem := { m with published := sequence + 1 } } : Sys).at_ t .unlock
  -- 93-95
  | .readLock c =>
    if m.busy then ({ s with events := s.events ++ [.gaveNothing] } : Sys).at_ t .idle
    else ({ s with mem := { m with busy := true } } : Sys).at_ t (.readEnd c)
  -- 98
  | .readEnd c => s.at_ t (.readBegin c m.published)
  -- 99-102
  | .readBegin c e =>
    let retainedBegin := if capacity < e then e - capacity else 0
    let drained := min m.drained e
    let b := if c then max retainedBegin drained else retainedBegin
    s.at_ t (.readLoop c e b (min (e - b) capacity) 0 [])
  -- 104-109
  | .readLoop c e b n i given =>
    if i < n then
      s.at_ t (.readLoop c e b n (i + 1) (given ++ [m.records.getD (historyIndex (b + i)) blank]))
    else if c then s.at_ t (.readStore e given)
    else ({ s with events := s.events ++ [.gave false given] } : Sys).at_ t .unlock
  | .readStore e given =>
    ({ s with mem := { m with drained := e }, events := s.events ++ [.gave true given] } : Sys).at_
      t .unlock
  -- 75-77
  | .clearLock =>
    if m.busy then ({ s with events := s.events ++ [.clearSkipped] } : Sys).at_ t .idle
    else ({ s with mem := { m with busy := true } } : Sys).at_ t .clearRecords
  -- 78-81
  | .clearRecords =>
    ({ s with mem := { m with records := List.replicate capacity blank } } : Sys).at_ t .clearDrained
  | .clearDrained => ({ s with mem := { m with drained := 0 } } : Sys).at_ t .clearContended
  | .clearContended =>
    ({ s with mem := { m with contended := 0 }, events := s.events ++ [.cleared] } : Sys).at_
      t .clearPublished
  | .clearPublished => ({ s with mem := { m with published := 0 } } : Sys).at_ t .unlock
  -- 66, 82, 110
  | .unlock => ({ s with mem := { m with busy := false } } : Sys).at_ t .idle

/-- A schedule: who calls what and who takes the next step. -/
inductive Act where
  | call (t : Nat) (op : Op)
  | go (t : Nat)
deriving DecidableEq, Repr

/-- One entry of a schedule. -/
def act (s : Sys) : Act → Sys
  | .call t op => invoke s t op
  | .go t => step s t

/-- A whole schedule, from any state. -/
def runFrom (s : Sys) (acts : List Act) : Sys := acts.foldl act s

/-- A whole schedule, from the empty store. -/
def run (acts : List Act) : Sys := runFrom {} acts

/-- `size()`. core/src/Logger.cpp:85 -/
def size (s : Sys) : Nat := min s.mem.published capacity

/-- `published()`. core/src/Logger.cpp:87 -/
def published (s : Sys) : Nat := s.mem.published

end Verif.Log
