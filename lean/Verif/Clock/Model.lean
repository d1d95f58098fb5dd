/-! # The clock source (blocks/basic/include/gnuradio-4.0/basic/ClockSource.hpp) and wall-clock timing
(core/include/gnuradio-4.0/BlockingSync.hpp)

`gr::Size_t` has 32 bits.  How many samples the clock asks for is the argument of a call here; `Sync` below is
where that number comes from.  Tags carry only what tells them apart. -/
namespace Verif.Clock

/-- One more than the largest `gr::Size_t`. -/
def w32 : Nat := 2 ^ 32

/-! ## The source -/

/-- Settings (ClockSource.hpp:38-44, 55).  `sampleAt` is the sample for an offset in nanoseconds, that is
`static_cast<gr::Size_t>(max(0, lround(ns / 1e9 * sample_rate)))` (ClockSource.hpp:127), left open here. -/
structure Cfg where
  max : Nat
  tags : List Nat
  times : List Nat
  values : List String
  period : Nat
  hold : Bool
  sampleAt : Int → Nat

/-- `n_samples_produced`, the begin of the sequence as an offset from the start in nanoseconds, whether it was set,
`_nextTimeTag` and `_nextTagIndex` (ClockSource.hpp:56-61). -/
structure Source where
  n : Nat
  first : Int
  begun : Bool
  nextTime : Nat
  nextTag : Nat
deriving DecidableEq, Repr

/-- After `start()` (ClockSource.hpp:67-70). -/
def Source.start : Source := ⟨0, 0, false, 0, 0⟩

inductive Status where
  | done | waiting | ok
deriving DecidableEq, Repr

/-- What is published as a tag: an entry of `tags`, or the text for an entry of `tag_times`. -/
inductive Event where
  | tag (i : Nat)
  | time (label : String)
deriving DecidableEq, Repr

/-- What a call of `processBulk` does: status, samples published, tag with its offset. -/
structure Out where
  status : Status
  samples : Nat
  tag : Option (Nat × Event)
deriving DecidableEq, Repr

/-- The sequence of time tags begins, or begins again (ClockSource.hpp:116-124). -/
def Source.rewind (c : Cfg) (s : Source) : Source :=
  if c.times = [] then s
  else
    let s := if s.nextTime = 0 && !s.begun then { s with first := 0, begun := true } else s
    if c.times.length ≤ s.nextTime && decide (c.times.getLast?.getD 0 ≤ c.period) then
      { s with first := s.first + ((c.period / 1000 * 1000 : Nat) : Int), begun := true, nextTime := 0 }
    else s

/-- `samplesToNextTimeTag` (ClockSource.hpp:114, 125-129). -/
def Source.toTime (c : Cfg) (s : Source) : Nat :=
  match c.times[s.nextTime]? with
  | none => w32 - 1
  | some t => c.sampleAt (s.first + (t : Int)) - s.n

/-- `samplesToNextTag` (ClockSource.hpp:132), a difference of 32-bit numbers. -/
def Source.toTag (c : Cfg) (s : Source) : Nat :=
  match c.tags[s.nextTag]? with
  | none => w32 - 1
  | some i => (i % w32 + w32 - s.n) % w32

/-- The text of a time tag (ClockSource.hpp:146); `none`: `back()` of an empty vector. -/
def label (c : Cfg) (k : Nat) : Option String :=
  match c.values[k]? with
  | some v => some v
  | none => if c.hold then c.values.getLast? else some ""

/-- Publishing `k` samples (ClockSource.hpp:173-174). -/
def Source.publish (s : Source) (k : Nat) (t : Option (Nat × Event)) : Out × Source :=
  (⟨.ok, k, t⟩, { s with n := (s.n + k) % w32 })

/-- From the number of samples to be produced on (ClockSource.hpp:112-177). -/
def Source.produce (c : Cfg) (s : Source) (k : Nat) : Option (Out × Source) :=
  let s := s.rewind c
  if s.toTag c < s.toTime c then
    match c.tags[s.nextTag]? with
    | some i =>
      if s.toTag c ≤ k then
        some ({ s with nextTag := s.nextTag + 1 }.publish (Nat.max (s.toTag c) 1) (some ((i + 2 ^ 64 - s.n) % 2 ^ 64, .tag s.nextTag)))
      else some (s.publish k none)
    | none => some (s.publish k none)
  else if s.nextTime < c.times.length && decide (s.toTime c ≤ k) then
    match label c s.nextTime with
    | none => none
    | some l => some ({ s with nextTime := s.nextTime + 1 }.publish (Nat.max (s.toTime c) 1) (some (s.toTime c, .time l)))
  else some (s.publish k none)

/-- `processBulk` (ClockSource.hpp:97-177) with the number of samples the clock asks for; `none`: undefined. -/
def Source.call (c : Cfg) (s : Source) (sync : Nat) : Option (Out × Source) :=
  if 0 < c.max && decide (c.max ≤ s.n) then some (⟨.done, 0, none⟩, s)
  else
    let remaining := if 0 < c.max then c.max - s.n else w32 - 1
    let k := min remaining (sync % w32)
    if k = 0 then some (⟨.waiting, 0, none⟩, s)
    else s.produce c k

/-- Calls one after the other. -/
def Source.run (c : Cfg) (s : Source) : List Nat → Option (List Out × Source)
  | [] => some ([], s)
  | k :: ks =>
    match s.call c k with
    | none => none
    | some (o, s) => (Source.run c s ks).map fun r => (o :: r.1, r.2)

/-! ## Wall-clock timing -/

/-- The clock's ticks per second, the sample rate and the chunk size (BlockingSync.hpp:129-140). -/
structure Rate where
  ticks : Nat
  rate : Rat
  chunk : Nat

/-- `_blockingSync_startTime` and `_blockingSync_lastUpdateTime` in ticks (BlockingSync.hpp:121-122). -/
structure Sync where
  start : Int
  last : Int
deriving DecidableEq, Repr

/-- `computeWallClockSamples` (BlockingSync.hpp:162-179) in exact arithmetic; `none`: a number of samples that
`std::size_t` does not hold is converted to it, which is undefined. -/
def Sync.samples (c : Rate) (s : Sync) (now : Int) (room : Nat) (drop : Bool) : Option (Nat × Sync) :=
  let need := ((now - s.last : Int) : Rat) / c.ticks * c.rate
  if need ≤ -1 || decide ((2 ^ 64 : Rat) ≤ need) then none
  else
    let n := min (min need.floor.toNat c.chunk) room
    some (n, if drop then { s with last := now }
      else if 0 < n then { s with last := s.last + ((n : Rat) / c.rate * c.ticks).floor }
      else s)

/-- `syncSamples` (BlockingSync.hpp:207-212): with the clock port connected the input counts. -/
def Sync.syncSamples (c : Rate) (s : Sync) (clocked : Option Nat) (now : Int) (room : Nat) (drop : Bool) : Option (Nat × Sync) :=
  match clocked with
  | some input => some (min input room, s)
  | none => s.samples c now room drop

/-- Calls at given times with given room: total and state. -/
def Sync.run (c : Rate) (s : Sync) (drop : Bool) : List (Int × Nat) → Option (Nat × Sync)
  | [] => some (0, s)
  | (now, room) :: l =>
    match s.samples c now room drop with
    | none => none
    | some (n, s) => (Sync.run c s drop l).map fun r => (n + r.1, r.2)

/-! ## The timer thread -/

/-- Where the thread that starts and stops is (BlockingSync.hpp:266-272, 300-302). -/
inductive Owner where
  | idle
  /-- before the exchange of `timerRunning` (line 267) -/
  | starting
  /-- before `timerDone` is set to false (line 271) -/
  | clearing
  /-- before the task is given to the pool (line 272) -/
  | launching
  /-- before `timerRunning` is set to false (line 301) -/
  | stopping
  /-- in the wait for `timerDone` (line 302) -/
  | waiting
deriving DecidableEq, Repr

/-- Where a task is (BlockingSync.hpp:272-297). -/
inductive Task where
  /-- before the condition of the loop (line 277), also while queued -/
  | check
  /-- asleep (line 280) -/
  | sleep
  /-- before the second look at `timerRunning` (line 282) -/
  | again
  /-- waking the scheduler or noting the pause (lines 286-292) -/
  | wake
  /-- before `timerDone` is set to true (line 295) -/
  | leave
  /-- before the notification (line 296) -/
  | notify
deriving DecidableEq, Repr

structure Timer where
  owner : Owner
  running : Bool
  done : Bool
  tasks : List Task
deriving DecidableEq, Repr

/-- As constructed (BlockingSync.hpp:123-124). -/
def Timer.init : Timer := ⟨.idle, false, true, []⟩

/-- A step of the owner; `stop` says which of its two calls an idle one makes. -/
def Timer.own (t : Timer) (stop : Bool) : Option Timer :=
  match t.owner with
  | .idle => some { t with owner := if stop then .stopping else .starting }
  | .starting => some { t with running := true, owner := if t.running then .idle else .clearing }
  | .clearing => some { t with done := false, owner := .launching }
  | .launching => some { t with tasks := t.tasks ++ [.check], owner := .idle }
  | .stopping => some { t with running := false, owner := .waiting }
  | .waiting => if t.done then some { t with owner := .idle } else none

/-- A step of a task: where it goes on, if anywhere, and whether `timerDone` gets true.  `active`: the sample rate is
positive and the block in an active state. -/
def step (running active : Bool) : Task → Option Task × Bool
  | .check => (some (if running && active then .sleep else .leave), false)
  | .sleep => (some .again, false)
  | .again => (some (if running then .wake else .leave), false)
  | .wake => (some .check, false)
  | .leave => (some .notify, true)
  | .notify => (none, false)

/-- A step of the `i`-th task. -/
def Timer.task (t : Timer) (i : Nat) (active : Bool) : Option Timer :=
  match t.tasks[i]? with
  | none => none
  | some k =>
    let r := step t.running active k
    some { t with
      tasks := match r.1 with
        | some k => t.tasks.set i k
        | none => t.tasks.eraseIdx i,
      done := t.done || r.2 }

/-- What happens next: the owner moves, or a task does. -/
inductive Move where
  | own (stop : Bool)
  | task (i : Nat) (active : Bool)
deriving DecidableEq, Repr

def Timer.move (t : Timer) : Move → Option Timer
  | .own b => t.own b
  | .task i a => t.task i a

def Timer.moves (t : Timer) : List Move → Option Timer
  | [] => some t
  | m :: ms =>
    match t.move m with
    | none => none
    | some t => t.moves ms

end Verif.Clock
