/-!
# The sink and the monitor for tags in tests

Models `TagSink` and `TagMonitor` of `blocks/testing/include/gnuradio-4.0/testing/TagMonitors.hpp`. A map in a tag is a number. The
counter of 32 bits does not wrap here.
-/

namespace Verif.TagSink

/-- The settings: `log_tags`, `log_samples`, `n_samples_expected`, and whether there is a callback — TagMonitors.hpp:308-320, 400-411 -/
structure Cfg where
  logTags : Bool
  logSamples : Bool
  expected : Nat
  callback : Bool
deriving DecidableEq, Repr

/-- What a test can see: the logs, the counter, the tags the callback was given, the samples passed on by a monitor. -/
structure St where
  samples : List Rat := []
  tags : List (Nat × Nat) := []
  produced : Nat := 0
  called : List (Nat × Nat) := []
  out : List Rat := []
deriving DecidableEq

/-- `start` of both blocks: the logs are emptied, the counter stays — TagMonitors.hpp:319-328, 416-425. What the callback was given and what
was passed on is not the block's to change. -/
def start (s : St) : St := { s with samples := [], tags := [] }

/-- One tag of `TagSink::processBulk` — TagMonitors.hpp:459-470 -/
def sinkTag (c : Cfg) (s : St) (t : Int × Nat) : St :=
  let idx := s.produced + (if t.1 < 0 then 0 else t.1.toNat)
  if c.logTags then { s with tags := s.tags ++ [(idx, t.2)], called := if c.callback then s.called ++ [(idx, t.2)] else s.called } else s

/-- `TagSink::processBulk`, with the status: `true` is DONE — TagMonitors.hpp:452-478 -/
def sink (c : Cfg) (s : St) (xs : List Rat) (ts : List (Int × Nat)) : St × Bool :=
  let s := ts.foldl (sinkTag c) s
  let s := { s with samples := if c.logSamples then s.samples ++ xs else s.samples, produced := s.produced + xs.length }
  (s, decide (c.expected > 0) && decide (s.produced ≥ c.expected))

/-- One tag of `TagMonitor::processBulk` — TagMonitors.hpp:355-374; printing to the console is left out. -/
def monitorTag (c : Cfg) (s : St) (t : Int × Nat) : St :=
  let idx := s.produced + (if t.1 < 0 then 0 else t.1.toNat)
  if c.logTags then { s with tags := s.tags ++ [(idx, t.2)], called := if c.callback then s.called ++ [(idx, t.2)] else s.called }
  else if c.callback then { s with called := s.called ++ [(idx, t.2)] }
  else s

/-- `TagMonitor::processBulk` — TagMonitors.hpp:352-386 -/
def monitor (c : Cfg) (s : St) (xs : List Rat) (ts : List (Int × Nat)) : St :=
  let s := ts.foldl (monitorTag c) s
  { s with samples := if c.logSamples then s.samples ++ xs else s.samples, produced := s.produced + xs.length, out := s.out ++ xs }

/-- `processOne` of both blocks, with the merged tag of the sample if there is one — TagMonitors.hpp:330-350, 433-450. -/
def oneSample (c : Cfg) (s : St) (x : Rat) (t : Option Nat) : St :=
  let s := match t with
    | some m => if c.logTags then
        { s with tags := s.tags ++ [(s.produced, m)], called := if c.callback then s.called ++ [(s.produced, m)] else s.called } else s
    | none => s
  { s with samples := if c.logSamples then s.samples ++ [x] else s.samples, produced := s.produced + 1, out := s.out ++ [x] }

end Verif.TagSink
