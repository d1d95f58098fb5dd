/-!
# Model of the sample accounting of `gr::Block::work`

Sources: core/include/gnuradio-4.0/Block.hpp:169-300 (`PortCache`), 1507-1574 (tag positions, stride), 1576-1636
(`computeResampling`), 1940-2172 (`computeSampleLimits`, `finaliseIO`, `workInternal`), Port.hpp:1370-1405, WorkStatus.hpp.

`std::size_t` values are naturals, `inf` is `size_t`'s maximum (the code's "no limit"). The one product that can exceed it
(1975, the end-of-stream test, `output_chunk_size * (eosAfterSkip / input_chunk_size)`) is taken without wrapping; it only wraps when
no end-of-stream tag is in sight. Undefined behaviour (division by zero,
`std::clamp` with a crossed range) is the outcome `none`.
-/
namespace Verif.Work

def inf : Nat := 2 ^ 64 - 1

/-- `work::Status` — WorkStatus.hpp:12-18 -/
inductive Status where
  | error | insufficientOut | insufficientIn | done | ok
  deriving DecidableEq, Repr

/-- compile-time and run-time parameters of the block — Block.hpp:676, 703-715. `resampling`/`strideOn`: `Resampling<>`/`Stride<>`
given; `forwardTags`: `forwardTagPropagation`; `chunkLimit`: `getMergedBlockLimit()` (1638-1650). -/
structure Cfg where
  resampling : Bool := true
  strideOn : Bool := true
  ics : Nat := 1
  ocs : Nat := 1
  stride : Nat := 0
  forwardTags : Bool := false
  chunkLimit : Nat := inf
  deriving DecidableEq, Repr

/-- a stream input port — Port.hpp:576-590. `tags`: the unread tags (stream index, is end-of-stream), `pos`: read position. -/
structure InPort where
  sync : Bool := true
  optional : Bool := false
  connected : Bool := true
  minSamples : Nat := 1
  maxSamples : Nat := inf
  available : Nat
  pos : Nat := 0
  tags : List (Nat × Bool) := []
  deriving Repr

structure OutPort where
  sync : Bool := true
  optional : Bool := false
  connected : Bool := true
  minSamples : Nat := 1
  maxSamples : Nat := inf
  available : Nat
  deriving Repr

/-- the aggregated limits read by `computeSampleLimits` — Block.hpp:1951-1958 -/
structure Agg where
  minIn : Nat
  maxIn : Nat
  availIn : Nat
  minOut : Nat
  maxOut : Nat
  availOut : Nat
  nextTag : Nat
  nextEos : Nat
  deriving DecidableEq, Repr

/-- `max_element_masked<SYNCHRONOUS>(_minSamples)` — Block.hpp:233-241 -/
def minSync (ps : List (Bool × Bool × Bool × Nat)) : Nat :=
  ps.foldl (fun m p => if p.1 then max m (if p.2.1 && !p.2.2.1 then 0 else p.2.2.2) else m) 0

/-- `min_element_masked<SYNCHRONOUS>(_maxSamples)` — Block.hpp:242 -/
def maxSync (ps : List (Bool × Nat)) : Nat := ps.foldl (fun m p => if p.1 then min m p.2 else m) inf

/-- `min_element_masked<SYNCHRONOUS>(_available)` — Block.hpp:254-261 -/
def availSync (ps : List (Bool × Bool × Bool × Nat)) : Nat :=
  ps.foldl (fun m p => if p.1 then min m (if p.2.1 && !p.2.2.1 then inf else p.2.2.2) else m) inf

/-- `nSamplesToNextTagConditional` — Port.hpp:1385-1401 -/
def toNextTag (p : InPort) (matches_ : Nat × Bool → Bool) : Option Nat :=
  if !p.connected then none else (p.tags.find? matches_).map fun t => t.1 - p.pos

/-- `nSamplesUntilNextTag(port, 1)` — Port.hpp:1375, 1403 -/
def untilNextTag (p : InPort) : Option Nat := toNextTag p fun t => decide (p.pos + 1 ≤ t.1)

/-- `samples_to_eos_tag(port)` — Port.hpp:1376-1383, 1405 -/
def untilEos (p : InPort) : Option Nat := toNextTag p fun t => decide (p.pos ≤ t.1) && t.2

/-- `getNextTagAndEosPosition`, the two minima over connected synchronous ports — Block.hpp:1511-1537 -/
def nextTag (ps : List InPort) : Nat := ps.foldl (fun m p => if p.connected && p.sync then min m ((untilNextTag p).getD inf) else m) inf
def nextEos (ps : List InPort) : Nat := ps.foldl (fun m p => if p.connected && p.sync then min m ((untilEos p).getD inf) else m) inf

def aggregate (ins : List InPort) (outs : List OutPort) : Agg :=
  { minIn := minSync (ins.map fun p => (p.sync, p.optional, p.connected, p.minSamples))
    maxIn := maxSync (ins.map fun p => (p.sync, p.maxSamples))
    availIn := availSync (ins.map fun p => (p.sync, p.optional, p.connected, p.available))
    minOut := minSync (outs.map fun p => (p.sync, p.optional, p.connected, p.minSamples))
    maxOut := maxSync (outs.map fun p => (p.sync, p.maxSamples))
    availOut := availSync (outs.map fun p => (p.sync, p.optional, p.connected, p.available))
    nextTag := nextTag ins
    nextEos := nextEos ins }

structure Res where
  inp : Nat
  out : Nat
  status : Status
  deriving DecidableEq, Repr

/-- `std::clamp`, undefined if `hi < lo`. -/
def clamp (v lo hi : Nat) : Option Nat := if hi < lo then none else some (if v < lo then lo else if hi < v then hi else v)

/-- integer division, undefined for a zero divisor. -/
def cdiv (a b : Nat) : Option Nat := if b = 0 then none else some (a / b)

/-- the branch without resampling — Block.hpp:1586-1610 -/
def resampleOneToOne (minIn maxIn minOut maxOut req : Nat) : Option Res :=
  let maxSync := min maxIn maxOut
  if maxSync < minIn then some ⟨0, 0, .insufficientIn⟩
  else if maxSync < minOut then some ⟨0, 0, .insufficientOut⟩
  else (clamp req (max minIn minOut) maxSync).map fun r => ⟨r, r, .ok⟩

/-- stride configured and different from the chunk size — 1548, 1565, 1613 -/
def Cfg.strideActive (c : Cfg) : Bool := c.strideOn && decide (c.stride ≠ 0) && decide (c.stride ≠ c.ics)

/-- number of chunks — Block.hpp:1611-1620 -/
def nChunks (c : Cfg) (maxIn maxOut : Nat) : Option Nat :=
  if c.strideActive then some (if c.ics ≤ maxIn ∧ c.ocs ≤ maxOut then 1 else 0)
  else do return min (← cdiv maxIn c.ics) (← cdiv maxOut c.ocs)

/-- `computeResampling` — Block.hpp:1576-1636 -/
def computeResampling (c : Cfg) (minIn maxIn minOut maxOut req : Nat) : Option Res :=
  let req := if req = 0 then inf else req
  if !c.resampling || (decide (c.ics = 1) && decide (c.ocs = 1)) then resampleOneToOne minIn maxIn minOut maxOut req
  else do
    let n ← nChunks c maxIn maxOut
    if n * c.ics < minIn then some ⟨0, 0, .insufficientIn⟩
    else if n * c.ocs < minOut then some ⟨0, 0, .insufficientOut⟩
    else if req < n * c.ics then
      let r ← clamp req (max minIn c.ics) maxIn
      let n2 := min (← cdiv r c.ics) (← cdiv maxOut c.ocs)
      if minIn ≤ n2 * c.ics ∧ minOut ≤ n2 * c.ocs then some ⟨n2 * c.ics, n2 * c.ocs, .ok⟩
      else some ⟨n * c.ics, n * c.ocs, .ok⟩
    else some ⟨n * c.ics, n * c.ocs, .ok⟩

/-- `inputSamplesToSkipBeforeNextChunk` — Block.hpp:1546-1557 -/
def skipBefore (c : Cfg) (counter avail : Nat) : Nat := if c.strideActive && decide (0 < counter) then min counter avail else 0

/-- `inputSamplesToConsumeAdjustedWithStride`: samples to consume and the new counter — Block.hpp:1563-1574 -/
def strideConsume (c : Cfg) (counter remaining : Nat) : Nat × Nat :=
  if c.strideActive && decide (counter = 0) && decide (0 < remaining) then (min c.stride remaining, c.stride - min c.stride remaining)
  else (0, counter)

structure Limits where
  res : Res
  skip : Nat
  counter : Nat
  eos : Bool
  deriving DecidableEq, Repr

/-- `computeSampleLimits` — Block.hpp:1950-1976 -/
def sampleLimits (c : Cfg) (counter : Nat) (a : Agg) (req : Nat) : Option Limits :=
  let tag := if c.forwardTags then inf else a.nextTag
  let skip := skipBefore c counter (min (min a.availIn tag) a.nextEos)
  let tagAfter := tag - skip
  let availAfter := a.availIn - skip
  let eosAfter := a.nextEos - skip
  let tagLimit := if a.minIn ≤ tagAfter then tagAfter else inf
  let minDecimation := if c.ics ≤ tagLimit then tagLimit else c.ics
  let toProcess := min (min (min (min a.maxIn c.chunkLimit) availAfter) minDecimation) eosAfter
  let toPublish := min a.maxOut a.availOut
  do
    let r ← computeResampling c (min a.minIn a.nextEos) toProcess a.minOut toPublish req
    let chunks ← cdiv eosAfter c.ics
    let eos := decide (a.nextEos = 0) || decide (eosAfter < a.minIn) || decide (eosAfter < c.ics) || decide (c.ocs * chunks < a.minOut)
    return ⟨r, skip, counter - skip, eos⟩

/-- `sanitiseProcessStatus` — WorkStatus.hpp:27-32 -/
def sanitise (s : Status) (n : Nat × Nat) : Nat × Nat :=
  match s with
  | .insufficientOut | .insufficientIn | .error => (0, 0)
  | _ => n

/-- `computePerformedWork` — WorkStatus.hpp:35-40 -/
def performedWork (s : Status) (pIn pOut : Nat) (isSource : Bool) : Nat :=
  match s with
  | .ok => if isSource then pOut else pIn
  | _ => 0

/-- what the user's processing function does in a call: its status and how many samples it asked to consume and publish
(`none`: no request, everything offered) — Block.hpp:1855-1882. -/
structure User where
  status : Status
  consume : Option Nat := none
  publish : Option Nat := none
  deriving DecidableEq, Repr

/-- outcome of one `work` call: samples skipped before, start of the processed chunk relative to the old read position and its
length (if the processing function ran), samples consumed after it, samples published, reported amount and status, new stride
counter, whether the block stopped. -/
structure Work where
  skip : Nat
  chunk : Option (Nat × Nat)
  consumed : Nat
  published : Nat
  performed : Nat
  status : Status
  counter : Nat
  stopped : Bool
  deriving DecidableEq, Repr

/-- `workInternal` for a running block without asynchronous ports: limits, skipping, end of stream, dispatch,
`sanitiseProcessStatus`, `finaliseIO`, `computePerformedWork` — Block.hpp:1989-2026, 2028-2172. `stopping`: the life-cycle state is
shutting down when `finaliseIO` runs. Asking to publish more than offered violates an assertion (`none`); asking to consume more
than available is refused by the span. `finaliseIO` never consumes more than the span offers, so its error path is not reached. -/
def work (c : Cfg) (isSource : Bool) (counter : Nat) (a : Agg) (req : Nat) (u : User) (stopping : Bool) : Option Work := do
  let l ← sampleLimits c counter a req
  if l.eos then return ⟨l.skip, none, 0, 0, 0, .done, l.counter, true⟩
  else if l.res.inp = 0 ∧ l.res.out = 0 then return ⟨l.skip, none, 0, 0, 0, l.res.status, l.counter, false⟩
  else if l.res.out < u.publish.getD 0 then none
  else
    let userIn := u.consume.filter (fun k => decide (k ≤ max l.res.inp (a.availIn - l.skip)))
    let n := sanitise u.status (min l.res.inp (userIn.getD l.res.inp), u.publish.getD l.res.out)
    let status := if stopping then .done else u.status
    let pIn := if stopping then 0 else n.1
    let sc := if pIn = 0 then (0, l.counter) else strideConsume c l.counter l.res.inp
    let consumed := userIn.getD (if 0 < sc.1 then sc.1 else pIn)
    let published := u.publish.getD n.2
    return ⟨l.skip, some (l.skip, l.res.inp), consumed, published, performedWork status pIn n.2 isSource, status, sc.2, decide (status = .done)⟩

end Verif.Work
