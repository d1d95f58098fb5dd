/-!
# Waiting for a writer and for a reader

Model of the flags and the counter that a worker and the threads waiting for it share
(/repo/algorithm/include/gnuradio-4.0/algorithm/fileio/FileIo.hpp:1117-1180, 1204-1252 for a writer,
263-297, 381-393, 480-487 for a reader). Each access to an atomic is one step, and steps of all threads
interleave in any way. Simplifications: memory is sequentially consistent; the counter does not wrap.
-/
namespace Verif.FileIo.Wait

/-! ## A writer -/

/-- What a writer reports: what the write itself gave, or that it was cancelled. -/
inductive Res where
  | wrote (code : Nat)
  | cancelled
deriving DecidableEq, Repr

/-- `WriterState`. FileIo.hpp:1123-1126. `written` records that the file was written. -/
structure WMem where
  done : Bool := false
  cancel : Bool := false
  counter : Nat := 0
  result : Option Res := none
  written : Bool := false
deriving DecidableEq

/-- What a thread has to do next; the lines of FileIo.hpp are given. -/
inductive WPc where
  | idle
  /-- 1169 -/
  | start
  /-- 1171-1174 -/
  | write
  /-- 1175 -/
  | look (r : Res)
  /-- 1139 -/
  | store (r : Res)
  /-- 1140 -/
  | setDone
  /-- 1141-1142 -/
  | bump
  | ended
  /-- 1235 -/
  | check
  /-- 1238 -/
  | load
  /-- 1239 -/
  | blocked (expected : Nat)
  | returned
  /-- 1216 -/
  | cancelSet
  /-- 1217-1218 -/
  | cancelBump
deriving DecidableEq, Repr

/-- The whole system: thread 0 is the worker. -/
structure W where
  mem : WMem := {}
  pc : Nat → WPc := fun t => if t = 0 then .start else .idle

/-- Thread `t` goes on with `p`. -/
def W.at_ (s : W) (t : Nat) (p : WPc) : W := { s with pc := fun u => if u = t then p else s.pc u }

/-- What the other threads may call: `wait()` and `cancel()`. -/
inductive WAct where
  | wait (t : Nat)
  | cancel (t : Nat)
  | go (t : Nat)
deriving DecidableEq, Repr

/-- A thread other than the worker that is not in a call can make one. -/
def W.free (s : W) (t : Nat) : Bool := t != 0 && (s.pc t == .idle || s.pc t == .returned)

/-- One step of thread `t`, where the write gives `out`. FileIo.hpp:1138-1143, 1169-1179, 1216-1218,
1234-1240 -/
def W.step (out : Nat) (s : W) (t : Nat) : W :=
  let m := s.mem
  match s.pc t with
  | .idle | .ended | .returned => s
  -- 1169-1170
  | .start => if m.cancel then s.at_ t (.store .cancelled) else s.at_ t .write
  -- 1174
  | .write => ({ s with mem := { m with written := true } } : W).at_ t (.look (.wrote out))
  -- 1175-1177
  | .look r => if m.cancel then s.at_ t (.store .cancelled) else s.at_ t (.store r)
  -- 1139
  | .store r => ({ s with mem := { m with result := some r } } : W).at_ t .setDone
  -- 1140
  | .setDone => ({ s with mem := { m with done := true } } : W).at_ t .bump
  -- 1141-1142
  | .bump => ({ s with mem := { m with counter := m.counter + 1 } } : W).at_ t .ended
  -- 1235-1237
  | .check => if m.done then s.at_ t .returned else s.at_ t .load
  -- 1238
  | .load => s.at_ t (.blocked m.counter)
  -- 1239: blocks while the counter has the expected value
  | .blocked e => if m.counter = e then s else s.at_ t .check
  -- 1216
  | .cancelSet => ({ s with mem := { m with cancel := true } } : W).at_ t .cancelBump
  -- 1217
  | .cancelBump => ({ s with mem := { m with counter := m.counter + 1 } } : W).at_ t .idle

/-- One entry of a schedule. -/
def W.act (out : Nat) (s : W) : WAct → W
  | .wait t => if s.free t then s.at_ t .check else s
  | .cancel t => if s.free t then s.at_ t .cancelSet else s
  | .go t => s.step out t

/-- A schedule from any state. -/
def W.runFrom (out : Nat) (s : W) (acts : List WAct) : W := acts.foldl (W.act out) s

/-- A schedule from the beginning. -/
def W.run (out : Nat) (acts : List WAct) : W := W.runFrom out {} acts

/-- `result()`; `none` says that the writer is not finished. FileIo.hpp:1244-1252 -/
def WMem.get (m : WMem) : Option Res := if m.done then m.result else none

/-! ## A reader -/

/-- The shared part of `ReaderState`. FileIo.hpp:210-222; `available` is the number of messages in
the queue. -/
structure RMem where
  available : Nat := 0
  cancel : Bool := false
  final : Bool := false
  counter : Nat := 0
deriving DecidableEq

/-- What a thread has to do next. -/
inductive RPc where
  | idle
  /-- 386-390 -/
  | publish
  /-- 391-392 -/
  | bump
  /-- 485, then as for a message -/
  | finalSet
  /-- 265 -/
  | cancelSet
  /-- 266-267 -/
  | cancelBump
  /-- 285 -/
  | load
  /-- 286 -/
  | seeData (expected : Nat)
  /-- 289 -/
  | seeCancel (expected : Nat)
  /-- 292 -/
  | seeFinal (expected : Nat)
  /-- 295 -/
  | blocked (expected : Nat)
deriving DecidableEq, Repr

/-- The whole system; who is the worker, who waits and who cancels is up to the schedule. -/
structure R where
  mem : RMem := {}
  pc : Nat → RPc := fun _ => .idle

/-- Thread `t` goes on with `p`. -/
def R.at_ (s : R) (t : Nat) (p : RPc) : R := { s with pc := fun u => if u = t then p else s.pc u }

/-- What threads do: publish a message, publish the final one, cancel, wait, take a message out of
the queue, go on. -/
inductive RAct where
  | publish (t : Nat)
  | final (t : Nat)
  | cancel (t : Nat)
  | wait (t : Nat)
  | take (t : Nat)
  | go (t : Nat)
deriving DecidableEq, Repr

/-- One step of thread `t`. FileIo.hpp:263-268, 284-296, 381-393, 485-487 -/
def R.step (s : R) (t : Nat) : R :=
  let m := s.mem
  match s.pc t with
  | .idle => s
  -- 386-390
  | .publish => ({ s with mem := { m with available := m.available + 1 } } : R).at_ t .bump
  -- 391
  | .bump => ({ s with mem := { m with counter := m.counter + 1 } } : R).at_ t .idle
  -- 485-487: only the first one publishes a final message
  | .finalSet =>
    if m.final then s.at_ t .idle
    else ({ s with mem := { m with final := true } } : R).at_ t .publish
  -- 265
  | .cancelSet => ({ s with mem := { m with cancel := true } } : R).at_ t .cancelBump
  -- 266
  | .cancelBump => ({ s with mem := { m with counter := m.counter + 1 } } : R).at_ t .idle
  -- 285
  | .load => s.at_ t (.seeData m.counter)
  -- 286-288
  | .seeData e => if 0 < m.available then s.at_ t .idle else s.at_ t (.seeCancel e)
  -- 289-291
  | .seeCancel e => if m.cancel then s.at_ t .idle else s.at_ t (.seeFinal e)
  -- 292-294
  | .seeFinal e => if m.final then s.at_ t .idle else s.at_ t (.blocked e)
  -- 295
  | .blocked e => if m.counter = e then s else s.at_ t .load

/-- One entry of a schedule. -/
def R.act (s : R) : RAct → R
  | .publish t => if s.pc t = .idle then s.at_ t .publish else s
  | .final t => if s.pc t = .idle then s.at_ t .finalSet else s
  | .cancel t => if s.pc t = .idle then s.at_ t .cancelSet else s
  | .wait t => if s.pc t = .idle then s.at_ t .load else s
  | .take t =>
    if s.pc t = .idle then { s with mem := { s.mem with available := s.mem.available - 1 } } else s
  | .go t => s.step t

/-- A schedule from any state. -/
def R.runFrom (s : R) (acts : List RAct) : R := acts.foldl R.act s

/-- A schedule from the beginning. -/
def R.run (acts : List RAct) : R := R.runFrom {} acts

end Verif.FileIo.Wait
