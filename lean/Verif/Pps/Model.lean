/-!
# The source of one pulse per second

Models `PpsSource` of `blocks/timing/include/gnuradio-4.0/PpsSource.hpp`. What the kernel does (times, results of calls) comes with every
pass of the loop as an event; times are nanoseconds, without the wrap of 64 bits.
The change of settings while it runs, the texts in the tags and the sleep after an error are left out.
-/

namespace Verif.Pps

/-- `ClockMode` after `resolveClockMode` — PpsSource.hpp:34-40 -/
inductive Mode where
  | ntp | ptp | tai | hwPps
deriving DecidableEq, Repr

/-- A clock to sleep on: `CLOCK_REALTIME`, `CLOCK_TAI` or a PTP device. -/
inductive Clock where
  | realtime | tai | ptp
deriving DecidableEq, Repr

/-- `clock_mode` as the user sets it. -/
inductive Asked where
  | ntp | ptp | tai | hwPps | auto
deriving DecidableEq, Repr

/-- `resolveClockMode` and the fallback of `start` — PpsSource.hpp:156-169, 226-282: `ptp` and `pps` tell if the device opens, `sleeps` if
the PTP clock can wait. -/
def resolve (a : Asked) (ptp pps sleeps : Bool) : Mode × Clock :=
  match a with
  | .auto => if ptp && sleeps then (.ptp, .ptp) else (.ntp, .realtime)
  | .ptp => if ptp then (.ptp, .ptp) else (.ntp, .realtime)
  | .hwPps => if pps then (.hwPps, .realtime) else (.ntp, .realtime)
  | .tai => (.tai, .tai)
  | .ntp => (.ntp, .realtime)

/-- What `ntp_adjtime` says, as far as it matters here — PpsSource.hpp:42-51 -/
structure Disc where
  synchronised : Bool
  taiUtc : Int
deriving DecidableEq, Repr

/-- The result of `clock_nanosleep`. -/
inductive Slept where
  | ok | eintr | enotsup | failed
deriving DecidableEq, Repr

/-- The result of `PPS_FETCH`, with the time of the pulse or of the clock. -/
inductive Fetched where
  | pulse (sec nsec : Nat) | eintr | timeout (now : Nat) | failed
deriving DecidableEq, Repr

/-- One pass of the loop: the clock before and after the sleep, the results of the calls, and whether the output has room. -/
structure Event where
  now : Nat
  slept : Slept
  actual : Nat
  fetched : Fetched
  disc : Disc
  room : Bool
deriving DecidableEq, Repr

/-- A pulse as it is published: the time in its tag, the offset, the number, if the clock is synchronised, the number of samples. -/
structure Tick where
  time : Int
  offset : Int
  seq : Nat
  locked : Bool
  samples : Nat
deriving DecidableEq, Repr

/-- The state of the block and what it published. -/
structure St where
  mode : Mode
  clock : Clock
  seq : Nat
  out : List Tick
deriving DecidableEq, Repr

/-- A second in nanoseconds. -/
def second : Nat := 1000000000

/-- `publishPpsTick` — PpsSource.hpp:183-224; `n` is the number of samples to a pulse. -/
def publish (n : Nat) (s : St) (time offset : Int) (locked room : Bool) : St :=
  if room then { s with seq := s.seq + 1, out := s.out ++ [⟨time, offset, s.seq, locked, n⟩] } else s

/-- `nextSecondBoundary` — PpsSource.hpp:95-99 -/
def boundary (now : Nat) : Nat := (now / second + 1) * second

/-- `waitForClockPps` — PpsSource.hpp:301-335 -/
def clockPps (n : Nat) (s : St) (e : Event) : St :=
  match e.slept with
  | .eintr => s
  | .enotsup => if s.clock ≠ .realtime then { s with mode := .ntp, clock := .realtime } else s
  | .failed => s
  | .ok =>
    let target := boundary e.now
    let time : Int := if s.mode = .tai ∧ e.disc.taiUtc > 0 then (target : Int) - e.disc.taiUtc * second else target
    publish n s time ((e.actual : Int) - target) e.disc.synchronised e.room

/-- `waitForHwPps` — PpsSource.hpp:337-365 -/
def hwPps (n : Nat) (s : St) (e : Event) : St :=
  match e.fetched with
  | .eintr => s
  | .failed => s
  | .timeout now => publish n s now 0 false e.room
  | .pulse sec nsec => publish n s ((sec * second : Nat) : Int) nsec e.disc.synchronised e.room

/-- One pass of `ioLoop` — PpsSource.hpp:284-299 -/
def step (n : Nat) (s : St) (e : Event) : St := if s.mode = .hwPps then hwPps n s e else clockPps n s e

/-- The loop. -/
def run (n : Nat) (s : St) (es : List Event) : St := es.foldl (step n) s

/-- The state after `start`. -/
def start (m : Mode × Clock) : St := ⟨m.1, m.2, 0, []⟩

/-- The samples of a pulse — PpsSource.hpp:184, for a rate that is not negative. -/
def samplesPerTick (ppsOnly : Bool) (rate : Rat) : Nat := if ppsOnly then 1 else rate.floor.toNat

end Verif.Pps
