/-!
# Model of the CPU affinity of pool threads and of the default pool sizes

core/include/gnuradio-4.0/thread/thread_pool.hpp:420-438, 506-541, 782-808, 873-878 and thread_affinity.hpp:78-85, 203-214.
-/
namespace Verif.Pool.Affinity

abbrev Mask := List Bool

/-- The loop of `distributeThreadAffinityAcrossCores` — thread_pool.hpp:531-540; `n` is `coreCount`. -/
def stripes (stripe tid : Nat) : Nat → Mask → Mask
  | _, [] => []
  | n, true :: m => (n % stripe == tid) :: stripes stripe tid (n + 1) m
  | n, false :: m => false :: stripes stripe tid n m

/-- `distributeThreadAffinityAcrossCores` — thread_pool.hpp:524-541. -/
def distribute (minThreads : Nat) (mask : Mask) (tid : Nat) : Mask := stripes (Nat.max minThreads 1) tid 0 mask

inductive Kind where | io | cpu
  deriving DecidableEq, Repr

/-- CPU affinities: of the thread that calls `setAffinityMask`, and of the threads of the pool. -/
structure Cpus where
  caller : Mask
  threads : List Mask
  deriving DecidableEq, Repr

/-- `setThreadAffinity(mask)` as called at thread_pool.hpp:516, 520: no thread is passed, so it acts on the calling thread
(thread_affinity.hpp:78-84, 205-214). A mask without any of the `hw` existing cores is refused by the operating system and
throws. -/
def setThreadAffinity (hw : Nat) (c : Cpus) (m : Mask) : Option Cpus :=
  if (m.take hw).any id then some { c with caller := m } else none

/-- `updateThreadConstraints(threadID, thread)` without names and scheduling policy — thread_pool.hpp:511-522. -/
def updateThread (hw : Nat) (k : Kind) (minThreads : Nat) (mask : Mask) (c : Cpus) (tid : Nat) : Option Cpus :=
  if mask = [] then some c
  else match k with
    | .io => setThreadAffinity hw c mask
    | .cpu => setThreadAffinity hw c (distribute minThreads mask tid)

/-- `setAffinityMask` — thread_pool.hpp:420-427, 506-509: threads are numbered from 0. -/
def setAffinityMask (hw : Nat) (k : Kind) (minThreads : Nat) (mask : Mask) (c : Cpus) : Option Cpus :=
  (List.range c.threads.length).foldlM (updateThread hw k minThreads mask) c

structure Split where
  cpuMin : Nat
  cpuMax : Nat
  ioMin : Nat
  ioMax : Nat
  deriving DecidableEq, Repr

/-- `std::clamp`; `none`: undefined behaviour as the bounds are the wrong way round. -/
def clamp (x lo hi : Nat) : Option Nat := if hi < lo then none else some (if x < lo then lo else if hi < x then hi else x)

/-- The first line of `computeDefaultThreadSplit` — thread_pool.hpp:791. -/
def usable (limit reserve : Nat) : Nat := if limit > reserve then limit - (if reserve > limit then limit else reserve) else 1

/-- `computeDefaultThreadSplit`, native — thread_pool.hpp:790-808; `hw` is `hardware_concurrency()`. -/
def splitNative (hw limit reserve : Nat) : Option Split := do
  let u := usable limit reserve
  let cpu ← clamp (Nat.max 1 hw) 1 (Nat.max (u / 2) 1)
  some ⟨cpu, cpu, 1, if u > cpu then Nat.max (u - cpu) 1 else 1⟩

/-- `computeDefaultThreadSplit`, WebAssembly — thread_pool.hpp:790-798. -/
def splitWasm (hw limit reserve : Nat) : Option Split := do
  let u := usable limit reserve
  let cpu ← clamp (u / 4) 1 hw
  some ⟨0, cpu, 0, Nat.max 1 (u - cpu)⟩

/-- The check in the constructor of `Manager` — thread_pool.hpp:875-878: `false` means that the program cannot start. -/
def managerStarts (limit : Nat) (s : Split) : Bool := !decide (s.cpuMax + s.ioMax ≥ limit)

end Verif.Pool.Affinity
