/-!
# Model of `gr::ReaderWriterLock` (core/include/gnuradio-4.0/reader_writer_lock.hpp)

The counter is an `Int` (the code's `int64_t` overflows only with 2^63 simultaneous holders). Every atomic access is one
step; any number of threads; sequentially consistent interleaving.
-/
namespace Verif.RwLock

/-- `ReaderWriterLockType` — reader_writer_lock.hpp:11. -/
inductive Kind where | read | write
  deriving DecidableEq, Repr

/-- Progress of a thread: outside, between the load and the compare-and-swap of `lock`/`tryLock` with the clamped
`expected` value, or holding the lock. -/
inductive Pc where
  | idle
  | trying (k : Kind) (once : Bool) (expected : Int)
  | held (k : Kind)
  deriving DecidableEq, Repr

/-- The clamping of `expected` — reader_writer_lock.hpp:35-37, 40-42, 52-54, 60-62. -/
def clamp : Kind → Int → Int
  | .read, e => if e < 0 then 0 else e
  | .write, e => if e > 0 then 0 else e

/-- The value the compare-and-swap writes — reader_writer_lock.hpp:38, 43, 55, 63. -/
def next : Kind → Int → Int
  | .read, e => e + 1
  | .write, e => e - 1

/-- What a thread does in its next atomic step. -/
inductive Act where
  | begin (k : Kind) (once : Bool)   -- the load at the start of `tryLock` (`once`) or `lock`
  | cas                              -- the compare-and-swap
  | unlock                           -- `fetch_sub` / `fetch_add`
  deriving DecidableEq, Repr

structure Conf where
  count : Int
  pcs : List Pc
  deriving DecidableEq, Repr

/-- One atomic step of thread `t`. Steps that do not fit the thread's position are ignored (a client calls `unlock` only
while holding the lock, as `ScopedLock` does, reader_writer_lock.hpp:83-96). -/
def step (c : Conf) (x : Nat × Act) : Conf :=
  match c.pcs[x.1]?, x.2 with
  | some .idle, .begin k once => { c with pcs := c.pcs.set x.1 (.trying k once (clamp k c.count)) }   -- 33-42, 50-54, 58-62
  | some (.trying k once e), .cas =>
    if c.count = e then { count := next k e, pcs := c.pcs.set x.1 (.held k) }                         -- 38, 43, 55, 63
    else if once then { c with pcs := c.pcs.set x.1 .idle }
    else { c with pcs := c.pcs.set x.1 (.trying k once (clamp k c.count)) }                           -- failed CAS reloads `expected`
  | some (.held .read), .unlock => { count := c.count - 1, pcs := c.pcs.set x.1 .idle }               -- 71
  | some (.held .write), .unlock => { count := c.count + 1, pcs := c.pcs.set x.1 .idle }              -- 73
  | _, _ => c

/-- `n` threads, lock free. -/
def init (n : Nat) : Conf := ⟨0, List.replicate n .idle⟩

end Verif.RwLock
