/-!
# Model of `gr::CircularBuffer` with the multi-producer strategy, one step per atomic access

Sources: core/include/gnuradio-4.0/ClaimStrategy.hpp:126-280 (`MultiProducerStrategy`), CircularBuffer.hpp:340-460 (spans).

Any number of producer threads (thread ids are natural numbers) and a fixed set of readers run concurrently; the schedule is
arbitrary and the atomics are sequentially consistent. Cursors are unbounded naturals. Storage is the double-mapped layout
(`phys i = i % size`); the mirror copies of the other layout are in `Verif.Ring.Model`.
-/
namespace Verif.RingMp

/-- position of a producer thread. -/
inductive Pc where
  | idle
  /-- `next`/`tryNext`: about to load `_reserveCursor` — 196, 224 -/
  | load (n : Nat) (blocking : Bool)
  /-- about to load `_cachedMinReaderCursor` — 198, 226 -/
  | check (n cur : Nat) (blocking : Bool)
  /-- inside `getMinReaderCursor`, readers below `i` loaded — 200, 228, 273-279 -/
  | fresh (n cur i : Nat) (acc : Option Nat) (blocking : Bool)
  /-- about to compare-and-set `_reserveCursor` — 209, 235 -/
  | cas (n cur : Nat) (blocking : Bool)
  /-- inside `getRemainingCapacity` — 238-242 -/
  | avail (i : Nat) (acc : Option Nat)
  /-- holds the slots `lo … lo+n-1` -/
  | opened (lo n : Nat)
  /-- `publish(lo, k)`: the first `i` slots are marked — 249-251 -/
  | marking (lo k i : Nat)
  /-- about to load `_publishCursor` — 256 -/
  | pubLoad
  /-- the scan loop — 259-261 -/
  | scan (cur nxt : Nat)
  /-- about to compare-and-set `_publishCursor` — 265 -/
  | pubCas (cur nxt : Nat)
  deriving DecidableEq, Repr

/-- `slot` is `_availableBuffer` (`none`: the initial value 2^64-1). Ghost: `val p`, the value the owner of position `p` has
written there; `aband p`, position `p` was claimed but its owner released it unpublished. -/
structure St (α : Type) where
  size : Nat
  nReaders : Nat
  slot : Nat → Option Nat
  mem : Nat → α
  reserve : Nat
  pub : Nat
  cachedMin : Nat
  cursor : Nat → Nat
  pc : Nat → Pc
  val : Nat → Option α
  aband : Nat → Bool

variable {α : Type}

def St.init (size nReaders : Nat) (mem : Nat → α) : St α :=
  ⟨size, nReaders, fun _ => none, mem, 0, 0, 0, fun _ => 0, fun _ => .idle, fun _ => none, fun _ => false⟩

inductive Act (α : Type) where
  /-- thread `t` calls `reserve(n)` / `tryReserve(n)` -/
  | call (t n : Nat) (blocking : Bool)
  /-- thread `t` calls `available()` -/
  | avail (t : Nat)
  /-- thread `t` writes element `j` of its span -/
  | write (t j : Nat) (v : α)
  /-- thread `t` releases its span with `k` samples to publish -/
  | close (t k : Nat)
  /-- thread `t` performs its next atomic access -/
  | tick (t : Nat)
  /-- reader `r` consumes `k` samples -/
  | consume (r k : Nat)

def upd {β : Type} (f : Nat → β) (i : Nat) (v : β) : Nat → β := fun x => if x = i then v else f x

def St.go (s : St α) (t : Nat) (pc : Pc) : St α := { s with pc := upd s.pc t pc }

def minAcc : Option Nat → Nat → Nat
  | some m, c => min m c
  | none, c => c

/-- `next - m > size` in `size_t`: true also when `m` is ahead of `next`, where the difference wraps around (cursors below
2^63) — 199, 203, 227, 230. -/
def tooFar (size next m : Nat) : Bool := decide (next < m) || decide (size < next - m)

/-- the next atomic access of thread `t`. -/
def tick (s : St α) (t : Nat) : St α :=
  match s.pc t with
  | .idle => s
  | .opened _ _ => s
  | .load n b => s.go t (.check n s.reserve b)
  | .check n cur b => if tooFar s.size (cur + n) s.cachedMin then s.go t (.fresh n cur 0 none b) else s.go t (.cas n cur b)
  | .fresh n cur i acc b =>
    if i < s.nReaders then s.go t (.fresh n cur (i + 1) (some (minAcc acc (s.cursor i))) b)
    else
      let m := acc.getD 0
      let s := { s with cachedMin := m }
      if tooFar s.size (cur + n) m then s.go t (if b then .load n b else .idle) else s.go t (.cas n cur b)
  | .cas n cur b =>
    if s.reserve = cur then { s.go t (.opened cur n) with reserve := cur + n } else s.go t (.load n b)
  | .avail i acc =>
    if i < s.nReaders then s.go t (.avail (i + 1) (some (minAcc acc (s.cursor i))))
    else { s.go t .idle with cachedMin := acc.getD 0 }
  | .marking lo k i =>
    if i < k then { s.go t (.marking lo k (i + 1)) with slot := upd s.slot ((lo + i) % s.size) (some (lo + i)) }
    else s.go t .pubLoad
  | .pubLoad => s.go t (.scan s.pub s.pub)
  | .scan cur nxt =>
    if nxt - cur < s.size ∧ s.slot (nxt % s.size) = some nxt then s.go t (.scan cur (nxt + 1))
    else if nxt = cur then s.go t .idle
    else s.go t (.pubCas cur nxt)
  | .pubCas cur nxt => if s.pub = cur then { s.go t .idle with pub := nxt } else s.go t .pubLoad

/-- One step; an action that does not fit the thread's position, or violates an assertion (claim of 0 or more than the size,
publishing more than reserved, consuming more than published), changes nothing. -/
def step (s : St α) : Act α → St α
  | .call t n b =>
    match s.pc t with
    | .idle => if 0 < n ∧ n ≤ s.size then s.go t (.load n b) else s
    | _ => s
  | .avail t =>
    match s.pc t with
    | .idle => s.go t (.avail 0 none)
    | _ => s
  | .write t j v =>
    match s.pc t with
    | .opened lo n => if j < n then { s with mem := upd s.mem ((lo + j) % s.size) v, val := upd s.val (lo + j) (some v) } else s
    | _ => s
  | .close t k =>
    match s.pc t with
    | .opened lo n =>
      if k ≤ n then
        { s.go t (if k = 0 then .idle else .marking lo k 0) with
          aband := fun p => s.aband p || (decide (lo + k ≤ p) && decide (p < lo + n)) }
      else s
    | _ => s
  | .tick t => tick s t
  | .consume r k => if r < s.nReaders ∧ k ≤ s.pub - s.cursor r then { s with cursor := upd s.cursor r (s.cursor r + k) } else s

inductive Reach (size nReaders : Nat) : St α → Prop where
  | init (mem : Nat → α) : Reach size nReaders (St.init size nReaders mem)
  | step {s : St α} (a : Act α) : Reach size nReaders s → Reach size nReaders (step s a)

end Verif.RingMp
