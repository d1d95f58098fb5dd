import Verif.Ring.Model
/-!
# Model of the span objects of `gr::CircularBuffer` (reservation, publication and consumption requests, copies, destructors)

Source: core/include/gnuradio-4.0/CircularBuffer.hpp:340-460 (`WriterSpan`), 465-630 (`Writer`), 634-762 (`ReaderSpan`), 764-870
(`Reader`). One `Writer` and one `Reader` with any number of copies of their current span; the storage itself and the other
threads are in `Verif.Ring.Model`. An `assert`/`abort` of the code is the outcome `none` (debug build). 64-bit counters do not
wrap here.
-/
namespace Verif.Ring.Api

/-- `SpanReleasePolicy` — Buffer.hpp. -/
inductive Policy where
  | terminate | processAll | processNone
  deriving DecidableEq, Repr

/-- `Writer` together with the two cursors of the claim strategy. `req = none` is `kNotPublished`. -/
structure Writer where
  size : Nat
  minReader : Nat
  pub : Nat
  reserve : Nat
  offset : Nat
  spanLen : Nat
  req : Option Nat
  inst : Nat
  deriving DecidableEq, Repr

/-- A writer of a fresh buffer (`_nRequestedSamplesToPublish{0}`) — CircularBuffer.hpp:476-481. -/
def Writer.fresh (size pub minReader : Nat) : Writer := ⟨size, minReader, pub, pub, 0, 0, some 0, 0⟩

inductive WOp where
  /-- copy constructor — 358 -/
  | copy
  /-- copy assignment between two live copies of the span: the count is increased, nothing is released — 359-365 -/
  | assign
  | publish (k : Nat)
  /-- one of the copies is destroyed -/
  | drop
  /-- another `tryReserve(n)` while a span is still alive -/
  | reserve (n : Nat)
  deriving DecidableEq, Repr

/-- `tryReserve(n)` — CircularBuffer.hpp:531-548, `checkIfCanReserveAndAbortIfNeeded` 606-628. -/
def Writer.tryReserve (w : Writer) (n : Nat) : Option Writer :=
  if w.spanLen ≠ 0 ∧ w.req = none then none
  else if n = 0 then some { w with req := none, inst := w.inst + 1 }
  else if w.size < n then none                                               -- assert in tryNext
  else if capacity w.size w.reserve w.minReader < n then some { w with req := none, inst := w.inst + 1 }
  else some { w with req := none, reserve := w.reserve + n, offset := w.reserve + n - n, spanLen := n, inst := w.inst + 1 }

/-- `WriterSpan::publish` — CircularBuffer.hpp:454-459. -/
def Writer.publish (w : Writer) (k : Nat) : Option Writer :=
  let already := w.req.getD 0
  if k ≤ w.spanLen - already then some { w with req := some (already + k) } else none

/-- end of `~WriterSpan()` for the last copy: hand the request to the claim strategy — CircularBuffer.hpp:410-428,
ClaimStrategy.hpp:87-94. -/
def Writer.flush (w : Writer) : Writer :=
  let k := w.req.getD 0
  { w with pub := w.offset + k, reserve := w.offset + k, offset := w.offset + k, req := some 0, spanLen := 0 }

/-- `~WriterSpan()` — CircularBuffer.hpp:367-430. -/
def Writer.drop (policy : Policy) (w : Writer) : Option Writer :=
  let w := { w with inst := w.inst - 1 }
  if w.inst ≠ 0 then some w
  else
    match w.req with
    | some _ => some w.flush
    | none =>
      match policy with
      | .terminate => none
      | .processAll => (w.publish w.spanLen).map Writer.flush
      | .processNone => (w.publish 0).map Writer.flush

/-- an operation on a live span (there is none when `inst = 0`). -/
def Writer.op (policy : Policy) (w : Writer) (o : WOp) : Option Writer :=
  if w.inst = 0 then none
  else
    match o with
    | .copy => some { w with inst := w.inst + 1 }
    | .assign => some { w with inst := w.inst + 1 }
    | .publish k => w.publish k
    | .drop => w.drop policy
    | .reserve n => w.tryReserve n

def Writer.run (policy : Policy) : Writer → List WOp → Option Writer
  | w, [] => some w
  | w, o :: os => (w.op policy o).bind fun w' => Writer.run policy w' os

/-- `Reader` and the producer's published position. `first = none`, `req = none` are the sentinels. -/
structure Reader where
  pub : Nat
  cursor : Nat
  first : Option Nat
  req : Option Nat
  inst : Nat
  consumed : Nat
  deriving DecidableEq, Repr

def Reader.fresh (pub : Nat) : Reader := ⟨pub, pub, none, none, 0, 0⟩

def Reader.available (r : Reader) : Nat := r.pub - r.cursor

/-- `get(n)` / `get()` — CircularBuffer.hpp:838-865: the new state and the length of the span. -/
def Reader.get (r : Reader) (n : Option Nat) : Option (Reader × Nat) :=
  if r.req.isSome then none
  else
    match n with
    | some n =>
      if n ≤ r.available then
        match r.first with
        | none => some ({ r with first := some n, consumed := 0, inst := r.inst + 1 }, n)
        | some f => some ({ r with inst := r.inst + 1 }, min n f)
      else none
    | none =>
      match r.first with
      | none => some ({ r with first := some r.available, consumed := 0, inst := r.inst + 1 }, r.available)
      | some f => some ({ r with inst := r.inst + 1 }, min r.available f)

/-- `tryConsume<true>(k)` — CircularBuffer.hpp:712-726. -/
def Reader.tryConsume (r : Reader) (k : Nat) : Reader × Bool :=
  if r.req.isSome then (r, false)
  else
    match r.first with
    | some f => if f < k ∧ r.available < k then (r, false) else ({ r with req := some k }, true)
    | none => ({ r with req := some k }, true)                -- `k > max` is never true

/-- `tryConsume<false>(k)`: no check. -/
def Reader.tryConsumeUnchecked (r : Reader) (k : Nat) : Reader × Bool :=
  if r.req.isSome then (r, false) else ({ r with req := some k }, true)

/-- `performConsume<strict>(k)` — CircularBuffer.hpp:729-759. -/
def Reader.perform (strict : Bool) (r : Reader) (k : Nat) : Reader :=
  let r := { r with first := none, req := none }
  if strict ∧ k = 0 then r
  else if strict ∧ r.available < k then r
  else { r with cursor := r.cursor + k, consumed := k }

/-- `~ReaderSpan()` — CircularBuffer.hpp:661-678. -/
def Reader.drop (policy : Policy) (r : Reader) : Option Reader :=
  let r := { r with inst := r.inst - 1 }
  if r.inst ≠ 0 then some r
  else
    match r.req with
    | some k => some (r.perform false k)
    | none =>
      match policy with
      | .terminate => none
      | .processAll => some (r.perform true (r.first.getD 0))
      | .processNone => some (r.perform true 0)

inductive ROp where
  /-- the producer publishes `k` more samples -/
  | publish (k : Nat)
  | get (n : Option Nat)
  | copy
  /-- copy assignment between two live spans — 652-659 -/
  | assign
  | tryConsume (k : Nat)
  | tryConsumeUnchecked (k : Nat)
  | drop (policy : Policy)
  deriving DecidableEq, Repr

def Reader.op (r : Reader) : ROp → Option Reader
  | .publish k => some { r with pub := r.pub + k }
  | .get n => (r.get n).map (·.1)
  | .copy => if r.inst = 0 then none else some { r with inst := r.inst + 1 }
  | .assign => if r.inst = 0 then none else some { r with inst := r.inst + 1 }
  | .tryConsume k => if r.inst = 0 then none else some (r.tryConsume k).1
  | .tryConsumeUnchecked k => if r.inst = 0 then none else some (r.tryConsumeUnchecked k).1
  | .drop p => if r.inst = 0 then none else r.drop p

def Reader.run : Reader → List ROp → Option Reader
  | r, [] => some r
  | r, o :: os => (r.op o).bind fun r' => Reader.run r' os

end Verif.Ring.Api
