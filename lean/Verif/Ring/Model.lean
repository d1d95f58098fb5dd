/-!
# Model of `gr::CircularBuffer` with the single-producer strategy, one step per atomic access

Sources: core/include/gnuradio-4.0/CircularBuffer.hpp, ClaimStrategy.hpp, Sequence.hpp.

One producer and any number of readers run concurrently; the schedule (the list of actions) is arbitrary. Cursors are
unbounded naturals (the code's 64-bit counters do not wrap before 2^64 samples), but the capacity arithmetic is done modulo
2^64 as in the code. Creating and destroying a reader is one step here; the finer-grained creation is in
`Verif.Ring.Attach`.
-/
namespace Verif.Ring

/-- `std::size_t` subtraction. -/
def wsub (a b : Nat) : Nat := (a % 2 ^ 64 + 2 ^ 64 - b % 2 ^ 64) % 2 ^ 64

/-- `std::has_single_bit`. -/
def hasSingleBit (n : Nat) : Bool := n == 2 ^ n.log2

/-- `calculateIndex` — CircularBuffer.hpp:290-296 (and ClaimStrategy.hpp:138-151). -/
def calcIndex (size cursor : Nat) : Nat := if hasSingleBit size then cursor &&& (size - 1) else cursor % size

/-- Physical cell behind the `i`-th element of `_data`: with the double-mapped allocator the upper half of the address range
is the same memory as the lower half — CircularBuffer.hpp:329-334. -/
def phys (mmap : Bool) (size i : Nat) : Nat := if mmap then i % size else i

/-- `getRemainingCapacity` — ClaimStrategy.hpp:85. -/
def capacity (size reserve minReader : Nat) : Nat := wsub size (wsub reserve minReader)

/-- one step of the minimum over the readers' cursors — ClaimStrategy.hpp:111. -/
def minAcc : Option Nat → Nat → Nat
  | some m, c => min m c
  | none, c => c

/-- position of the producer thread. -/
inductive WPc where
  | idle
  /-- inside `getMinReaderCursor` (ClaimStrategy.hpp:97-112): cursors of the readers in `todo` still to be loaded -/
  | loading (n : Nat) (todo : List Nat) (acc : Option Nat) (blocking : Bool)
  /-- a `WriterSpan` of `n` slots is open -/
  | opened (n : Nat)
  /-- copying element `i` of part A / part B in the destructor, `k` samples to publish — CircularBuffer.hpp:391-407 -/
  | mirrorA (k i : Nat)
  | mirrorB (k i : Nat)
  /-- about to call `claimStrategy.publish` — CircularBuffer.hpp:410 -/
  | publishing (k : Nat)
  deriving DecidableEq, Repr

/-- a `Reader`; `recv` (ghost): the samples it has consumed, `start` (ghost): its first position. -/
structure RState (α : Type) where
  cursor : Nat
  attached : Bool
  span : Option Nat
  start : Nat
  recv : List α

/-- the buffer, its writer and its readers. `log` (ghost): all samples published so far; `data` (ghost): the samples the
producer left in its span when it released it. -/
structure Ring (α : Type) where
  size : Nat
  mmap : Bool
  mem : Nat → α
  pub : Nat                 -- `_publishCursor`
  reserve : Nat             -- `_reserveCursor`
  index : Nat               -- `Writer::_index`
  offset : Nat              -- `Writer::_offset`
  wpc : WPc
  data : List α
  log : List α
  readers : List (RState α)

variable {α : Type}

def Ring.init (size : Nat) (mmap : Bool) (mem : Nat → α) : Ring α :=
  ⟨size, mmap, mem, 0, 0, 0, 0, .idle, [], [], []⟩

/-- indices of the attached readers, the content of `_readSequences`. -/
def Ring.attachedIdx (s : Ring α) : List Nat :=
  (List.range s.readers.length).filter fun i => (s.readers[i]?.map (·.attached)).getD false

/-- `getMinReaderCursor` evaluated while nothing else moves — ClaimStrategy.hpp:97-112. -/
def Ring.minReader (s : Ring α) : Option Nat :=
  s.attachedIdx.foldl (fun acc r => match s.readers[r]? with | some rd => some (minAcc acc rd.cursor) | none => acc) none

/-- `Writer::available()` — CircularBuffer.hpp:592, ClaimStrategy.hpp:85; without readers the minimum is
`kInitialCursorValue = 0`. -/
def Ring.available (s : Ring α) : Nat := capacity s.size s.reserve (s.minReader.getD 0)

/-- cell `j` of a span starting at index `i`. -/
def Ring.cell (s : Ring α) (i j : Nat) : α := s.mem (phys s.mmap s.size (i + j))

def Ring.poke (s : Ring α) (a : Nat) (v : α) : Ring α := { s with mem := fun x => if x = a then v else s.mem x }

inductive Act (α : Type) where
  /-- producer: `tryReserve(n)` / `reserve(n)` — CircularBuffer.hpp:531-577 -/
  | reserve (n : Nat) (blocking : Bool)
  /-- producer: load one reader cursor -/
  | load
  /-- producer: capacity check and claim — ClaimStrategy.hpp:61-83 -/
  | claim
  /-- producer: `span[j] = v` -/
  | write (j : Nat) (v : α)
  /-- producer: the last copy of the span is destroyed with `k` samples requested to be published -/
  | close (k : Nat)
  /-- producer: one step of the mirror copy -/
  | mirror
  /-- producer: `publish` — ClaimStrategy.hpp:87-94 -/
  | publish
  | attach
  | detach (r : Nat)
  /-- reader: `get(n)` / `get()` — CircularBuffer.hpp:839-865 -/
  | get (r : Nat) (req : Option Nat)
  /-- reader: the span is destroyed with `k` samples consumed — CircularBuffer.hpp:729-759 -/
  | release (r k : Nat)

/-- One step. An action that does not fit the thread's position, or violates an assertion of the code (reserving more than
the size, publishing more than reserved, getting or consuming more than available), changes nothing. -/
def step (s : Ring α) : Act α → Ring α
  | .reserve n blocking =>
    match s.wpc with
    | .idle =>
      if n = 0 then { s with wpc := .mirrorA 0 0, data := [] }       -- empty span, CircularBuffer.hpp:535-537
      else if n ≤ s.size then { s with wpc := .loading n s.attachedIdx none blocking }
      else s
    | _ => s
  | .load =>
    match s.wpc with
    | .loading n (r :: todo) acc b =>
      match s.readers[r]? with
      | some rd => { s with wpc := .loading n todo (some (minAcc acc rd.cursor)) b }
      | none => s
    | _ => s
  | .claim =>
    match s.wpc with
    | .loading n [] acc b =>
      if n ≤ capacity s.size s.reserve (acc.getD 0) then
        let seq := s.reserve + n
        { s with reserve := seq, index := calcIndex s.size (seq + s.size - n), offset := seq - n, wpc := .opened n }
      else if b then { s with wpc := .loading n s.attachedIdx none b }
      else { s with wpc := .mirrorA 0 0, data := [] }                  -- empty span, CircularBuffer.hpp:546
    | _ => s
  | .write j v =>
    match s.wpc with
    | .opened n => if j < n then s.poke (phys s.mmap s.size (s.index + j)) v else s
    | _ => s
  | .close k =>
    match s.wpc with
    | .opened n => if k ≤ n then { s with wpc := .mirrorA k 0, data := (List.range k).map (s.cell s.index) } else s
    | _ => s
  | .mirror =>
    match s.wpc with
    | .mirrorA k i =>
      if s.mmap then { s with wpc := .publishing k }
      else if i < min (s.size - s.index) k then
        { s.poke (s.index + s.size + i) (s.mem (s.index + i)) with wpc := .mirrorA k (i + 1) }
      else { s with wpc := .mirrorB k 0 }
    | .mirrorB k i =>
      if i < k - min (s.size - s.index) k then
        { s.poke i (s.mem (s.size + i)) with wpc := .mirrorB k (i + 1) }
      else { s with wpc := .publishing k }
    | _ => s
  | .publish =>
    match s.wpc with
    | .publishing k =>
      { s with pub := s.offset + k, reserve := s.offset + k, offset := s.offset + k, wpc := .idle, log := s.log ++ s.data }
    | _ => s
  | .attach => { s with readers := s.readers ++ [⟨s.pub, true, none, s.pub, []⟩] }
  | .detach r =>
    match s.readers[r]? with
    | some rd => { s with readers := s.readers.set r { rd with attached := false, span := none } }
    | none => s
  | .get r req =>
    match s.readers[r]? with
    | some rd =>
      if rd.attached && rd.span.isNone then
        let available := s.pub - rd.cursor
        match req with
        | none => { s with readers := s.readers.set r { rd with span := some available } }
        | some n => if n ≤ available then { s with readers := s.readers.set r { rd with span := some n } } else s
      else s
    | none => s
  | .release r k =>
    match s.readers[r]? with
    | some rd =>
      if rd.attached && rd.span.isSome && decide (k ≤ s.pub - rd.cursor) then
        let got := (List.range k).map (s.cell (calcIndex s.size rd.cursor))
        { s with readers := s.readers.set r ⟨rd.cursor + k, true, none, rd.start, rd.recv ++ got⟩ }
      else s
    | none => s

/-- states reachable by some schedule. -/
inductive Reach (size : Nat) (mmap : Bool) : Ring α → Prop where
  | init (mem : Nat → α) : Reach size mmap (Ring.init size mmap mem)
  | step {s : Ring α} (a : Act α) : Reach size mmap s → Reach size mmap (step s a)

end Verif.Ring
