import Verif.Chunk.Buffer
/-!
# Histories of a chunk buffer with one producer and any number of readers
-/
namespace Verif.Chunk

/-- what a published descriptor refers to: the stored place and (ghost) the bytes that were stored there. -/
structure Desc where
  place : Stored
  blob : List Nat
  deriving DecidableEq, Repr

/-- an open `WriterSpan`: number of slots and the descriptors written so far, by slot — ChunkBuffer.hpp:194-218. -/
structure OpenSpan where
  size : Nat
  next : Nat                 -- (ghost) slots below `next` may have been written
  descs : Nat → Option Desc

/-- the buffer, its ring cursors, and the descriptors by position. `attempted`/`stored` (ghost) bound the positions for which
a blob was offered / stored. -/
structure Sys where
  buf : Buf
  pub : Nat
  readers : List Nat
  span : Option OpenSpan
  desc : Nat → Option Desc
  attempted : Nat
  storedTop : Nat

def Sys.init (chunkBytes : Nat) (mem : Nat → Nat → Nat) : Sys := ⟨Buf.init chunkBytes mem, 0, [], none, fun _ => none, 0, 0⟩

inductive Op where
  | reserve (n : Nat)
  /-- `storeBlob(i, blob)` and the assignment of the descriptor -/
  | store (i : Nat) (blob : List Nat) (answer : Option Nat)
  /-- end of the span with `k` descriptors published -/
  | publish (k : Nat)
  | attach
  | detach (r : Nat)
  | consume (r k : Nat)
  /-- house-keeping that has observed the slowest reader at `minPos` -/
  | houseKeeping (minPos : Nat)
  /-- anybody else writes into memory that the buffer does not own -/
  | foreign (a o v : Nat)

/-- what the callers guarantee. `store`: blobs are stored in the order of the slots, as `Port::publishTag` does
(Port.hpp:743-749, 1083-1095), and the pool answers with a chunk that the buffer does not own (C25). `houseKeeping`: cursors
only move forward, so the observed minimum is at most every reader's position and the publish cursor. -/
def Op.ok (s : Sys) : Op → Prop
  | .reserve _ => s.span.isNone
  | .store i _ answer => (∃ sp, s.span = some sp ∧ i < sp.size ∧ sp.next ≤ i) ∧ ∀ a, answer = some a → a ∉ s.buf.owned
  | .publish k => ∃ sp, s.span = some sp ∧ k ≤ sp.size
  | .attach => True
  | .detach _ => True
  | .consume r k => ∃ p, s.readers[r]? = some p ∧ p + k ≤ s.pub
  | .houseKeeping m => m ≤ s.pub ∧ ∀ p ∈ s.readers, m ≤ p
  | .foreign a _ _ => a ∉ s.buf.owned

def Sys.step (s : Sys) : Op → Sys
  | .reserve n => { s with span := some ⟨n, 0, fun _ => none⟩ }
  | .store i blob answer =>
    match s.span with
    | none => s
    | some sp =>
      match s.buf.serialise blob (s.pub + i) answer with
      | (b, some st) =>
        { s with buf := b, attempted := max s.attempted (s.pub + i), storedTop := max s.storedTop (s.pub + i + 1),
                 span := some ⟨sp.size, i + 1, fun j => if j = i then some ⟨st, blob⟩ else sp.descs j⟩ }
      | (b, none) => { s with buf := b, attempted := max s.attempted (s.pub + i) }
  | .publish k =>
    match s.span with
    | none => s
    | some sp =>
      { s with span := none, pub := s.pub + k,
               desc := fun p => if s.pub ≤ p ∧ p < s.pub + k then sp.descs (p - s.pub) else s.desc p }
  | .attach => { s with readers := s.readers ++ [s.pub] }
  | .detach r => { s with readers := s.readers.eraseIdx r }
  | .consume r k => { s with readers := s.readers.set r (s.readers.getD r 0 + k) }
  | .houseKeeping m => { s with buf := s.buf.houseKeeping m }
  | .foreign a o v => { s with buf := { s.buf with mem := fun x y => if x = a ∧ y = o then v else s.buf.mem x y } }

inductive SReach (chunkBytes : Nat) : Sys → Prop where
  | init (mem) : SReach chunkBytes (Sys.init chunkBytes mem)
  | step {s : Sys} (o : Op) : SReach chunkBytes s → o.ok s → SReach chunkBytes (s.step o)

/-- descriptor `d` at position `p` can still be read: it is published and some reader has not passed it. -/
def Sys.readable (s : Sys) (p : Nat) (d : Desc) : Prop := s.desc p = some d ∧ p < s.pub ∧ ∃ r ∈ s.readers, r ≤ p

/-- what a reader finds at the place a descriptor refers to. -/
def Sys.bytesAt (s : Sys) (st : Stored) : List Nat := (List.range st.len).map fun j => s.buf.mem st.addr (st.off + j)

end Verif.Chunk
