import Verif.Chunk.Pool
/-!
# Model of `gr::ChunkBuffer` (core/include/gnuradio-4.0/ChunkBuffer.hpp)

The descriptor ring is a `CircularBuffer` (modelled in `Verif.Ring`); here it appears only through its cursors: `pub`
(published descriptors) and one position per reader. The chunk pool appears through its answers: the address it returns, or
nothing when the cap is reached (`Verif.Chunk.Pool`). `serialiseBlob` and `houseKeeping` exclude each other by a spin flag,
so each is one step.
-/
namespace Verif.Chunk

/-- `kChunkHeaderBytes`, the size of `SealedHeader` — ChunkBuffer.hpp:52-57. -/
def headerBytes : Nat := 24

/-- a full chunk waiting for its readers — `SealedHeader`, ChunkBuffer.hpp:52-56. -/
structure SealedChunk where
  addr : Nat
  threshold : Nat
  size : Nat
  deriving DecidableEq, Repr

/-- chunk bookkeeping — ChunkBuffer.hpp:66-80. The intrusive list is a `List` (its nodes live in the first `headerBytes`
bytes of the chunks, see `writeHeader`); `mem a o` is byte `o` of the chunk at address `a`. -/
structure Buf where
  chunkBytes : Nat
  head : Option Block
  headOffset : Nat
  headSize : Nat
  headLastWritten : Nat
  sealed : List SealedChunk
  mem : Nat → Nat → Nat

def Buf.init (chunkBytes : Nat) (mem : Nat → Nat → Nat) : Buf := ⟨chunkBytes, none, 0, 0, 0, [], mem⟩

/-- `writeHeader` — ChunkBuffer.hpp:64. Only the overwritten range matters, not the header's byte image. -/
def writeHeader (mem : Nat → Nat → Nat) (a : Nat) : Nat → Nat → Nat :=
  fun x o => if x = a ∧ o < headerBytes then 0 else mem x o

/-- `sealHead(s, releaseThreshold)` — ChunkBuffer.hpp:125-135 (called with a non-empty head). -/
def Buf.sealHead (b : Buf) (h : Block) (threshold : Nat) : Buf :=
  let mem := writeHeader b.mem h.addr
  let mem := match b.sealed.getLast? with
    | some tail => writeHeader mem tail.addr
    | none => mem
  { b with sealed := b.sealed ++ [⟨h.addr, threshold, b.headSize⟩], mem := mem }

/-- `memcpy(dst, blob)` — ChunkBuffer.hpp:159. -/
def writeBlob (mem : Nat → Nat → Nat) (a off : Nat) (blob : List Nat) : Nat → Nat → Nat :=
  fun x o => if x = a ∧ off ≤ o ∧ o < off + blob.length then blob.getD (o - off) 0 else mem x o

/-- where a blob was stored. -/
structure Stored where
  addr : Nat
  off : Nat
  len : Nat
  deriving DecidableEq, Repr

/-- does `serialiseBlob` need a new chunk? — ChunkBuffer.hpp:145. -/
def Buf.needsChunk (b : Buf) (need : Nat) : Bool :=
  match b.head with
  | none => true
  | some h => b.headOffset + need > h.size

/-- size of the chunk asked from the pool — ChunkBuffer.hpp:144, 151. -/
def Buf.wanted (b : Buf) (need : Nat) : Nat :=
  if need > b.chunkBytes - headerBytes then headerBytes + need else b.chunkBytes

/-- `serialiseBlob(s, blob, descAbsPos)` — ChunkBuffer.hpp:139-163; `answer` is what the pool returns if it is asked. -/
def Buf.serialise (b : Buf) (blob : List Nat) (pos : Nat) (answer : Option Nat) : Buf × Option Stored :=
  let need := blob.length
  let b := if b.needsChunk need then
      let b := match b.head with
        | some h => b.sealHead h pos
        | none => b
      match answer with
      | some a => { b with head := some ⟨a, b.wanted need⟩, headSize := b.wanted need, headOffset := headerBytes }
      | none => { b with head := none, headSize := 0, headOffset := headerBytes }
    else b
  match b.head with
  | none => (b, none)
  | some h =>
    ({ b with mem := writeBlob b.mem h.addr b.headOffset blob, headOffset := b.headOffset + need, headLastWritten := pos },
      some ⟨h.addr, b.headOffset, need⟩)

/-- the loop over the sealed chunks — ChunkBuffer.hpp:281-292; returns the released chunks too. -/
def releaseSealed (minPos : Nat) : List SealedChunk → List SealedChunk × List SealedChunk
  | [] => ([], [])
  | c :: rest =>
    if minPos < c.threshold then (c :: rest, [])
    else
      let r := releaseSealed minPos rest
      (r.1, c :: r.2)

/-- `houseKeeping` without the pool's own reclaim — ChunkBuffer.hpp:274-298. -/
def Buf.houseKeeping (b : Buf) (minPos : Nat) : Buf :=
  let s := (releaseSealed minPos b.sealed).1
  let b := { b with sealed := s }
  if s = [] ∧ b.head.isSome ∧ minPos > b.headLastWritten then { b with head := none, headOffset := 0, headSize := 0 } else b

/-- addresses of the chunks the buffer owns. -/
def Buf.owned (b : Buf) : List Nat := (b.head.map (·.addr)).toList ++ b.sealed.map (·.addr)

end Verif.Chunk
