/-!
# Model of `gr::ChunkPool` (core/include/gnuradio-4.0/ChunkPool.hpp)

Every member function holds the pool's mutex for its whole body, so one call is one step. Chunks are identified by their
address. The upstream `memory_resource` is the environment: `live` lists the blocks it has handed out and not taken back,
with the size it was asked for; a new allocation may return any address that is not live.
-/
namespace Verif.Chunk

/-- a block of memory: address and size. -/
structure Block where
  addr : Nat
  size : Nat
  deriving DecidableEq, Repr

/-- ChunkPool.hpp:32-39. `free` is the intrusive list starting at `_freeHead`; the counters are kept separately, as in the
code. `live` is the environment. -/
structure Pool where
  chunkBytes : Nat
  maxChunks : Nat
  free : List Nat
  freeCount : Nat
  residentChunks : Nat
  live : List Block
  deriving DecidableEq, Repr

/-- constructor — ChunkPool.hpp:49. -/
def Pool.init (chunkBytes maxChunks : Nat) : Pool := ⟨chunkBytes, maxChunks, [], 0, 0, []⟩

/-- `acquire()` — ChunkPool.hpp:66-80; `fresh` is the address upstream would return. -/
def Pool.acquire (p : Pool) (fresh : Nat) : Pool × Option Block :=
  match p.free with
  | a :: rest => ({ p with free := rest, freeCount := p.freeCount - 1 }, some ⟨a, p.chunkBytes⟩)
  | [] =>
    if p.residentChunks ≥ p.maxChunks then (p, none)
    else ({ p with residentChunks := p.residentChunks + 1, live := ⟨fresh, p.chunkBytes⟩ :: p.live }, some ⟨fresh, p.chunkBytes⟩)

/-- `release(chunk)` — ChunkPool.hpp:82-90. -/
def Pool.release (p : Pool) (c : Block) : Pool :=
  if c.size = 0 then p else { p with free := c.addr :: p.free, freeCount := p.freeCount + 1 }

/-- `acquireOversized(bytes)` — ChunkPool.hpp:94-102. -/
def Pool.acquireOversized (p : Pool) (bytes fresh : Nat) : Pool × Option Block :=
  if p.residentChunks ≥ p.maxChunks then (p, none)
  else ({ p with residentChunks := p.residentChunks + 1, live := ⟨fresh, bytes⟩ :: p.live }, some ⟨fresh, bytes⟩)

/-- `releaseOversized(chunk)` — ChunkPool.hpp:104-111. `none`: upstream is asked to take back something it has not handed
out with this size (undefined behaviour). -/
def Pool.releaseOversized (p : Pool) (c : Block) : Option Pool :=
  if c.size = 0 then some p
  else if c ∈ p.live then some { p with live := p.live.erase c, residentChunks := p.residentChunks - 1 }
  else none

/-- `reclaimToUpstream(keepResident)` — ChunkPool.hpp:114-123. `none`: a null list head is dereferenced, or upstream is
asked to take back something it has not handed out with this size. -/
def Pool.reclaim (p : Pool) (keep : Nat) : Option Pool :=
  go p.free p.freeCount p.residentChunks p.live
where
  go : List Nat → Nat → Nat → List Block → Option Pool
  | [], n, r, live => if n > keep then none else some { p with free := [], freeCount := n, residentChunks := r, live := live }
  | a :: rest, n, r, live =>
    if n > keep then
      if ⟨a, p.chunkBytes⟩ ∈ live then go rest (n - 1) (r - 1) (live.erase ⟨a, p.chunkBytes⟩) else none
    else some { p with free := a :: rest, freeCount := n, residentChunks := r, live := live }

end Verif.Chunk
