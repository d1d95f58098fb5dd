import Verif.Chunk.Pool
/-!
# Histories of pool calls by well-behaved clients

A client may release only what it holds; it releases a chunk by the function that matches the one it was acquired with.
-/
namespace Verif.Chunk

/-- calls; the `Nat` named `fresh` is the address upstream returns if it is asked. -/
inductive PoolOp where
  | acquire (fresh : Nat)
  | release (c : Block)
  | acquireOversized (bytes fresh : Nat)
  | releaseOversized (c : Block)
  | reclaim (keep : Nat)
  deriving DecidableEq, Repr

/-- the pool together with what its clients hold: standard chunks and oversized ones. -/
structure World where
  pool : Pool
  held : List Block
  heldBig : List Block
  deriving DecidableEq, Repr

/-- what the caller and the upstream resource guarantee. -/
def PoolOp.ok (w : World) : PoolOp → Prop
  | .acquire fresh => ∀ b ∈ w.pool.live, b.addr ≠ fresh
  | .release c => c ∈ w.held
  | .acquireOversized bytes fresh => 0 < bytes ∧ ∀ b ∈ w.pool.live, b.addr ≠ fresh
  | .releaseOversized c => c ∈ w.heldBig
  | .reclaim _ => True

instance (w : World) (o : PoolOp) : Decidable (o.ok w) := by cases o <;> simp only [PoolOp.ok] <;> infer_instance

/-- effect of a call; `none` = undefined behaviour. -/
def World.step (w : World) : PoolOp → Option World
  | .acquire fresh =>
    match w.pool.acquire fresh with
    | (p, some c) => some { w with pool := p, held := c :: w.held }
    | (p, none) => some { w with pool := p }
  | .release c => some { w with pool := w.pool.release c, held := w.held.erase c }
  | .acquireOversized bytes fresh =>
    match w.pool.acquireOversized bytes fresh with
    | (p, some c) => some { w with pool := p, heldBig := c :: w.heldBig }
    | (p, none) => some { w with pool := p }
  | .releaseOversized c => (w.pool.releaseOversized c).map fun p => { w with pool := p, heldBig := w.heldBig.erase c }
  | .reclaim keep => (w.pool.reclaim keep).map fun p => { w with pool := p }

/-- worlds reached by histories of permitted calls. -/
inductive Reach (chunkBytes maxChunks : Nat) : World → Prop where
  | init : Reach chunkBytes maxChunks ⟨Pool.init chunkBytes maxChunks, [], []⟩
  | step {w w' : World} (o : PoolOp) : Reach chunkBytes maxChunks w → o.ok w → w.step o = some w' → Reach chunkBytes maxChunks w'

end Verif.Chunk
