import Verif.Ring.Model
/-! What the properties of the ring talk about: stream positions, the storage cells that stand for a position, the contents
of an open span. -/
namespace Verif.Ring
variable {α : Type}

/-- Storage cell of stream position `p`: the ring of `size` cells is kept twice, in a lower (`false`) and an upper (`true`)
half; with the double-mapped allocator both halves are the same memory. -/
def slotAddr (mmap : Bool) (size p : Nat) (upper : Bool) : Nat := phys mmap size (p % size + if upper then size else 0)

/-- both copies of position `p` hold `v`. -/
def Holds (s : Ring α) (p : Nat) (v : α) : Prop := ∀ u, s.mem (slotAddr s.mmap s.size p u) = v

/-- what the producer sees through its open span of `n` slots. -/
def Ring.window (s : Ring α) (n : Nat) : List α := (List.range n).map (s.cell s.index)

/-- what a reader at `cursor` sees through a span of `n` samples. -/
def Ring.view (s : Ring α) (cursor n : Nat) : List α := (List.range n).map (s.cell (calcIndex s.size cursor))

/-- a schedule. -/
def run (s : Ring α) (as : List (Act α)) : Ring α := as.foldl step s

/-- the producer has released its span and not yet published it. -/
def Closing : WPc → Prop
  | .mirrorA _ _ | .mirrorB _ _ | .publishing _ => True
  | _ => False

/-- the actions of the producer's thread. -/
def isProducer : Act α → Bool
  | .attach | .detach _ | .get _ _ | .release _ _ => false
  | _ => true

end Verif.Ring
