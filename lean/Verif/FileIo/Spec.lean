import Verif.Util.Bytes
/-!
How a stream of bytes may be cut into messages, in terms of the bytes only.
-/
namespace Verif.FileIo

/-- Pieces that are not empty, of at most `largest` bytes (if there is a bound), and all but the last of them of a multiple of `unit` bytes. -/
structure Cut {α : Type} (unit : Nat) (largest : Option Nat) (pieces : List (List α)) : Prop where
  nonempty : ∀ p ∈ pieces, p ≠ []
  small : ∀ p ∈ pieces, ∀ n, largest = some n → p.length ≤ n
  aligned : ∀ p ∈ pieces.dropLast, p.length % unit = 0

/-- The bound asked for: `chunk` bytes, but at least one unit; the largest number there is means that there is no bound. -/
def bound (chunk unit : Nat) : Option Nat :=
  if chunk = 2 ^ 64 - 1 ∨ unit = 2 ^ 64 - 1 then none else some (max unit chunk)

end Verif.FileIo
