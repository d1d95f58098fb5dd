import Verif.Bitset.Model
/-!
# Specification: a set of Booleans indexed by position
-/
namespace Verif.Bitset

/-- the bits a call addresses. -/
def Call.touches (p : Nat) : Call → Prop
  | .bit q _ => p = q
  | .range b e _ => b ≤ p ∧ p < e

instance (p : Nat) (c : Call) : Decidable (c.touches p) := by cases c <;> simp only [Call.touches] <;> infer_instance

/-- the value a call writes. -/
def Call.value : Call → Bool
  | .bit _ v => v
  | .range _ _ v => v

/-- plain sequential semantics on Booleans. -/
def specCall (f : Nat → Bool) (c : Call) : Nat → Bool := fun p => if c.touches p then c.value else f p

/-- the assertion at the start of each call. -/
def Call.valid (size : Nat) : Call → Prop
  | .bit p _ => p < size
  | .range b e _ => b ≤ e ∧ e ≤ size

end Verif.Bitset
