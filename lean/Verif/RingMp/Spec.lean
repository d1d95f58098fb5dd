import Verif.RingMp.Model
/-! What C03 talks about. -/
namespace Verif.RingMp
variable {α : Type}

/-- stream position `p` has been handed to a producer that has not finished with it: the producer may still write it, or has not
marked it as published. -/
def holds : Pc → Nat → Prop
  | .opened lo n, p => lo ≤ p ∧ p < lo + n
  | .marking lo k i, p => lo + i ≤ p ∧ p < lo + k
  | _, _ => False

/-- position `p` was claimed and its producer has completed publishing it. -/
def Complete (s : St α) (p : Nat) : Prop := p < s.reserve ∧ s.aband p = false ∧ ∀ t, ¬ holds (s.pc t) p

end Verif.RingMp
