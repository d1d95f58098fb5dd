import Verif.Sched.Model
/-! Specification vocabulary for the scheduling properties, independent of the algorithms. -/
namespace Verif.Sched

/-- `b` can be reached from `a` along edges of the graph -/
inductive Reach (es : List Edge) : Nat → Nat → Prop where
  | refl (a : Nat) : Reach es a a
  | step {a b c : Nat} : Reach es a b → (b, c) ∈ es → Reach es a c

/-- a block from which data flows out and into which none flows -/
def IsSource (es : List Edge) (b : Nat) : Prop := (∃ d, (b, d) ∈ es) ∧ ∀ s, (s, b) ∉ es

/-- a block that a source block feeds, directly or through other blocks -/
def Fed (es : List Edge) (b : Nat) : Prop := ∃ s, IsSource es s ∧ Reach es s b

/-- a list of work lists gives every block of `xs` to exactly one worker, exactly once -/
def ExactlyOneWorker {α : Type} [DecidableEq α] (lists : List (List α)) (xs : List α) : Prop :=
  (∀ l ∈ lists, ∀ b ∈ l, b ∈ xs) ∧
  ∀ b ∈ xs, ∃ i, (∃ l : List α, lists[i]? = some l ∧ l.count b = 1) ∧ ∀ (j : Nat) (l : List α), lists[j]? = some l → b ∈ l → j = i

end Verif.Sched
