import Verif.Graph.Model
/-! Specification vocabulary for graph properties. -/
namespace Verif.Graph

/-- connected by edges regardless of their direction -/
inductive Connected (es : List Edge) : Nat → Nat → Prop where
  | refl (a : Nat) : Connected es a a
  | fwd {a b c : Nat} : Connected es a b → (b, c) ∈ es → Connected es a c
  | bwd {a b c : Nat} : Connected es a b → (c, b) ∈ es → Connected es a c

/-- a list of consecutive edges from `a` to `b` -/
inductive Chain : List Edge → Nat → Nat → Prop where
  | nil (a : Nat) : Chain [] a a
  | cons {a b c : Nat} {l : List Edge} : Chain l b c → Chain ((a, b) :: l) a c

/-- a closed chain of edges of the graph that leaves no block twice -/
def IsLoop (es l : List Edge) : Prop :=
  l ≠ [] ∧ (∃ a, Chain l a a) ∧ (∀ e ∈ l, e ∈ es) ∧ (l.map (·.1)).Nodup ∧ (l.map (·.2)).Nodup

/-- the graph has a directed cycle -/
def HasCycle (es : List Edge) : Prop := ∃ a l, l ≠ [] ∧ Chain l a a ∧ ∀ e ∈ l, e ∈ es

/-- `r` is a possible result of `weaklyConnectedComponents` (the sort of the code is not stable, so several are possible) -/
def IsResult (blocks : List Nat) (es : List Edge) (r : List (List Nat × List Edge)) : Prop :=
  ∃ comps ids order, labelAll blocks es = some (comps, ids) ∧ SortedOrder comps order ∧
    r = weaklyConnectedComponents blocks es order comps ids

end Verif.Graph
