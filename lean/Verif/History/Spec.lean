import Verif.History.Model
/-!
# Specification: a bounded list
-/
namespace Verif.History

/-- capacity and content. -/
structure S (α : Type) where
  dyn : Bool
  cap : Nat
  items : List α

/-- keep the last `c` elements. -/
def lastN {α : Type} (c : Nat) (l : List α) : List α := l.drop (l.length - c)

/-- the same calls on a bounded list. -/
def S.step {α : Type} (s : S α) : Op α → S α × Out α
  | .pushFront v => ({ s with items := (v :: s.items).take s.cap }, .done)
  | .pushFrontRange xs => ({ s with items := (xs.reverse ++ s.items).take s.cap }, .done)
  | .pushBack v => ({ s with items := lastN s.cap (s.items ++ [v]) }, .done)
  | .pushBackRange xs => ({ s with items := lastN s.cap (s.items ++ xs) }, .done)
  | .popFront => match s.items with | [] => (s, .thrown) | _ :: t => ({ s with items := t }, .done)
  | .popBack => match s.items with | [] => (s, .thrown) | _ :: _ => ({ s with items := s.items.dropLast }, .done)
  | .resize c => if s.dyn ∧ c ≠ 0 then ({ s with cap := c, items := s.items.take c }, .done) else (s, .thrown)
  | .reset _ => ({ s with items := [] }, .done)
  | .at i => match s.items[i]? with | none => (s, .thrown) | some v => (s, .value v)
  | .span i l => (s, .view ((s.items.drop i).take l))
  | .iter => (s, .view s.items)

/-- run a list of calls, collecting results. -/
def runS {α : Type} : List (Op α) → S α → S α × List (Out α)
  | [], s => (s, [])
  | o :: os, s => let (s', r) := s.step o; let (s'', rs) := runS os s'; (s'', r :: rs)

/-- run a list of calls on the implementation model. -/
def runH {α : Type} (dflt : α) : List (Op α) → H α → H α × List (Out α)
  | [], h => (h, [])
  | o :: os, h => let (h', r) := h.step dflt o; let (h'', rs) := runH dflt os h'; (h'', r :: rs)

/-- a span request starts inside the content. -/
def Op.spanOk {α : Type} (o : Op α) (size : Nat) : Prop := match o with | .span i _ => i ≤ size | _ => True

/-- a requested capacity fits 64 bits. -/
def Op.capOk {α : Type} (o : Op α) : Prop := match o with | .resize c => c < 2 ^ 64 | _ => True

/-- every `get_span(index, …)` in the history is called with `index ≤ size()` (and sizes fit 64 bits). -/
def SpansInRange {α : Type} : List (Op α) → S α → Prop
  | [], _ => True
  | o :: os, s => o.spanOk s.items.length ∧ SpansInRange os (s.step o).1

/-- capacities requested in the history stay below 2^64. -/
def SmallCaps {α : Type} (os : List (Op α)) : Prop := ∀ o ∈ os, o.capOk

end Verif.History
