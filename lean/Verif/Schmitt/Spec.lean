import Verif.Schmitt.Model

/-!
# What a Schmitt trigger is

A comparator with hysteresis: its output is high when the most recent sample outside the open band
between the two thresholds was at or above the upper one.  An edge is a change of the output.
-/

namespace Verif.Schmitt.Spec

/-- The output after the samples `xs` (oldest first): decided by the most recent sample that is
not strictly between the thresholds; low if there is none. -/
def high (lower upper : Int) (xs : List Int) : Bool :=
  match xs.reverse.find? (fun x => decide (upper ≤ x) || decide (x ≤ lower)) with
  | some x => decide (upper ≤ x)
  | none => false

/-- The edge at position `p`: the output changes with the sample at `p`. -/
def edgeAt (lower upper : Int) (xs : List Int) (p : Nat) : Option Edge :=
  match high lower upper (xs.take p), high lower upper (xs.take (p + 1)) with
  | false, true => some .rising
  | true, false => some .falling
  | _, _ => none

/-- The edges of a signal, one entry per sample. -/
def edges (lower upper : Int) (xs : List Int) : List (Option Edge) :=
  (List.range xs.length).map (edgeAt lower upper xs)

/-- Edges alternate, `up` says which comes next. -/
def Alternate : Bool → List Edge → Prop
  | _, [] => True
  | true, e :: es => e = .rising ∧ Alternate false es
  | false, e :: es => e = .falling ∧ Alternate true es

/-- The tags expected at position `p`: the input's tags there (if forwarding is on), then the tag
of the edge there, if there is an edge and its name is not empty.  The time of the sample at `p`
is `p + 1` periods after the start. -/
def tagsAtPos {τ : Type} (lower upper : Int) (forward : Bool) (nameR nameF : String)
    (start period : Nat) (tagsAt : Nat → List τ) (xs : List Int) (p : Nat) :
    List (Nat × OutTag τ) :=
  (if forward then (tagsAt p).map (fun t => (p, .fwd t)) else []) ++
  (match edgeAt lower upper xs p with
   | some .rising =>
     if nameR = "" then [] else [(p, .edge nameR ((start + (p + 1) * period) % 2 ^ 64) (0, 1))]
   | some .falling =>
     if nameF = "" then [] else [(p, .edge nameF ((start + (p + 1) * period) % 2 ^ 64) (0, 1))]
   | none => [])

/-- The forwarded ones among the published tags. -/
def forwarded {τ : Type} (ts : List (Nat × OutTag τ)) : List (Nat × τ) :=
  ts.filterMap fun
    | (p, .fwd t) => some (p, t)
    | (_, .edge _ _ _) => none

/-- The names and places of the edge tags. -/
def named {τ : Type} (ts : List (Nat × OutTag τ)) : List (Nat × String) :=
  ts.filterMap fun
    | (_, .fwd _) => none
    | (p, .edge n _ _) => some (p, n)

end Verif.Schmitt.Spec
