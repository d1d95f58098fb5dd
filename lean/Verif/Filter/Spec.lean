import Verif.Filter.Model
/-!
# Specification of the filters (C72)
-/
namespace Verif.Filter

variable {α : Type} [CommRing α]

/-- The value `k` samples before the one number `n`; before the first one the signal is 0. -/
def past (l : List α) (n k : Nat) : α := if k ≤ n then l.getD (n - k) 0 else 0

/-- The difference equation: `y[n] = Σ b[k] x[n-k] - Σ a[k] y[n-k]`, where the second sum starts at 1. -/
structure Solves (b a xs ys : List α) : Prop where
  length : ys.length = xs.length
  eq : ∀ n < xs.length, ys.getD n 0 =
    ∑ k ∈ Finset.range b.length, b.getD k 0 * past xs n k - ∑ k ∈ Finset.range (a.length - 1), a.getD (k + 1) 0 * past ys n (k + 1)

/-- A chain of filters: each one has the output of the one before as its input. -/
inductive SolvesAll : List (List α × List α) → List α → List α → Prop
  | nil {xs} : SolvesAll [] xs xs
  | cons {b a cs xs ys zs} : Solves b a xs ys → SolvesAll cs ys zs → SolvesAll ((b, a) :: cs) xs zs

/-- The inputs in a history of an FIR block -/
def samples : List (FirEvent α) → List α
  | [] => []
  | .sample x :: evs => x :: samples evs
  | .setB _ :: evs => samples evs

/-- What an FIR block with given coefficients should return in a history, when `old` are the inputs so far: with the coefficients at that time
over all inputs. -/
def firSpec (b old : List α) : List (FirEvent α) → List α
  | [] => []
  | .sample x :: evs => (∑ k ∈ Finset.range b.length, b.getD k 0 * past (old ++ [x]) old.length k) :: firSpec b (old ++ [x]) evs
  | .setB b :: evs => firSpec b old evs

/-- All settings in a history have at most `n` coefficients. -/
def Taps (n : Nat) (evs : List (FirEvent α)) : Prop := ∀ b, FirEvent.setB b ∈ evs → b.length ≤ n

/-- Number of values which the history of a section can hold, if it was made for `n` coefficients: the next power of two, or the fixed size -/
def storage (bufferSize : Option Nat) (n : Nat) : Nat :=
  match bufferSize with
  | none => History.bitCeil n
  | some N => N

/-- The histories of a section are long enough for its coefficients: those of the denominator in the history made for the numerator and, in the
transposed direct form I, the other way round. -/
structure Fits (form : Form) (bufferSize : Option Nat) (b a : List α) : Prop where
  hb : b ≠ []
  ha : a ≠ []
  denominator : a.length ≤ storage bufferSize b.length + 1
  numerator : form = .dfIT → b.length ≤ storage bufferSize a.length
  fixed : ∀ N, bufferSize = some N → 0 < N ∧ b.length ≤ N

/-- Every `d`-th value, from the first one on -/
def EveryNth {β : Type} (d : Nat) (xs ys : List β) : Prop :=
  ys.length = (xs.length + d - 1) / d ∧ ∀ j < ys.length, ys[j]? = xs[j * d]?

end Verif.Filter
