import Verif.History.Model
import Mathlib.Algebra.BigOperators.Group.Finset.Basic
import Mathlib.Algebra.Ring.Basic
import Mathlib.Algebra.Ring.Int.Defs
/-!
# Model of the filters (blocks/filter/include/gnuradio-4.0/filter/time_domain_filter.hpp,
algorithm/include/gnuradio-4.0/algorithm/filter/FilterTool.hpp)

Numbers are the elements of a commutative ring (exact arithmetic); `std::transform_reduce` may add in any order. A read outside of the storage of
a history buffer sets the flag `oob` of the buffer (undefined behaviour).
-/
namespace Verif.Filter
open Verif.History

variable {α : Type} [CommRing α]

/-- `std::transform_reduce(c.begin(), c.end(), h.cbegin(), 0, plus, multiplies)`: `cbegin` brings the mirror up to date (HistoryBuffer.hpp:358-361),
then `c.length` elements are read from there, whatever the size of the history. -/
def dotHist (c : List α) (h : H α) : H α × α :=
  let h := h.sync
  let (xs, bad) := h.view h.wpos c.length
  ({ h with oob := h.oob || bad }, (List.zipWith (· * ·) c xs).sum)

/-- `HistoryBuffer<T>(n)` with `n > 0`; storage is zero-initialised -/
def fresh (n : Nat) : H α := ⟨⟨true, 0, bitCeil n - 1, n⟩, fun _ => 0, 0, 0, 0, false⟩

/-! ## fir_filter -/

/-- Members of `fir_filter` (time_domain_filter.hpp:29-36) -/
structure Fir (α : Type) where
  b : List α
  input : H α

/-- A new block (time_domain_filter.hpp:31, 35) -/
def Fir.init : Fir α := ⟨[1], fresh 32⟩

/-- The setting `b` changes: assignment, then `settingsChanged` (time_domain_filter.hpp:37-41) -/
def Fir.setB (f : Fir α) (b : List α) : Fir α :=
  if b.length > f.input.g.cap then { b := b, input := fresh (bitCeil b.length) } else { f with b := b }

/-- `processOne` (time_domain_filter.hpp:43-46) -/
def Fir.one (f : Fir α) (x : α) : Fir α × α :=
  let h := f.input.pushFront x
  let (h, y) := dotHist f.b h
  ({ f with input := h }, y)

/-- What happens to a block -/
inductive FirEvent (α : Type) where
  | sample (x : α)
  | setB (b : List α)

/-- A history of a block: the outputs in order -/
def Fir.run (f : Fir α) : List (FirEvent α) → Fir α × List α
  | [] => (f, [])
  | .sample x :: evs =>
    let (f, y) := f.one x
    let (f, ys) := f.run evs
    (f, y :: ys)
  | .setB b :: evs => (f.setB b).run evs

/-! ## The four forms -/

/-- `IIRForm` (time_domain_filter.hpp:49-54), `Form` (FilterTool.hpp:104-109) -/
inductive Form where | dfI | dfII | dfIT | dfIIT
  deriving DecidableEq

/-- Coefficients and histories: members of `iir_filter` (time_domain_filter.hpp:73-79) and of `Section` (FilterTool.hpp:185-189) -/
structure Iir (α : Type) where
  b : List α
  a : List α
  input : H α
  output : H α

/-- `a.cbegin() + 1` and `b.cbegin() + 1` of an empty vector is undefined behaviour: noted in the flag of the history -/
def tailOf (c : List α) (h : H α) : List α × H α := (c.tail, { h with oob := h.oob || c.isEmpty })

/-- Direct form I (time_domain_filter.hpp:90-97; FilterTool.hpp:122-129) -/
def Iir.dfI (f : Iir α) (x : α) : Iir α × α :=
  let input := f.input.pushFront x
  let (input, ff) := dotHist f.b input
  let (a', output) := tailOf f.a f.output
  let (output, fb) := dotHist a' output
  let y := ff - fb
  ({ f with input := input, output := output.pushFront y }, y)

/-- Direct form II (time_domain_filter.hpp:98-104). The section of the filter class skips the feedback if there is at most one coefficient
(FilterTool.hpp:130-140): `guarded`. -/
def Iir.dfII (guarded : Bool) (f : Iir α) (x : α) : Iir α × α :=
  if guarded && f.a.length ≤ 1 then
    let (input, y) := dotHist f.b (f.input.pushFront x)
    ({ f with input := input }, y)
  else
    let (a', input) := tailOf f.a f.input
    let (input, fb) := dotHist a' input
    let input := input.pushFront (x - fb)
    let (input, y) := dotHist f.b input
    ({ f with input := input }, y)

/-- Direct form I, transposed (time_domain_filter.hpp:105-111; FilterTool.hpp:141-146) -/
def Iir.dfIT (f : Iir α) (x : α) : Iir α × α :=
  let (a', output) := tailOf f.a f.output
  let (output, fb) := dotHist a' output
  let output := output.pushFront (x - fb)
  let (output, y) := dotHist f.b output
  ({ f with output := output }, y)

/-- Direct form II, transposed (time_domain_filter.hpp:112-119; FilterTool.hpp:147-155); `b[0]` of an empty vector is undefined behaviour, which
`tailOf` notes. -/
def Iir.dfIIT (f : Iir α) (x : α) : Iir α × α :=
  let (b', input) := tailOf f.b f.input
  let (input, ff) := dotHist b' input
  let (a', output) := tailOf f.a f.output
  let (output, fb) := dotHist a' output
  let y := f.b.headD 0 * x + ff - fb
  ({ f with input := input.pushFront x, output := output.pushFront y }, y)

/-- `processOne` of `iir_filter`, `computeFilter` of a section (`guarded`) -/
def Iir.one (guarded : Bool) (form : Form) (f : Iir α) (x : α) : Iir α × α :=
  match form with
  | .dfI => f.dfI x
  | .dfII => f.dfII guarded x
  | .dfIT => f.dfIT x
  | .dfIIT => f.dfIIT x

/-- The outputs for a sequence of inputs -/
def Iir.run (guarded : Bool) (form : Form) (f : Iir α) : List α → Iir α × List α
  | [] => (f, [])
  | x :: xs =>
    let (f, y) := f.one guarded form x
    let (f, ys) := f.run guarded form xs
    (f, y :: ys)

/-! ## iir_filter -/

/-- The settings `a` and `b` change: assignment, then `settingsChanged` (time_domain_filter.hpp:81-87) -/
def Iir.set (f : Iir α) (b a : List α) : Iir α :=
  let n := max a.length b.length
  if n ≥ f.input.g.cap then { b := b, a := a, input := fresh (bitCeil n), output := fresh (bitCeil n) } else { f with b := b, a := a }

/-- A new block whose coefficients are then set (time_domain_filter.hpp:73-79); with the default coefficients it passes on its input -/
def Iir.block (b a : List α) : Iir α := Iir.set ⟨[1], [1], fresh 32, fresh 32⟩ b a

/-! ## Filter -/

/-- The histories of a `Section`: of the sizes of `b` and `a`, or of a size fixed at compile time (FilterTool.hpp:187-203) -/
def history (bufferSize : Option Nat) (n : Nat) : H α :=
  match bufferSize with
  | none => fresh n
  | some N => H.mkFixed 0 N

/-- Input of `computeImpulseResponse` (FilterTool.hpp:163-168) -/
def impulse (n : Nat) : List α := if n = 0 then [] else 1 :: List.replicate (n - 1) 0

/-- Constructor of `Section` (FilterTool.hpp:191-203): histories, then the impulse response (computed with direct form II, the default of the function
template for floating-point numbers), then `reset`. `none`: the history buffer throws for capacity 0, in a `noexcept` constructor. The auto-correlation
is not modelled. -/
def mkSection (bufferSize : Option Nat) (b a : List α) : Option (Iir α) :=
  if bufferSize = none ∧ (b = [] ∨ a = []) then none
  else
    let s : Iir α := ⟨b, a, history bufferSize b.length, history bufferSize a.length⟩
    let s := (s.run true .dfII (impulse (a.length + b.length))).1
    some { s with input := s.input.reset 0, output := s.output.reset 0 }

/-- Constructor of `Filter` (FilterTool.hpp:231-237) -/
def mkFilter (bufferSize : Option Nat) : List (List α × List α) → Option (List (Iir α))
  | [] => some []
  | (b, a) :: cs =>
    match mkSection bufferSize b a, mkFilter bufferSize cs with
    | some s, some ss => some (s :: ss)
    | _, _ => none

/-- `Filter::processOne` (FilterTool.hpp:244-246): each section gets the output of the one before -/
def cascadeOne (form : Form) : List (Iir α) → α → List (Iir α) × α
  | [], x => ([], x)
  | s :: ss, x =>
    let (s, y) := s.one true form x
    let (ss, z) := cascadeOne form ss y
    (s :: ss, z)

/-- The outputs of a `Filter` for a sequence of inputs -/
def cascadeRun (form : Form) (ss : List (Iir α)) : List α → List (Iir α) × List α
  | [] => (ss, [])
  | x :: xs =>
    let (ss, y) := cascadeOne form ss x
    let (ss, ys) := cascadeRun form ss xs
    (ss, y :: ys)

/-! ## Decimator -/

/-- The loop of `processBulk` of `Decimator` from index `i` (time_domain_filter.hpp:231-238); `decim = 0` is a division by zero: `none` -/
def decimateFrom {β : Type} (decim i : Nat) : List β → Option (List β)
  | [] => some []
  | x :: xs =>
    if decim = 0 then none
    else if i % decim = 0 then (decimateFrom decim (i + 1) xs).map (x :: ·) else decimateFrom decim (i + 1) xs

/-- A run of `Decimator` over the inputs of its calls -/
def decimateCalls {β : Type} (decim : Nat) : List (List β) → Option (List β)
  | [] => some []
  | c :: cs =>
    match decimateFrom decim 0 c, decimateCalls decim cs with
    | some ys, some zs => some (ys ++ zs)
    | _, _ => none

/-- `BasicDecimatingFilter::processBulk` (time_domain_filter.hpp:179-194): every sample goes through the filter, every `decimate`-th result is kept -/
def decimatingCall (form : Form) (decim : Nat) (ss : List (Iir α)) (xs : List α) : Option (List (Iir α) × List α) :=
  let (ss, ys) := cascadeRun form ss xs
  (decimateFrom decim 0 ys).map (ss, ·)

/-- A run of `BasicDecimatingFilter` over the inputs of its calls -/
def decimatingRun (form : Form) (decim : Nat) (ss : List (Iir α)) : List (List α) → Option (List (Iir α) × List α)
  | [] => some (ss, [])
  | c :: cs =>
    match decimatingCall form decim ss c with
    | none => none
    | some (ss, ys) => (decimatingRun form decim ss cs).map (fun r => (r.1, ys ++ r.2))

end Verif.Filter
