/-!
# Savitzky-Golay filters

Model of `/repo/algorithm/include/gnuradio-4.0/algorithm/filter/SavitzkyGolay.hpp`.  Samples and coefficients
are exact rationals instead of `float`/`double`; index arithmetic is on unbounded integers (signal lengths are
below 2^62).  The pseudo-inverse (lines 118-146, computed by a numerical singular value decomposition) is not
modelled: a coefficient row is any list and the theorems about polynomials say which equations of the
pseudo-inverse they need.
-/

namespace Verif.Savgol

/-- `Alignment`, SavitzkyGolay.hpp:19-22. -/
inductive Align | centred | causal
  deriving DecidableEq, Repr

/-- `BoundaryPolicy`, SavitzkyGolay.hpp:24-29. -/
inductive Policy | dflt | hold | reflect | replicate
  deriving DecidableEq, Repr

/-- `Config`, SavitzkyGolay.hpp:31-39. -/
structure Config where
  derivOrder : Nat := 0
  delta : Rat := 1
  align : Align := .centred
  policy : Policy := .dflt
  defaultValue : Rat := 0
  deriving DecidableEq, Repr

/-- `detail::factorial`, SavitzkyGolay.hpp:43-49 (no wrap-around: the order is at most 20). The loop multiplies
`2 … n`; written as recursion on `n`. -/
def factorial : Nat → Nat
  | 0 => 1
  | n + 1 => if n + 1 < 2 then 1 else factorial n * (n + 1)

/-- `detail::reflectIndex`, SavitzkyGolay.hpp:51-64.  After line 55-57 the index is not negative, so the
truncated remainder is `Int.tmod`. -/
def reflectIndex (i : Int) (N : Nat) : Nat :=
  if N = 0 then 0 else
    let i := if i < 0 then -i - 1 else i
    let period : Int := 2 * N
    let i := i.tmod period
    let i := if i ≥ N then period - i - 1 else i
    i.toNat

/-- `detail::replicateIndex`, SavitzkyGolay.hpp:66-77. -/
def replicateIndex (i : Int) (N : Nat) : Nat :=
  if N = 0 then 0
  else if i < 0 then 0
  else if i ≥ N then N - 1
  else i.toNat

/-- `detail::boundaryIndex`, SavitzkyGolay.hpp:79-86. -/
def boundaryIndex (i : Int) (N : Nat) (p : Policy) : Nat :=
  match p with
  | .reflect => reflectIndex i N
  | .replicate => replicateIndex i N
  | _ => replicateIndex i N

/-- Position of the current sample in the window, SavitzkyGolay.hpp:105 and 164. -/
def shift (a : Align) (W : Nat) : Int :=
  match a with
  | .centred => ((W - 1) / 2 : Nat)
  | .causal => (W - 1 : Nat)

/-- `std::transform_reduce` of two ranges with `+` and `*`, starting from 0 (exact arithmetic: any order). -/
def dot : List Rat → List Rat → Rat
  | c :: cs, x :: xs => c * x + dot cs xs
  | _, _ => 0

/-- `apply`, SavitzkyGolay.hpp:156-172: every output sample is the scalar product of the coefficients with the
window of the input, positions outside the input being mapped back by the boundary policy.  `none`: nothing is
written (line 160-162). -/
def apply (inp : List Rat) (outSize : Nat) (coeffs : List Rat) (cfg : Config) : Option (List Rat) :=
  let N := inp.length
  let W := coeffs.length
  if N = 0 || W = 0 || outSize < N then none
  else
    let D := shift cfg.align W
    some ((List.range N).map fun (n : Nat) =>
      dot coeffs ((List.range W).map fun (k : Nat) => inp.getD (boundaryIndex ((n : Int) + k - D) N cfg.policy) 0))

/-- `applyZeroPhase`, SavitzkyGolay.hpp:177-195. -/
def applyZeroPhase (inp : List Rat) (outSize : Nat) (coeffs : List Rat) (cfg : Config) : Option (List Rat) :=
  let N := inp.length
  if N = 0 || coeffs.length = 0 || outSize < N then none
  else
    let cc := { cfg with align := .centred }
    match apply inp N coeffs cc with
    | none => none
    | some t =>
      match apply t.reverse t.length coeffs cc with
      | none => none
      | some t2 => some t2.reverse

/-- State of `SavitzkyGolayFilter`, SavitzkyGolay.hpp:204-210.  The history (`HistoryBuffer` filled with
`push_back` only, so index 0 is the oldest sample: see `Verif.History`) is the list of its elements. -/
structure Filter where
  W : Nat
  cfg : Config
  coeffs : List Rat
  hist : List Rat
  initialized : Bool
  deriving DecidableEq, Repr

/-- `HistoryBuffer::push_back`, HistoryBuffer.hpp:164-181: appends, dropping the oldest element when full. -/
def push (W : Nat) (h : List Rat) (x : Rat) : List Rat :=
  (if h.length < W then h else h.drop 1) ++ [x]

/-- `fillHistory`, SavitzkyGolay.hpp:213-217. -/
def fill (W : Nat) : Nat → List Rat → Rat → List Rat
  | 0, h, _ => h
  | n + 1, h, x => fill W n (push W h x) x

/-- `reset`, SavitzkyGolay.hpp:235-241. -/
def Filter.reset (f : Filter) : Filter :=
  let h : List Rat := []
  { f with
    initialized := decide (f.cfg.policy = .dflt)
    hist := if f.cfg.policy = .dflt then fill f.W f.W h f.cfg.defaultValue else h }

/-- The constructor, SavitzkyGolay.hpp:220-224, for a given coefficient row. -/
def Filter.mk' (windowSize : Nat) (coeffs : List Rat) (cfg : Config) : Filter :=
  let W := max windowSize 1
  { W, cfg, coeffs
    hist := if cfg.policy = .dflt then fill W W [] cfg.defaultValue else []
    initialized := decide (cfg.policy = .dflt) }

/-- `processOne`, SavitzkyGolay.hpp:226-233. -/
def Filter.processOne (f : Filter) (x : Rat) : Filter × Rat :=
  let h := if f.initialized then f.hist else fill f.W f.W f.hist x
  let h := push f.W h x
  ({ f with hist := h, initialized := true }, dot h f.coeffs)

/-- Calling `processOne` for every sample in turn. -/
def Filter.run (f : Filter) : List Rat → List Rat
  | [] => []
  | x :: xs => (f.processOne x).2 :: (f.processOne x).1.run xs

/-- `delay`, SavitzkyGolay.hpp:251. -/
def Filter.delay (f : Filter) : Nat :=
  match f.cfg.align with
  | .centred => (f.W - 1) / 2
  | .causal => 0

/-- `setParameters` and `setConfig`, SavitzkyGolay.hpp:253-266, for a given coefficient row. -/
def Filter.setParameters (f : Filter) (windowSize : Nat) (coeffs : List Rat) (cfg : Config) : Filter :=
  ({ f with W := max windowSize 1, cfg, coeffs } : Filter).reset

/-- The scale factor of line 147: `d! / delta^d`, with the derivative order limited to the polynomial order
(line 97) and the spacing to the machine epsilon `eps` (line 98). -/
def scale (cfg : Config) (polyOrder : Nat) (eps : Rat) : Rat :=
  let d := min cfg.derivOrder polyOrder
  let delta := max cfg.delta eps
  (factorial d : Rat) / delta ^ d

/-- Row `i` of the Vandermonde matrix, SavitzkyGolay.hpp:107-114: the powers of the offset of sample `i` from
the current sample. -/
def powers (t : Rat) : Nat → Rat → List Rat
  | 0, _ => []
  | n + 1, power => power :: powers t n (power * t)

def vander (a : Align) (W p : Nat) : List (List Rat) :=
  (List.range W).map fun (i : Nat) => powers (((i : Int) - shift a W : Int) : Rat) (p + 1) 1

end Verif.Savgol
