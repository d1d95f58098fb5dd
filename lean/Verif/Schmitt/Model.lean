/-!
# Schmitt trigger and the trigger block

Models `algorithm/include/gnuradio-4.0/algorithm/SchmittTrigger.hpp` (the detector) and
`blocks/basic/include/gnuradio-4.0/basic/Trigger.hpp` (the block that copies its input and
publishes a tag at every detected edge).

Simplifications.  Samples, offset and threshold are integers (any finite set of floating point
samples can be scaled to integers; rounding of the floating point expressions for the crossing is
not modelled: those are exact fractions here; NaN is not modelled).  Uncertainties of
`UncertainValue` samples are not modelled.  The Savitzky-Golay localisation is a parameter.
Casts that the language leaves undefined are the outcome `none`.
-/

namespace Verif.Schmitt

/-- SchmittTrigger.hpp:24 `EdgeDetection` without `NONE`. -/
inductive Edge where
  | rising
  | falling
  deriving DecidableEq, Repr

/-- SchmittTrigger.hpp:45-48, the four `value_t` members (the last two are computed). -/
structure Cfg where
  threshold : Int
  offset : Int
  deriving DecidableEq, Repr

/-- SchmittTrigger.hpp:67, 78-88 `_upperThreshold`. -/
def Cfg.upper (c : Cfg) : Int := c.offset + c.threshold

/-- SchmittTrigger.hpp:67, 78-88 `_lowerThreshold`. -/
def Cfg.lower (c : Cfg) : Int := c.offset - c.threshold

/-- SchmittTrigger.hpp:50-60, the state of the detector.  `hist` is the history buffer, newest
sample first; `loc` is `lastEdgeIdx + lastEdgeOffset` as a fraction `(numerator, denominator)`
at the moment an edge is reported. -/
structure Trig where
  last : Bool
  hist : List Int
  acc : Nat
  edge : Option Edge
  idx : Int
  loc : Int × Int
  deriving DecidableEq, Repr

/-- Trigger.hpp:45 `N_HISTORY`, the capacity of the history buffer. -/
def nHistory : Nat := 32

/-- SchmittTrigger.hpp:73-75 and 90-101: the state after construction and after `reset()`: the
history is filled with zeros, `lastEdgeIdx` is 1. -/
def Trig.init : Trig :=
  { last := false, hist := List.replicate nHistory 0, acc := 0, edge := none, idx := 1, loc := (0, 1) }

/-- How an edge is placed between samples: history (newest first) and number of accumulated
samples to the place relative to the newest sample, as a fraction with positive denominator;
`none` when the computation is undefined. -/
abbrev Locator := List Int → Nat → Option (Int × Int)

/-- SchmittTrigger.hpp:17-22 `InterpolationMethod`.  `LINEAR_INTERPOLATION` and
`POLYNOMIAL_INTERPOLATION` share their detection (lines 166-222 and 224-288) and differ only in
the locator. -/
inductive Method where
  | plain
  | basic
  | zone (locate : Locator)

/-- `std::round` of `n / d` for `d > 0`: to the nearest integer, halves away from zero. -/
def roundDiv (n d : Int) : Int :=
  if 0 ≤ n then (2 * n + d) / (2 * d) else - ((2 * (-n) + d) / (2 * d))

/-- `static_cast<std::int32_t>` of an integral value: undefined out of range. -/
def toInt32 (n : Int) : Option Int :=
  if -2147483648 ≤ n ∧ n ≤ 2147483647 then some n else none

/-- A fraction with its sign moved to the numerator. -/
def frac (n d : Int) : Int × Int := if 0 < d then (n, d) else (-n, -d)

/-- SchmittTrigger.hpp:133-142 `computeEdgePosition`: `-1 + (offset - y1) / (y2 - y1)`, which is
`(offset - y2) / (y2 - y1)`. -/
def basicPos (offset y1 y2 : Int) : Int × Int :=
  if y1 = y2 then (0, 1) else frac (offset - y2) (y2 - y1)

/-- SchmittTrigger.hpp:120 and 162 `lastEdgeIdx > 0 ? 1 : lastEdgeIdx - 1` on `std::int32_t`:
undefined when the subtraction overflows. -/
def nextIdx (i : Int) : Option Int := if 0 < i then some 1 else toInt32 (i - 1)

/-- The sums of SchmittTrigger.hpp:305-312: `Σ yᵢ` and `Σ xᵢ yᵢ` with `xᵢ = n - 1 - i`, `ys` newest first. -/
def sums (ys : List Int) : Int × Int :=
  ys.foldr (fun y (p : Int × Int × Int) => (p.1 + y, p.2.1 + p.2.2 * y, p.2.2 + 1)) (0, 0, 0) |>
    fun p => (p.1, p.2.1)

/-- SchmittTrigger.hpp:193-201 and 294-324: the crossing of the regression line through the last
`max(accumulated, 2)` samples with the offset, relative to the newest sample.  With slope zero
the division gives an infinity or NaN whose cast to `std::int32_t` is undefined. -/
def regress (offset : Int) : Locator := fun hist acc =>
  let n := min (max acc 2) hist.length
  let ys := hist.take n
  let (sy, sxy) := sums ys
  let n : Int := n
  let sx := n * (n - 1) / 2
  let sxx := (n - 1) * n * (2 * n - 1) / 6
  let a := n * sxy - sx * sy
  let b := n * sxx - sx * sx
  if a = 0 then none
  else some (frac ((offset * n - sy) * b + sx * a - (n - 1) * n * a) (n * a))

/-- SchmittTrigger.hpp:106-122, without interpolation. -/
def stepPlain (c : Cfg) (t : Trig) (x : Int) : Option (Option Edge × Trig) :=
  if t.last = false ∧ c.upper ≤ x then
    some (some .rising, { t with idx := 0, edge := some .rising, last := true, loc := (0, 1) })
  else if t.last = true ∧ x ≤ c.lower then
    some (some .falling, { t with idx := 0, edge := some .falling, last := false, loc := (0, 1) })
  else (nextIdx t.idx).map fun i => (none, { t with idx := i })

/-- SchmittTrigger.hpp:124-164, interpolation between the last two samples. -/
def stepBasic (c : Cfg) (t : Trig) (x : Int) : Option (Option Edge × Trig) :=
  let hist := (x :: t.hist).take nHistory
  let p := basicPos c.offset (t.hist.headD 0) x
  if t.last = false ∧ c.upper ≤ x then
    (toInt32 (roundDiv p.1 p.2)).map fun i =>
      (some .rising, { t with hist := hist, idx := i, edge := some .rising, last := true, loc := p })
  else if t.last = true ∧ x ≤ c.lower then
    (toInt32 (roundDiv p.1 p.2)).map fun i =>
      (some .falling, { t with hist := hist, idx := i, edge := some .falling, last := false, loc := p })
  else (nextIdx t.idx).map fun i => (none, { t with hist := hist, idx := i })

/-- SchmittTrigger.hpp:173-187 (and 232-246): the number of accumulated samples after `x`. -/
def zoneAcc (c : Cfg) (t : Trig) (x : Int) : Nat :=
  let prev := t.hist.headD 0
  if 0 < t.acc then t.acc + 1
  else if t.last = false ∧ prev ≤ c.lower ∧ c.lower < x then 1
  else if t.last = true ∧ c.upper ≤ prev ∧ x < c.upper then 1
  else 0

/-- SchmittTrigger.hpp:166-222 (and 224-288, with another locator). -/
def stepZone (locate : Locator) (c : Cfg) (t : Trig) (x : Int) : Option (Option Edge × Trig) :=
  let hist := (x :: t.hist).take nHistory
  let acc := zoneAcc c t x
  if acc = 0 then some (none, { t with hist := hist, acc := 0 })
  else if (t.last = false ∧ c.upper ≤ x) ∨ (t.last = true ∧ x ≤ c.lower) then
    match locate hist acc with
    | none => none
    | some p => (toInt32 (roundDiv p.1 p.2)).map fun i =>
      let e := if t.last = false ∧ c.upper ≤ x then Edge.rising else Edge.falling
      (some e, { last := !t.last, hist := hist, acc := 0, edge := some e, idx := i, loc := p })
  else if (t.last = false ∧ x < c.lower) ∨ (t.last = true ∧ c.upper < x) then
    some (none, { t with hist := hist, acc := 0 })
  else some (none, { t with hist := hist, acc := acc })

/-- SchmittTrigger.hpp:103-292 `processOne`: the reported edge and the new state, `none` when the
computation is undefined. -/
def step (m : Method) (c : Cfg) (t : Trig) (x : Int) : Option (Option Edge × Trig) :=
  match m with
  | .plain => stepPlain c t x
  | .basic => stepBasic c t x
  | .zone l => stepZone l c t x

/-- `processOne` on one sample after the other. -/
def runTrig (m : Method) (c : Cfg) : Trig → List Int → Option (List (Option Edge) × Trig)
  | t, [] => some ([], t)
  | t, x :: xs =>
    match step m c t x with
    | none => none
    | some (e, t') => (runTrig m c t' xs).map fun r => (e :: r.1, r.2)

/-- `_now` and `_period` are `std::uint64_t`. -/
def two64 : Nat := 18446744073709551616

/-- A published tag: a forwarded one, or the tag of an edge with its name, time and offset (the
offset as a fraction of samples times the period). -/
inductive OutTag (τ : Type) where
  | fwd (t : τ)
  | edge (name : String) (time : Nat) (offset : Int × Int)
  deriving DecidableEq, Repr

/-- Trigger.hpp:50-65, the settings the processing reads. -/
structure Block where
  cfg : Cfg
  method : Method
  forward : Bool
  nameR : String
  nameF : String
  period : Nat

/-- The state of the block and of its two ports: samples consumed, samples and tags published
(with their absolute positions). -/
structure St (τ : Type) where
  trig : Trig
  now : Nat
  pos : Nat
  out : List Int
  tags : List (Nat × OutTag τ)

/-- Trigger.hpp:143-153: an edge is published when its place lies inside the samples of this call
and its name is not empty. -/
def hit (b : Block) (n i : Nat) (e : Option Edge) (t : Trig) : Option (String × Nat) :=
  match e with
  | none => none
  | some k =>
    let p := (i : Int) + t.idx
    if 0 ≤ p ∧ p < n then
      let name := match k with | .rising => b.nameR | .falling => b.nameF
      if name = "" then none else some (name, p.toNat)
    else none

/-- Trigger.hpp:140-155, the loop over the samples of one call; stops at the first published
edge. -/
def scan (b : Block) (n : Nat) : Nat → List Int → Trig → Nat →
    Option (Trig × Nat × Option (String × Nat))
  | _, [], t, now => some (t, now, none)
  | i, x :: xs, t, now =>
    match step b.method b.cfg t x with
    | none => none
    | some (e, t') =>
      let now' := (now + b.period) % two64
      match hit b n i e t' with
      | some h => some (t', now', some h)
      | none => scan b n (i + 1) xs t' now'

/-- Trigger.hpp:121-126: `_now - static_cast<uint64_t>(relOffset)`.  The cast of a floating point
value at or below -1 (or too large) is undefined. -/
def edgeTime (now period : Nat) (loc : Int × Int) : Option Nat :=
  if loc.1 * period ≤ - loc.2 ∨ (two64 : Int) * loc.2 ≤ loc.1 * period then none
  else some ((now + (two64 - (loc.1 * period / loc.2).toNat)) % two64)

/-- Trigger.hpp:104-116 `forwardTags`: the tags at the relative positions `0 .. maxRel`. -/
def forwardTags {τ : Type} (b : Block) (tagsAt : Nat → List τ) (pos maxRel : Nat) :
    List (Nat × OutTag τ) :=
  if b.forward then
    (List.range (maxRel + 1)).flatMap fun r => (tagsAt (pos + r)).map fun t => (pos + r, .fwd t)
  else []

/-- What one call finds: samples readable, room for output, whether an end-of-stream tag is in
sight. -/
structure Call where
  avail : Nat
  room : Nat
  eos : Bool
  deriving DecidableEq, Repr

/-- Trigger.hpp:92-102: the number of samples one call works on. -/
def nProcess (left : Nat) (c : Call) : Nat :=
  let avail := min c.avail left
  if avail < nHistory ∧ c.eos = false then 0
  else min (if c.eos then avail else avail - nHistory) c.room

/-- Trigger.hpp:91-163 `processBulk`. -/
def call {τ : Type} (b : Block) (xs : List Int) (tagsAt : Nat → List τ) (s : St τ) (c : Call) :
    Option (St τ) :=
  let n := nProcess (xs.length - s.pos) c
  if n = 0 then some s
  else
    let span := (xs.drop s.pos).take n
    match scan b n 0 span s.trig s.now with
    | none => none
    | some (t, now, none) =>
      some { trig := t, now := now, pos := s.pos + n, out := s.out ++ span,
             tags := s.tags ++ forwardTags b tagsAt s.pos (n - 1) }
    | some (t, now, some (name, p)) =>
      match edgeTime now b.period t.loc with
      | none => none
      | some time =>
        some { trig := t, now := now, pos := s.pos + (p + 1),
               out := s.out ++ (xs.drop s.pos).take (p + 1),
               tags := s.tags ++ (forwardTags b tagsAt s.pos p ++
                 [(s.pos + p, .edge name time (t.loc.1 * b.period, t.loc.2))]) }

/-- Any sequence of calls. -/
def run {τ : Type} (b : Block) (xs : List Int) (tagsAt : Nat → List τ) : St τ → List Call →
    Option (St τ)
  | s, [] => some s
  | s, c :: cs =>
    match call b xs tagsAt s c with
    | none => none
    | some s' => run b xs tagsAt s' cs

/-- Trigger.hpp:83-89 `reset()`, called by `start()`: `now` is the clock. -/
def St.start {τ : Type} (now : Nat) : St τ :=
  { trig := Trig.init, now := now, pos := 0, out := [], tags := [] }

/-- Trigger.hpp:68-81: what the block does with its settings: `staged` are the settings the user
gave (only these are staged when the block is initialised, Settings.cpp:143-150). -/
structure User where
  offset : Option Int
  threshold : Option Int
  deriving DecidableEq, Repr

/-- Trigger.hpp:50-51, 64 and 76-80: the thresholds of a block.  The member is constructed as
`_trigger{0, 1}` where the constructor's parameters are `(threshold, offset)`; the thresholds are
set from the settings (defaults: offset 0, threshold 1) only if one of them was given. -/
def User.cfg (u : User) : Cfg :=
  if u.offset.isSome ∨ u.threshold.isSome then
    { threshold := u.threshold.getD 1, offset := u.offset.getD 0 }
  else { threshold := 0, offset := 1 }

/-- Trigger.hpp:69-71: `_period = static_cast<std::uint64_t>(1e6f / sample_rate)` for an integral
sample rate. -/
def periodOf (rate : Nat) : Nat := 1000000 / rate

end Verif.Schmitt
