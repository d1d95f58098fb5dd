/-!
# The source of tags for tests

Models `TagSource` of `blocks/testing/include/gnuradio-4.0/testing/TagMonitors.hpp`. A map in a tag is a number. Counters are natural
numbers: the wrap of the 32-bit counter after 2^32 samples is left out, but for the difference in `nextTagIn`.
-/

namespace Verif.TagSrc

/-- `OwningTag` — TagMonitors.hpp:41-44 -/
structure Tg where
  index : Nat
  map : Nat
deriving DecidableEq, Repr

/-- The settings and the tags — TagMonitors.hpp:138-152 -/
structure Cfg where
  tags : List Tg
  rep : Bool
  max : Nat
  values : List Rat
  mark : Bool
deriving DecidableEq

/-- The counters — TagMonitors.hpp:153-155, as `start` sets them. -/
structure St where
  tagIndex : Nat := 0
  valueIndex : Nat := 0
  produced : Nat := 0
deriving DecidableEq, Repr

/-- `isInfinite` — TagMonitors.hpp:293 -/
def infinite (c : Cfg) : Bool := c.max == 0

/-- The index of the last tag. -/
def lastIndex (c : Cfg) : Nat := match c.tags.getLast? with
  | some t => t.index
  | none => 0

/-- `getNProducedSamplesRemainder` — TagMonitors.hpp:289-291 -/
def remainder (c : Cfg) (s : St) : Nat :=
  if c.rep && !c.tags.isEmpty && !infinite c then s.produced % (lastIndex c + 1) else s.produced

/-- The tags `generateTag` publishes — TagMonitors.hpp:259-279 -/
def published (c : Cfg) (s : St) : List Tg :=
  match c.tags.drop s.tagIndex with
  | [] => []
  | t :: ts => if t.index > remainder c s then [] else t :: ts.takeWhile (·.index == t.index)

/-- Its counter and whether the tags begin again — TagMonitors.hpp:276-284 -/
def advance (c : Cfg) (s : St) : Nat × Bool :=
  let k := s.tagIndex + (published c s).length
  if (published c s).length > 0 && c.rep && k == c.tags.length then (0, true) else (k, false)

/-- The difference of unsigned 32-bit numbers. -/
def sub32 (a b : Nat) : Nat := (a + 4294967296 - b % 4294967296) % 4294967296

/-- `nextTagIn` — TagMonitors.hpp:206-220 -/
def nextTagIn (c : Cfg) (s : St) (size : Nat) : Nat :=
  if infinite c && (advance c s).2 then 1
  else match c.tags[(advance c s).1]? with
    | some t => if t.index > remainder c s then min (t.index - remainder c s) (sub32 c.max s.produced) else 1
    | none => if infinite c then size else sub32 c.max s.produced

/-- The number of samples of a call — TagMonitors.hpp:222 -/
def nSamples (c : Cfg) (s : St) (size : Nat) : Nat :=
  if infinite c || decide (s.produced < c.max) then min (max 1 (nextTagIn c s size)) size else 0

/-- The samples from `values` and the index after — TagMonitors.hpp:224-231 -/
def cycle (vs : List Rat) : Nat → Nat → List (Option Rat) × Nat
  | 0, k => ([], k)
  | n + 1, k =>
    let k := if k == vs.length then 0 else k
    let r := cycle vs n (k + 1)
    (some (vs.getD k 0) :: r.1, r.2)

/-- The samples of a call — TagMonitors.hpp:224-240; `none` is a place of the buffer that is not written. -/
def samples (c : Cfg) (s : St) (n : Nat) : List (Option Rat) :=
  if !c.values.isEmpty then (cycle c.values n s.valueIndex).1
  else if c.mark then
    (List.range n).map fun i => if i = 0 then some (if (published c s).length > 0 then 1 else 0) else none
  else (List.range n).map fun (i : Nat) => some ((s.produced + i : Nat) : Rat)

/-- What a reader of the output sees: how many samples there are, each tag with the sample it is at, the samples, and the end. -/
structure Acc where
  st : St := {}
  pos : Nat := 0
  log : List (Nat × Tg) := []
  out : List (Option Rat) := []
  done : Bool := false
deriving DecidableEq

/-- One call of `processBulk` with room for `size` samples — TagMonitors.hpp:199-249 -/
def bulk (c : Cfg) (a : Acc) (size : Nat) : Acc :=
  if a.done then a
  else
    let n := nSamples c a.st size
    let p := if infinite c && (advance c a.st).2 then 0 else a.st.produced + n
    { st := ⟨(advance c a.st).1, if c.values.isEmpty then a.st.valueIndex else (cycle c.values n a.st.valueIndex).2, p⟩
      pos := a.pos + n
      log := a.log ++ (published c a.st).map fun t => (a.pos, t)
      out := a.out ++ samples c a.st n
      done := !infinite c && decide (p ≥ c.max) }

/-- One call of `processOne` — TagMonitors.hpp:172-197. -/
def one (c : Cfg) (a : Acc) : Acc :=
  if a.done then a
  else
    let p := a.st.produced + 1
    let done := !infinite c && decide (p ≥ c.max)
    let p := if infinite c && (advance c a.st).2 then 0 else p
    let v : Rat :=
      if !c.values.isEmpty then ((cycle c.values 1 a.st.valueIndex).1.headD none).getD 0
      else if c.mark then (if (published c a.st).length > 0 then 1 else 0) else p
    { st := ⟨(advance c a.st).1, if c.values.isEmpty then a.st.valueIndex else (cycle c.values 1 a.st.valueIndex).2, p⟩
      pos := a.pos + 1
      log := a.log ++ (published c a.st).map fun t => (a.pos, t)
      out := a.out ++ [some v]
      done := done }

end Verif.TagSrc
