/-!
Model of the block that routes inputs to outputs (blocks/basic/include/gnuradio-4.0/basic/Selector.hpp).

Left out: tags refused because the tag buffer of an output is full or the output is not connected, the check of the order of tags in
debug builds, the limits of the settings `n_inputs` and `n_outputs`, the end of the streams.
-/
namespace Verif.Selector

/-- A `std::map` from indices to vectors of indices, in the order of the keys (Selector.hpp:97-98). -/
abbrev Map := List (Nat × List Nat)

/-- Selector.hpp:124-125 `map[k].push_back(v)`. -/
def Map.push (k v : Nat) : Map → Map
  | [] => [(k, [v])]
  | (k', vs) :: m =>
    if k < k' then (k, [v]) :: (k', vs) :: m
    else if k = k' then (k', vs ++ [v]) :: m
    else (k', vs) :: Map.push k v m

/-- Settings and state of the block (Selector.hpp:88-98); the selected source is set anew in every call that uses it. -/
structure Cfg where
  nIn : Nat
  nOut : Nat
  back : Bool
  sync : Bool
  inOut : Map
  outIn : Map
deriving DecidableEq, Repr

/-- What `settingsChanged` throws (Selector.hpp:116, 128, 132, 135). -/
inductive Refusal where
  | sizes
  | duplicate
  | input
  | output
deriving DecidableEq, Repr

/-- Selector.hpp:119-137: the loop over the pairs; `seen` are the pairs taken so far. -/
def fill (c : Cfg) (seen : List (Nat × Nat)) : List (Nat × Nat) → Cfg × Option Refusal
  | [] => (c, none)
  | p :: ps =>
    let c' := { c with inOut := c.inOut.push p.1 p.2, outIn := c.outIn.push p.2 p.1 }
    if p ∈ seen then (c', some .duplicate)
    else if p.1 ≥ c.nIn then (c', some .input)
    else if p.2 ≥ c.nOut then (c', some .output)
    else fill c' (p :: seen) ps

/-- Selector.hpp:110-138 for new maps; the assertion is off. -/
def remap (c : Cfg) (mapIn mapOut : List Nat) : Cfg × Option Refusal :=
  let c' := { c with inOut := [], outIn := [] }
  if mapIn.length ≠ mapOut.length then (c', some .sizes)
  else fill c' [] (mapIn.zip mapOut)

/-- Selector.hpp:103-109 for new numbers of ports. -/
def resize (c : Cfg) (nIn nOut : Nat) : Cfg := { c with nIn := nIn, nOut := nOut }

/-- A tag: the index of its sample in the stream and its map. -/
structure Tag where
  index : Nat
  val : Nat
deriving DecidableEq, Repr

/-- What `processBulk` sees of an input (Port.hpp:596-604): the samples available, the index of the first in the stream and the tags
not yet consumed on samples up to the last available. -/
structure In (α : Type) where
  samples : List α
  start : Nat
  tags : List Tag

/-- A tag published on an output; the index is counted from the first sample of the call or, later, of the stream. Negative indices stand for
those that wrap around. -/
structure OTag where
  index : Int
  val : Nat
deriving DecidableEq, Repr

/-- What was written to an output in a call: samples and tags. -/
structure Out (α : Type) where
  samples : List α
  tags : List OTag
deriving DecidableEq, Repr

/-- Port.hpp:654, 671 and Selector.hpp:214: index of a tag counted from the first sample available. -/
def relIndex {α} (i : In α) (t : Tag) : Int := (t.index : Int) - i.start

/-- Selector.hpp:156-173 `copyToOutput`. The offset is the number of samples written so far: where the code passes no output, nothing was
written before. `none` if samples are read or written that are not there. -/
def copyTo {α} (n : Nat) (i : In α) (room : Nat) (o : Out α) : Option (Out α) :=
  if n ≤ i.samples.length ∧ o.samples.length + n ≤ room then
    some ⟨o.samples ++ i.samples.take n,
      o.tags ++ (i.tags.filter fun t => decide (relIndex i t < n)).map fun t => ⟨relIndex i t + o.samples.length, t.val⟩⟩
  else none

/-- The number of samples to consume of every input; `none` is the largest `size_t` (Selector.hpp:175). -/
abbrev Counts := List (Option Nat)

/-- `std::min` with the largest number. -/
def minC : Option Nat → Option Nat → Option Nat
  | none, b => b
  | a, none => a
  | some a, some b => some (min a b)

/-- `std::ranges::min` of the values at the indices. -/
def minAt (f : Nat → Option Nat) (is : List Nat) : Option Nat := is.foldl (fun m i => minC m (f i)) none

/-- The number at an index. -/
def Counts.at (c : Counts) (i : Nat) : Option Nat := (c[i]?).getD none

/-- Selector.hpp:178-182: the number of samples the inputs of an output allow. -/
def allowed {α} (sel : Option Nat) (ins : List (In α)) (rooms : List Nat) (mon : Nat) (out : Nat) (is : List Nat) : Option Nat :=
  let n := minAt (fun i => (ins[i]?).map (·.samples.length)) is
  let n := minC n (some ((rooms[out]?).getD 0 / is.length))
  if is.any fun i => decide (sel = some i) then minC n (some mon) else n

/-- Selector.hpp:183-185. -/
def lower (n : Option Nat) (is : List Nat) (c : Counts) : Counts :=
  is.foldl (fun c i => c.set i (minC (c.at i) n)) c

/-- Selector.hpp:177-186. -/
def firstCounts {α} (m : Map) (sel : Option Nat) (ins : List (In α)) (rooms : List Nat) (mon : Nat) : Counts :=
  m.foldl (fun c e => lower (allowed sel ins rooms mon e.1 e.2) e.2 c) (ins.map fun _ => none)

/-- Selector.hpp:195 `nSamplesToConsume[inIndex] > currentMin`. -/
def gtC : Option Nat → Option Nat → Bool
  | _, none => false
  | none, some _ => true
  | some a, some b => decide (a > b)

/-- Selector.hpp:193-199 for one output. -/
def passOne (is : List Nat) (c : Counts) : Counts × Bool :=
  let cur := minAt c.at is
  is.foldl (fun s i => (s.1.set i cur, s.2 || gtC (s.1.at i) cur)) (c, false)

/-- Selector.hpp:192-200. -/
def pass (m : Map) (c : Counts) : Counts × Bool :=
  m.foldl (fun s e => let r := passOne e.2 s.1; (r.1, s.2 || r.2)) (c, false)

/-- Selector.hpp:190-201, at most `fuel` rounds; `none` if they are not enough. -/
def settle (m : Map) : Nat → Counts → Option Counts
  | 0, _ => none
  | fuel + 1, c =>
    let r := pass m c
    if r.2 then settle m fuel r.1 else some r.1

/-- Enough rounds for the loop to end: the counts add up to less in every round. -/
def rounds (c : Counts) : Nat := (c.map fun x => x.getD 0).sum + c.length + 1

/-- Selector.hpp:210-221: the samples and tags of an output with several inputs, `n` samples of each. -/
def weave {α} (n : Nat) (xs : List (In α)) : Out α :=
  (List.range n).foldl (fun o s => xs.foldl (fun o i =>
    ⟨o.samples ++ i.samples[s]?.toList,
      o.tags ++ (i.tags.filter fun t => decide (relIndex i t = s)).map fun t => ⟨o.samples.length, t.val⟩⟩) o) ⟨[], []⟩

/-- Selector.hpp:203-224 for one output. The number of samples of an output with several inputs is the one of input 0. -/
def writeOne {α} (ins : List (In α)) (rooms : List Nat) (c : Counts) (e : Nat × List Nat) (outs : List (Out α)) : Option (List (Out α)) :=
  match outs[e.1]?, rooms[e.1]? with
  | some o, some room =>
    match e.2 with
    | [] => some outs
    | [i] =>
      match ins[i]?, c.at i with
      | some x, some n => (copyTo n x room o).map fun o' => outs.set e.1 o'
      | _, _ => none
    | is =>
      match c.at 0 with
      | none => none
      | some n =>
        let xs := is.filterMap fun i => ins[i]?
        if (∀ x ∈ xs, n ≤ x.samples.length) ∧ n * is.length ≤ room then some (outs.set e.1 (weave n xs)) else none
  | _, _ => none

/-- Selector.hpp:176-224: the branch that keeps combined inputs in step. -/
def syncBranch {α} (c : Cfg) (sel : Option Nat) (ins : List (In α)) (rooms : List Nat) (mon : Nat) : Option (List (Out α) × Counts) :=
  let first := firstCounts c.outIn sel ins rooms mon
  match settle c.outIn (rounds first) first with
  | none => none
  | some n =>
    (c.outIn.foldl (fun s e => s.bind (writeOne ins rooms n e)) (some (rooms.map fun _ => ⟨[], []⟩))).map fun outs => (outs, n)

/-- Selector.hpp:228-230: the number of samples to copy of an input. -/
def copyCount {α} (sel : Option Nat) (i : Nat) (x : In α) (os : List Nat) (rooms : List Nat) (mon : Nat) (outs : List (Out α)) : Option Nat :=
  minC (minC (some x.samples.length) (if sel = some i then some mon else none))
    (minAt (fun o => match rooms[o]?, outs[o]? with
      | some room, some w => some (room - w.samples.length)
      | _, _ => none) os)

/-- Selector.hpp:232-234. -/
def copyAll {α} (n : Nat) (x : In α) (os : List Nat) (rooms : List Nat) (outs : List (Out α)) : Option (List (Out α)) :=
  os.foldl (fun s o => s.bind fun outs =>
    match outs[o]?, rooms[o]? with
    | some w, some room => (copyTo n x room w).map fun w' => outs.set o w'
    | _, _ => none) (some outs)

/-- Selector.hpp:226-236 for one input. -/
def copyOne {α} (sel : Option Nat) (ins : List (In α)) (rooms : List Nat) (mon : Nat) (e : Nat × List Nat)
    (s : List (Out α) × Counts) : Option (List (Out α) × Counts) :=
  match ins[e.1]? with
  | none => none
  | some x =>
    match copyCount sel e.1 x e.2 rooms mon s.1 with
    | none => none
    | some n => (copyAll n x e.2 rooms s.1).map fun outs => (outs, s.2.set e.1 (some n))

/-- Selector.hpp:225-237: the other branch. -/
def plainBranch {α} (c : Cfg) (sel : Option Nat) (ins : List (In α)) (rooms : List Nat) (mon : Nat) : Option (List (Out α) × Counts) :=
  c.inOut.foldl (fun s e => s.bind (copyOne sel ins rooms mon e)) (some (rooms.map fun _ => ⟨[], []⟩, ins.map fun _ => none))

/-- Selector.hpp:239-244: the monitor output. -/
def monitor {α} (sel : Option Nat) (ins : List (In α)) (mon : Nat) (n : Counts) : Option (Out α × Counts) :=
  match sel with
  | none => some (⟨[], []⟩, n)
  | some i =>
    match ins[i]? with
    | none => some (⟨[], []⟩, n)
    | some x =>
      match minC (minC (some x.samples.length) (some mon)) (n.at i) with
      | none => none
      | some k => (copyTo k x mon ⟨[], []⟩).map fun o => (o, n.set i (some k))

/-- Selector.hpp:247-248: the number of samples consumed of an input. -/
def finalCount {α} (back : Bool) (x : In α) : Option Nat → Nat
  | none => if back then 0 else x.samples.length
  | some n => n

/-- What a call does: samples consumed of the inputs, samples up to which the tags of each input are consumed, what is written to the outputs and
to the monitor, and whether the values at the select input are consumed. -/
structure Res (α : Type) where
  consumed : List Nat
  tagsUntil : List Nat
  outs : List (Out α)
  mon : Out α
  selTaken : Bool
deriving DecidableEq, Repr

/-- Selector.hpp:142-253 `processBulk`: `sels` are the values at the select input, `rooms` the sizes of the outputs and `mon` of the monitor.
`none` if memory outside of the buffers is read or written. Every index of the maps is used, so that indices out of range are checked first. Without a
map only the tags of the first sample are consumed, if any sample is (Port.hpp:612-626, Block.hpp:1342). -/
def processBulk {α} (c : Cfg) (sels : List Nat) (ins : List (In α)) (rooms : List Nat) (mon : Nat) : Option (Res α) :=
  if c.inOut = [] then
    let n := ins.map fun x => if c.back then 0 else x.samples.length
    some ⟨n, n.map fun k => min k 1, rooms.map fun _ => ⟨[], []⟩, ⟨[], []⟩, false⟩
  else if ¬ ((∀ e ∈ c.inOut, e.1 < ins.length ∧ ∀ o ∈ e.2, o < rooms.length) ∧ ∀ e ∈ c.outIn, e.1 < rooms.length ∧ ∀ i ∈ e.2, i < ins.length) then none
  else
    let sel := sels.getLast?
    let r := if c.sync && c.outIn.any fun e => decide (e.2.length > 1) then syncBranch c sel ins rooms mon else plainBranch c sel ins rooms mon
    match r with
    | none => none
    | some (outs, n) =>
      match monitor sel ins mon n with
      | none => none
      | some (m, n) =>
        let k := (ins.zip n).map fun x => finalCount c.back x.1 x.2
        some ⟨k, k, outs, m, true⟩

/-! A run of the block. -/

/-- An input: the stream that arrives, with its tags, the number of samples consumed so far and the tags left. -/
structure Port (α : Type) where
  stream : List α
  tags : List Tag
  pos : Nat
  left : List Tag

/-- Port.hpp:596-604, 673-678: the input as seen when `n` samples after `pos` have arrived, or all there are. -/
def Port.view {α} (p : Port α) (n : Nat) : In α :=
  let xs := (p.stream.drop p.pos).take n
  ⟨xs, p.pos, p.left.takeWhile fun t => decide (t.index < p.pos + xs.length)⟩

/-- Port.hpp:665-668: what was asked to be consumed takes effect. -/
def Port.apply {α} (p : Port α) (n consumed tagsUntil : Nat) : Port α :=
  { p with
    pos := p.pos + consumed
    left := p.left.drop ((p.view n).tags.takeWhile fun t => decide (t.index < p.pos + tagsUntil)).length }

/-- What was written to an output is published after what was published before (Port.hpp:727). -/
def Out.append {α} (a b : Out α) : Out α :=
  ⟨a.samples ++ b.samples, a.tags ++ b.tags.map fun t => ⟨t.index + a.samples.length, t.val⟩⟩

/-- The block with its ports: inputs, outputs, monitor and what is left at the select input. -/
structure Sys (α : Type) where
  ins : List (Port α)
  outs : List (Out α)
  mon : Out α
  sels : List Nat

/-- A call: values that arrived at the select input, samples available at every input, room at every output and at the monitor. -/
structure Call where
  sels : List Nat
  avail : List Nat
  rooms : List Nat
  mon : Nat
deriving DecidableEq, Repr

/-- The inputs as seen in a call. -/
def Sys.views {α} (s : Sys α) (k : Call) : List (In α) := (s.ins.zip k.avail).map fun x => x.1.view x.2

/-- One call of `processBulk`. -/
def Sys.step {α} (c : Cfg) (s : Sys α) (k : Call) : Option (Sys α) :=
  (processBulk c (s.sels ++ k.sels) (s.views k) k.rooms k.mon).map fun r =>
    ⟨((s.ins.zip k.avail).zip (r.consumed.zip r.tagsUntil)).map fun x => x.1.1.apply x.1.2 x.2.1 x.2.2,
      (s.outs.zip r.outs).map fun x => x.1.append x.2,
      s.mon.append r.mon,
      if r.selTaken then [] else s.sels ++ k.sels⟩

/-- The block before the first call. -/
def Sys.init {α} (streams : List (List α × List Tag)) (nOut : Nat) : Sys α :=
  ⟨streams.map fun x => ⟨x.1, x.2, 0, x.2⟩, List.replicate nOut ⟨[], []⟩, ⟨[], []⟩, []⟩

end Verif.Selector
