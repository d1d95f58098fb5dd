/-!
Model of the block that aligns streams by their synchronisation tags (blocks/basic/include/gnuradio-4.0/basic/SyncBlock.hpp).

Left out: other settings the tags may change, tags refused because the tag buffer of an output is full, the end of the streams.
-/
namespace Verif.Sync

/-- The value under the key of the trigger time: an unsigned integer of 64 bits or something else. -/
inductive Time where
  | u64 (n : Nat)
  | other
deriving DecidableEq, Repr

/-- Tag.hpp `Tag`: index of its sample in the stream and a map, of which SyncBlock.hpp:339-376 looks at the trigger name (the
empty text if it is not a text) and the trigger time. The rest of the map is kept as one value. -/
structure Tag where
  index : Nat
  name : Option String
  time : Option Time
  rest : Nat
deriving DecidableEq, Repr

/-- Settings of the block (SyncBlock.hpp:127-130). -/
structure Cfg where
  history : Nat
  filter : String
  tolerance : Nat
deriving DecidableEq, Repr

/-- State of the block (SyncBlock.hpp:134-135). -/
structure St where
  synced : Bool
  dropped : List Nat
deriving DecidableEq, Repr

/-- What `processBulk` sees of an input (Port.hpp:596-604): the samples available, the index of the first in the stream and the tags not yet
consumed on samples up to the last available. -/
structure In (α : Type) where
  samples : List α
  start : Nat
  tags : List Tag

/-- A tag published on an output, at an index counted from the first sample of the call: the number of samples dropped, or a tag
of the input. -/
inductive OTag where
  | dropped (offset n : Nat)
  | input (offset : Nat) (t : Tag)
deriving DecidableEq, Repr

/-- What a call does to a pair of ports: number of samples consumed, samples and tags published. -/
structure Res (α : Type) where
  consumed : Nat
  samples : List α
  tags : List OTag
deriving DecidableEq, Repr

/-- The largest `uint64_t`, used for no time. -/
def noTime : Nat := 2 ^ 64 - 1

/-- SyncBlock.hpp:378-380 `getRelativeTagIndex`; `none` for the largest `size_t`. -/
def relIndex {α} (i : In α) (t : Tag) : Option Nat :=
  if i.start ≤ t.index then some (t.index - i.start) else none

/-- SyncBlock.hpp:362-376 `getTime`. -/
def getTime (t : Tag) : Nat :=
  match t.time with
  | some (.u64 n) => n
  | _ => 0

/-- SyncBlock.hpp:339-360 `isSyncTag`. -/
def isSyncTag (c : Cfg) (t : Tag) : Bool :=
  match t.name with
  | none => false
  | some n =>
    if c.filter ≠ "" ∧ n ≠ c.filter then false
    else match t.time with
      | some (.u64 _) => true
      | _ => false

/-- SyncBlock.hpp:337 `isTimeDifferenceWithinTolerance`. -/
def within (c : Cfg) (t1 t2 : Nat) : Bool :=
  decide ((if t1 > t2 then t1 - t2 else t2 - t1) < c.tolerance)

/-- SyncBlock.hpp:283-290: the times of the synchronisation tags of an input. -/
def syncTimes {α} (c : Cfg) (i : In α) : List Nat :=
  (i.tags.filter fun t =>
    isSyncTag c t && match relIndex i t with
      | some r => decide (r < i.samples.length)
      | none => false).map getTime

/-- Insertion into a `std::set`. -/
def insertSet (t : Nat) : List Nat → List Nat
  | [] => [t]
  | u :: l => if t < u then t :: u :: l else if t = u then u :: l else u :: insertSet t l

/-- SyncBlock.hpp:277-302 `findSyncTime`. -/
def findSyncTime {α} (c : Cfg) (ins : List (In α)) : Nat :=
  let per := ins.map (syncTimes c)
  let all := per.flatten.foldl (fun s t => insertSet t s) []
  match all.find? fun cur => per.all fun ts => ts.any fun t => within c cur t with
  | some t => t
  | none => noTime

/-- SyncBlock.hpp:304-312 `getAvailablePreSamples`. -/
def preSamples {α} (c : Cfg) (i : In α) (sync : Nat) : Nat :=
  match i.tags.find? fun t => (match relIndex i t with
      | some r => decide (r < sync)
      | none => false) && isSyncTag c t with
  | some t => sync - (t.index - i.start) - 1
  | none => sync

/-- SyncBlock.hpp:314-325 `getAvailablePostSamples`. -/
def postSamples {α} (c : Cfg) (i : In α) (sync : Nat) : Nat :=
  match i.tags.find? fun t => (match relIndex i t with
      | some r => decide (r > sync ∧ r < i.samples.length)
      | none => false) && isSyncTag c t with
  | some t => (t.index - i.start) - sync - 1
  | none => i.samples.length - sync - 1

/-- SyncBlock.hpp:139-143 `SyncData`. -/
structure Data where
  index : Nat
  pre : Nat
  post : Nat
deriving DecidableEq, Repr

/-- SyncBlock.hpp:259-269: the first tag of an input whose time is near the synchronisation time. -/
def syncData {α} (c : Cfg) (time : Nat) (i : In α) : Option Data :=
  match i.tags.find? fun t => within c (getTime t) time && (relIndex i t).isSome with
  | some t => some ⟨t.index - i.start, preSamples c i (t.index - i.start), postSamples c i (t.index - i.start)⟩
  | none => none

/-- SyncBlock.hpp:251-274 `synchronize`. -/
def synchronize {α} (c : Cfg) (ins : List (In α)) : List Data :=
  let time := findSyncTime c ins
  if time = noTime then [] else ins.filterMap (syncData c time)

/-- SyncBlock.hpp:327-335 `getNSamplesBeforeSyncTag`. -/
def samplesBefore {α} (c : Cfg) (i : In α) : Nat :=
  match i.tags.find? fun t => isSyncTag c t && (relIndex i t).isSome with
  | some t => min (t.index - i.start) i.samples.length
  | none => i.samples.length

/-- `std::ranges::min` of a range that is not empty. -/
def minOf : List Nat → Nat
  | [] => 0
  | [n] => n
  | n :: l => min n (minOf l)

/-- SyncBlock.hpp:235-239 `publishDroppedSamplesTagIfNotZero`; the number is kept in 32 bits. -/
def dropTag (n : Nat) : List OTag :=
  if n > 0 then [.dropped 0 (n % 2 ^ 32)] else []

/-- SyncBlock.hpp:241-248 `publishInputTags`. -/
def inputTags {α} (i : In α) (drop publish : Nat) : List OTag :=
  i.tags.filterMap fun t =>
    match relIndex i t with
    | some r => if r ≥ drop ∧ r < publish + drop then some (.input (r - drop) t) else none
    | none => none

/-- SyncBlock.hpp:182-191 and 200-209: drop samples, then copy samples, for one pair of ports; `pending` is the number of samples dropped in
earlier calls. -/
def emit {α} (i : In α) (pending drop publish : Nat) : Res α :=
  ⟨drop + publish, (i.samples.drop drop).take publish, dropTag (pending + drop) ++ inputTags i drop publish⟩

/-- SyncBlock.hpp:213: samples beyond the history. -/
def excess {α} (c : Cfg) (i : In α) : Nat :=
  if i.samples.length < c.history then 0 else i.samples.length - c.history

/-- SyncBlock.hpp:166-233 `processBulk`, for at least one port; `rooms` are the sizes of the outputs. -/
def processBulk {α} (c : Cfg) (s : St) (ins : List (In α)) (rooms : List Nat) : St × List (Res α) :=
  let data := synchronize c ins
  if data.length = ins.length then
    let pre := minOf (data.map (·.pre))
    let post := minOf (data.map (·.post))
    let publish := min (pre + 1 + post) (minOf rooms)
    (⟨true, s.dropped.map fun _ => 0⟩,
      (ins.zip (data.zip s.dropped)).map fun x => emit x.1 x.2.2 (x.2.1.index - pre) publish)
  else
    let copy := min (minOf (ins.map (samplesBefore c))) (minOf rooms)
    if s.synced = true ∧ copy > 0 then
      (⟨true, s.dropped.map fun _ => 0⟩, (ins.zip s.dropped).map fun x => emit x.1 x.2 0 copy)
    else
      (⟨s.synced && ins.all fun i => decide (excess c i = 0), (ins.zip s.dropped).map fun x => x.2 + excess c x.1⟩,
        ins.map fun i => ⟨excess c i, [], []⟩)

/-! A run of the block. -/

/-- A pair of ports: the stream that arrives, with its tags, the samples and tags consumed so far and what was published. -/
structure Port (α : Type) where
  stream : List α
  tags : List Tag
  pos : Nat
  left : List Tag
  out : List α
  outTags : List OTag

/-- Port.hpp:596-604, 673-678: the input as seen when `n` samples after `pos` have arrived, or
all there are. -/
def Port.view {α} (p : Port α) (n : Nat) : In α :=
  let xs := (p.stream.drop p.pos).take n
  ⟨xs, p.pos, p.left.takeWhile fun t => decide (t.index < p.pos + xs.length)⟩

/-- A tag of a call, with its index in the stream of the output (Port.hpp:727). -/
def shift (n : Nat) : OTag → OTag
  | .dropped k d => .dropped (n + k) d
  | .input k t => .input (n + k) t

/-- SyncBlock.hpp:189-191, 207-209, 215-216 and 225-231 and Port.hpp:665-668: what was asked to be consumed and published takes effect. -/
def Port.apply {α} (p : Port α) (n : Nat) (r : Res α) : Port α :=
  { p with
    pos := p.pos + r.consumed
    left := p.left.drop ((p.view n).tags.takeWhile fun t => decide (t.index < p.pos + r.consumed)).length
    out := p.out ++ r.samples
    outTags := p.outTags ++ r.tags.map (shift p.out.length) }

/-- The block with its ports. -/
structure Sys (α : Type) where
  st : St
  ports : List (Port α)

/-- The block before the first call (SyncBlock.hpp:134, 156). -/
def Sys.init {α} (streams : List (List α × List Tag)) : Sys α :=
  ⟨⟨false, streams.map fun _ => 0⟩, streams.map fun x => ⟨x.1, x.2, 0, x.2, [], []⟩⟩

/-- A call: for each port the number of samples available at the input and the room at the output. -/
def Sys.views {α} (s : Sys α) (call : List (Nat × Nat)) : List (In α) :=
  (s.ports.zip call).map fun x => x.1.view x.2.1

/-- One call of `processBulk`. -/
def Sys.step {α} (c : Cfg) (s : Sys α) (call : List (Nat × Nat)) : Sys α :=
  let r := processBulk c s.st (s.views call) (call.map (·.2))
  ⟨r.1, ((s.ports.zip call).zip r.2).map fun x => x.1.1.apply x.1.2.1 x.2⟩

end Verif.Sync
