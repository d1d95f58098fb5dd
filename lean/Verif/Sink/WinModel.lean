import Verif.Sink.Model
/-!
# Listeners of the data sink that cut the stream into data sets — model of blocks/basic/include/gnuradio-4.0/basic/DataSink.hpp

A matcher is any function of a tag and a state that it changes (`trigger::Matcher`; the usual one is C29). Of a data set the parts
these listeners fill are modelled; `info` stands for the names, units and ranges taken from the metadata. The check of debug builds that
tags are at the first sample of a chunk (418-425) is left out. What a listener publishes goes to a callback or is offered to a
`DataSetPoller`.
-/
namespace Verif.Sink

/-- `trigger::MatchResult` -/
inductive Match where
  | matching | notMatching | ignore
deriving DecidableEq, Repr

/-- `trigger::Matcher` with the state it is given -/
abbrev Matcher (γ σ : Type) := Tag γ → σ → Match × σ

/-- the parts of a `DataSet` that are filled: one signal along one axis; `events` are `timing_events[0]` -/
structure DS (α γ : Type) where
  info : List γ
  values : List α
  axis : List Nat
  extent : Nat
  events : List (Int × List γ)
deriving DecidableEq, Repr

variable {α γ σ : Type}

/-- `detail::createDataset` — DataSink.hpp:389-416 -/
def DS.new (info : List γ) : DS α γ := ⟨info, [], [], 0, []⟩

/-- samples appended, the axis counting on and the extent set to the number of samples — DataSink.hpp:873-875, 883-887, 953-956 -/
def DS.add (d : DS α γ) (xs : List α) : DS α γ :=
  { d with
    values := d.values ++ xs
    axis := d.axis ++ List.range' d.values.length xs.length
    extent := d.values.length + xs.length }

/-- `timing_events[0].emplace_back` -/
def DS.event (d : DS α γ) (at' : Int) (m : List γ) : DS α γ := { d with events := d.events ++ [(at', m)] }

/-! ### Around triggers -/

/-- `TriggerCapture` — DataSink.hpp:842-845 -/
structure Capture (α γ : Type) where
  ds : DS α γ
  left : Nat
deriving DecidableEq, Repr

/-- `TriggerListener` — DataSink.hpp:848-863 -/
structure Trig (α γ σ : Type) where
  pre : Nat
  post : Nat
  info : List γ
  state : σ
  caps : List (Capture α γ)

/-- one tag; `hist` are the samples before the chunk, the newest first — DataSink.hpp:866-878 -/
def Trig.onTag (m : Matcher γ σ) (hist : List α) (t : Trig α γ σ) (tag : Tag γ) : Trig α γ σ :=
  if tag.map.isEmpty then t
  else match m tag t.state with
    | (.matching, st) =>
      let n := min t.pre hist.length
      { t with
        state := st
        caps := t.caps ++ [⟨((DS.new t.info).add (hist.take n).reverse).event n tag.map, t.post⟩] }
    | (_, st) => { t with state := st }

/-- the loop over the captures: what is published, and what stays — DataSink.hpp:880-898 -/
def feed (data : List α) : List (Capture α γ) → List (DS α γ) × List (Capture α γ)
  | [] => ([], [])
  | c :: cs =>
    let n := min c.left data.length
    let ds := c.ds.add (data.take n)
    let r := feed data cs
    if c.left - n = 0 then (ds :: r.1, r.2) else (r.1, ⟨ds, c.left - n⟩ :: r.2)

/-- `TriggerListener::process` — DataSink.hpp:865-899 -/
def Trig.process (m : Matcher γ σ) (hist : List α) (t : Trig α γ σ) (c : Chunk α γ) : List (DS α γ) × Trig α γ σ :=
  let t' := c.tags.foldl (Trig.onTag m hist) t
  let r := feed c.data t'.caps
  (r.1, { t' with caps := r.2 })

/-- `TriggerListener::stop` — DataSink.hpp:900-910 -/
def Trig.stop (t : Trig α γ σ) : List (DS α γ) := (t.caps.filter fun c => !c.ds.values.isEmpty).map (·.ds)

/-! ### Between tags -/

/-- `std::numeric_limits<std::size_t>::max()` -/
def sizeMax : Nat := 2 ^ 64 - 1

/-- `MultiplexedListener` — DataSink.hpp:914-928 -/
structure Mux (α γ σ : Type) where
  maxSize : Nat
  info : List γ
  state : σ
  cur : Option (DS α γ)

/-- one tag: what is published, and the new state — DataSink.hpp:933-947 -/
def Mux.onTag (m : Matcher γ σ) (x : Mux α γ σ) (tag : Tag γ) : List (DS α γ) × Mux α γ σ :=
  let r := m tag x.state
  let closed := match r.1, x.cur with
    | .ignore, _ => []
    | _, some d => [d.event d.values.length tag.map]
    | _, none => []
  (closed, { x with
    state := r.2
    cur := match r.1 with
      | .ignore => x.cur
      | .notMatching => none
      | .matching => some ((DS.new x.info).event 0 tag.map) })

/-- the tags of a chunk one after the other — DataSink.hpp:933-947 -/
def Mux.onTags (m : Matcher γ σ) (x : Mux α γ σ) : List (Tag γ) → List (DS α γ) × Mux α γ σ
  | [] => ([], x)
  | t :: ts =>
    let a := x.onTag m t
    let b := a.2.onTags m ts
    (a.1 ++ b.1, b.2)

/-- the samples of a chunk — DataSink.hpp:948-962 -/
def Mux.onData (x : Mux α γ σ) (data : List α) : List (DS α γ) × Mux α γ σ :=
  match x.cur with
  | none => ([], x)
  | some d =>
    let maxSize := if x.maxSize = 0 then sizeMax else x.maxSize
    let n := min data.length (maxSize - d.values.length)
    let d' := if 0 < n then d.add (data.take n) else d
    if d.values.length + n = maxSize then ([d'], { x with cur := none }) else ([], { x with cur := some d' })

/-- `MultiplexedListener::process` — DataSink.hpp:930-963 -/
def Mux.process (m : Matcher γ σ) (x : Mux α γ σ) (c : Chunk α γ) : List (DS α γ) × Mux α γ σ :=
  let a := x.onTags m c.tags
  let b := a.2.onData c.data
  (a.1 ++ b.1, b.2)

/-- `MultiplexedListener::stop` — DataSink.hpp:965-973 -/
def Mux.stop (x : Mux α γ σ) : List (DS α γ) := x.cur.toList

/-! ### Single samples -/

/-- `Snapshot` — DataSink.hpp:976-980 -/
structure Shot (γ : Type) where
  map : List γ
  index : Nat
  left : Nat
deriving DecidableEq, Repr

/-- `SnapshotListener`; `delay` is `_sampleDelay`, which `setMetadata` computes from the sample rate — DataSink.hpp:983-1003 -/
structure Snap (γ σ : Type) where
  delay : Nat
  info : List γ
  state : σ
  shots : List (Shot γ)

/-- one tag — DataSink.hpp:1006-1011 -/
def Snap.onTag (m : Matcher γ σ) (x : Snap γ σ) (tag : Tag γ) : Snap γ σ :=
  if tag.map.isEmpty then x
  else match m tag x.state with
    | (.matching, st) => { x with state := st, shots := x.shots ++ [⟨tag.map, x.delay, x.delay⟩] }
    | (_, st) => { x with state := st }

/-- the loop over the snapshots: what is published, and what stays — DataSink.hpp:1013-1027 -/
def shoot (info : List γ) (data : List α) : List (Shot γ) → List (DS α γ) × List (Shot γ)
  | [] => ([], [])
  | s :: ss =>
    let r := shoot info data ss
    match data[s.left]? with
    | none => (r.1, { s with left := s.left - data.length } :: r.2)
    | some v => (⟨info, [v], [0], 1, [(-(s.index : Int), s.map)]⟩ :: r.1, r.2)

/-- `SnapshotListener::process` — DataSink.hpp:1005-1028 -/
def Snap.process (m : Matcher γ σ) (x : Snap γ σ) (c : Chunk α γ) : List (DS α γ) × Snap γ σ :=
  let x' := c.tags.foldl (Snap.onTag m) x
  let r := shoot x'.info c.data x'.shots
  (r.1, { x' with shots := r.2 })

/-! ### The sink: samples kept for listeners that look back, and its listeners -/

/-- the samples kept, the newest first, and how many at most (a `HistoryBuffer` used with `push_front`: C08) -/
structure Hist (α : Type) where
  cap : Nat
  items : List α
deriving DecidableEq, Repr

/-- `HistoryBuffer::push_front` of a range: each of the samples becomes the newest in turn — HistoryBuffer.hpp:130-159 -/
def Hist.push (h : Hist α) (xs : List α) : Hist α := { h with items := (xs.reverse ++ h.items).take h.cap }

/-- `ensureHistorySize` — DataSink.hpp:637-651 -/
def ensure (h : Option (Hist α)) (n : Nat) : Option (Hist α) :=
  if n ≤ (h.map (·.cap)).getD 0 then h
  else match h with
    | none => some ⟨n, []⟩
    | some h => some (Hist.push ⟨n, []⟩ h.items)

/-- `get_span(0)` — DataSink.hpp:623 -/
def view (h : Option (Hist α)) : List α := (h.map (·.items)).getD []

/-- the four kinds of listeners with what they have published so far -/
inductive Lis (α γ σ : Type) where
  | stream (tk : Bool) (maxChunk : Nat) (pending : Option (List γ)) (out : List (Call α γ))
  | trig (m : Matcher γ σ) (t : Trig α γ σ) (out : List (DS α γ))
  | mux (m : Matcher γ σ) (x : Mux α γ σ) (out : List (DS α γ))
  | snap (m : Matcher γ σ) (delayOf : List γ → Nat) (x : Snap γ σ) (out : List (DS α γ))

/-- `process` of each — DataSink.hpp:757-792, 865-899, 930-963, 1005-1028 -/
def Lis.process (hist : List α) (c : Chunk α γ) : Lis α γ σ → Lis α γ σ
  | .stream tk n p out => .stream tk n (callback tk n p c).2 (out ++ (callback tk n p c).1)
  | .trig m t out => .trig m (t.process m hist c).2 (out ++ (t.process m hist c).1)
  | .mux m x out => .mux m (x.process m c).2 (out ++ (x.process m c).1)
  | .snap m f x out => .snap m f (x.process m c).2 (out ++ (x.process m c).1)

/-- `setMetadata` of each; `delayOf` stands for the product of delay and sample rate — DataSink.hpp:716, 755, 1000-1003 -/
def Lis.setMeta (info : List γ) : Lis α γ σ → Lis α γ σ
  | .stream tk n _ out => .stream tk n (some info) out
  | .trig m t out => .trig m { t with info := info } out
  | .mux m x out => .mux m { x with info := info } out
  | .snap m f x out => .snap m f { x with info := info, delay := f info } out

/-- `stop` of each — DataSink.hpp:833-839, 900-910, 965-973, 1030-1035 -/
def Lis.stop : Lis α γ σ → Lis α γ σ
  | .stream tk n p out => .stream tk n p out
  | .trig m t out => .trig m { t with caps := [] } (out ++ t.stop)
  | .mux m x out => .mux m { x with cur := none } (out ++ x.stop)
  | .snap m f x out => .snap m f { x with shots := [] } out

/-- `DataSink`: history, listeners, metadata, and whether it was stopped — DataSink.hpp:506-511 -/
structure Sink (α γ σ : Type) where
  hist : Option (Hist α)
  lis : List (Lis α γ σ)
  info : List γ
  finished : Bool

/-- what happens to a sink -/
inductive Ev (α γ σ : Type) where
  /-- a listener is added: at the back if it may hold the sink back (`bp`), at the front if not — 544-606, 653-660 -/
  | add (l : Lis α γ σ) (bp : Bool)
  | settings (info : List γ)
  | chunk (c : Chunk α γ)
  | stop

/-- how far a listener looks back — DataSink.hpp:562, 592 -/
def Lis.back : Lis α γ σ → Nat
  | .trig _ t _ => t.pre
  | _ => 0

/-- one event; expired listeners are left out of the model — DataSink.hpp:529-542, 544-606, 607-614, 616-634, 653-660 -/
def Sink.step (s : Sink α γ σ) : Ev α γ σ → Sink α γ σ
  | .add l bp =>
    let l' := l.setMeta s.info
    { s with
      lis := if bp then s.lis ++ [l'] else l' :: s.lis
      hist := ensure s.hist l.back }
  | .settings info => { s with info := info, lis := s.lis.map (Lis.setMeta info) }
  | .chunk c => { s with lis := s.lis.map (Lis.process (view s.hist) c), hist := s.hist.map (·.push c.data) }
  | .stop => { s with lis := s.lis.map Lis.stop, finished := true }

end Verif.Sink
