/-!
# Streaming listeners of the data sink — model of blocks/basic/include/gnuradio-4.0/basic/DataSink.hpp

Samples are of any type `α`; a property map is a list of entries of any type `γ`. The metadata kept by a listener is represented by the
map `Metadata::toTagMap` makes of it (370-387). The rings of a poller are queues of bounded length: that they are is C01 to C07.

A poller is written by the thread running the block and read by another one; the model has one step for each access to a ring that the
other thread can observe, so that every interleaving of the two is a list of actions.
-/
namespace Verif.Sink

/-- a tag of a chunk: `index` counts from the first sample of the chunk — DataSink.hpp:615-618 -/
structure Tag (γ : Type) where
  index : Nat
  map : List γ
deriving DecidableEq, Repr

/-- what `processBulk` hands to every listener — DataSink.hpp:614-634 -/
structure Chunk (α γ : Type) where
  data : List α
  tags : List (Tag γ)
deriving DecidableEq, Repr

/-- one invocation of a user's function: samples, and tags relative to the first of them -/
structure Call (α γ : Type) where
  data : List α
  tags : List (Tag γ)
deriving DecidableEq, Repr

variable {α γ : Type}

/-- the tags of a chunk that lie on the samples from `lo` up to `hi`, relative to `lo` — DataSink.hpp:768, 781-785 -/
def slice (tags : List (Tag γ)) (lo hi : Nat) : List (Tag γ) :=
  (tags.filter fun t => lo ≤ t.index ∧ t.index < hi).map fun t => ⟨t.index - lo, t.map⟩

/-- the loop of `ContinuousListener::process` for a callback, from sample `off` on; `fuel` bounds the iterations and is never used up as
each takes at least one sample. Result: the invocations and the metadata still to be sent. `tk`: the callback takes tags —
DataSink.hpp:758-792 -/
def callLoop (tk : Bool) (chunk : Nat) (c : Chunk α γ) : Nat → Nat → Option (List γ) → List (Call α γ) × Option (List γ)
  | 0, _, p => ([], p)
  | fuel + 1, off, p =>
    if off < c.data.length then
      let len := min chunk (c.data.length - off)
      let part := (c.data.drop off).take len
      if tk then
        let out := match p with
          | some m => ⟨0, m⟩ :: slice c.tags off (off + len)
          | none => slice c.tags off (off + len)
        let r := callLoop tk chunk c fuel (off + len) none
        (⟨part, out⟩ :: r.1, r.2)
      else
        let r := callLoop tk chunk c fuel (off + len) p
        (⟨part, []⟩ :: r.1, r.2)
    else ([], p)

/-- `ContinuousListener::process` for a callback registered with `maxChunk` (0: no limit) — DataSink.hpp:757-792 -/
def callback (tk : Bool) (maxChunk : Nat) (p : Option (List γ)) (c : Chunk α γ) : List (Call α γ) × Option (List γ) :=
  callLoop tk (if maxChunk ≠ 0 then maxChunk else c.data.length) c c.data.length 0 p

/-- what reaches a listener: new metadata (529-542, 755) or a chunk (626-628) -/
inductive In (α γ : Type) where
  | meta' (m : List γ)
  | chunk (c : Chunk α γ)
deriving DecidableEq, Repr

/-- a callback listener over a whole run — DataSink.hpp:755, 757-792 -/
def callbacks (tk : Bool) (maxChunk : Nat) : Option (List γ) → List (In α γ) → List (Call α γ)
  | _, [] => []
  | _, .meta' m :: r => callbacks tk maxChunk (some m) r
  | p, .chunk c :: r =>
    (callback tk maxChunk p c).1 ++ callbacks tk maxChunk (callback tk maxChunk p c).2 r

/-- `StreamingPoller`: what the two rings hold, and the counters — DataSink.hpp:75-95 -/
structure Poller (α γ : Type) where
  cap : Nat
  tagCap : Nat
  data : List α
  tags : List (Nat × List γ)
  read : Nat
  finished : Bool
  droppedSamples : Nat
  droppedTags : Nat
  minReq : Nat
  maxReq : Nat
deriving DecidableEq, Repr

/-- where the writing thread is inside `ContinuousListener::process` — DataSink.hpp:793-830 -/
inductive WPos (α γ : Type) where
  | idle
  /-- the number of samples to publish is known (800) -/
  | sized (c : Chunk α γ) (n : Nat)
  /-- so is the number of tags, of those available (801-803) -/
  | planned (c : Chunk α γ) (n k avail : Nat)
  /-- the tags are published (805-822) -/
  | tagged (c : Chunk α γ) (n k avail : Nat)
deriving DecidableEq, Repr

/-- where the reading thread is inside `StreamingPoller::process` — DataSink.hpp:97-123 -/
inductive RPos where
  | idle
  /-- the number of samples is known (99-104); `tk`: the user's function takes tags -/
  | planned (n : Nat) (tk : Bool)
  /-- the function was invoked and the tags are consumed (106-117) -/
  | called (n : Nat)
deriving DecidableEq, Repr

/-- a poller, its listener and the two threads -/
structure St (α γ : Type) where
  poller : Poller α γ
  blocking : Bool
  published : Nat
  pending : Option (List γ)
  w : WPos α γ
  r : RPos
  calls : List (Call α γ)
deriving DecidableEq, Repr

/-- the steps of the two threads -/
inductive Act (α γ : Type) where
  /-- `settingsChanged` — 529-542; it takes the listener mutex, so it runs between chunks -/
  | meta' (m : List γ)
  /-- a chunk arrives — 793-800 -/
  | offer (c : Chunk α γ)
  /-- 801-803 -/
  | planTags
  /-- 805-822 -/
  | pubTags
  /-- 823-830 -/
  | pubData
  /-- `stop` — 833-839; takes the listener mutex -/
  | stop
  /-- the user polls — 97-104 -/
  | poll (requested : Nat) (tk : Bool)
  /-- 105-117 -/
  | call
  /-- 119-121 -/
  | consume
deriving DecidableEq, Repr

/-- `detail::calculateNSamplesToProcess` — DataSink.hpp:67-70 -/
def nToProcess (available requested minReq maxReq : Nat) : Nat :=
  min available (if requested < minReq then minReq else if maxReq < requested then maxReq else requested)

/-- the entries put in the tag ring: pending metadata first, then tags of samples that are published — DataSink.hpp:808-820 -/
def tagEntries (s : St α γ) (c : Chunk α γ) (n : Nat) : List (Nat × List γ) :=
  (match s.pending with | some m => [(s.published, m)] | none => []) ++
    (c.tags.filter fun t => t.index < n).map fun t => (s.published + t.index, t.map)

/-- tags handed to the user's function: up to the first tag behind the samples read, relative to the first of these —
DataSink.hpp:106-109 -/
def relevant (p : Poller α γ) (n : Nat) : List (Nat × List γ) := p.tags.takeWhile fun t => t.1 < p.read + n

/-- one step; `none` when the thread concerned is elsewhere or has to wait for room in a ring — DataSink.hpp:97-123, 793-839 -/
def step (s : St α γ) : Act α γ → Option (St α γ)
  | .meta' m => match s.w with
    | .idle => some { s with pending := some m }
    | _ => none
  | .offer c => match s.w with
    | .idle =>
      some { s with w := .sized c (if s.blocking then c.data.length else min c.data.length (s.poller.cap - s.poller.data.length)) }
    | _ => none
  | .planTags => match s.w with
    | .sized c n =>
      let inRange := (c.tags.filter fun t => t.index < n).length
      let avail := if s.pending.isSome then inRange + 1 else inRange
      some { s with w := .planned c n (if s.blocking then avail else min avail (s.poller.tagCap - s.poller.tags.length)) avail }
    | _ => none
  | .pubTags => match s.w with
    | .planned c n k avail =>
      if 0 < n ∧ 0 < k then
        if s.poller.tags.length + k ≤ s.poller.tagCap then
          some { s with
            w := .tagged c n k avail
            pending := none
            poller := { s.poller with tags := s.poller.tags ++ (tagEntries s c n).take k } }
        else none
      else some { s with w := .tagged c n k avail }
    | _ => none
  | .pubData => match s.w with
    | .tagged c n k avail =>
      if s.poller.data.length + n ≤ s.poller.cap then
        some { s with
          w := .idle
          published := s.published + n
          poller := { s.poller with
            data := s.poller.data ++ c.data.take n
            droppedSamples := s.poller.droppedSamples + (c.data.length - n)
            droppedTags := s.poller.droppedTags + (avail - k) } }
      else none
    | _ => none
  | .stop => match s.w with
    | .idle => some { s with poller := { s.poller with finished := true } }
    | _ => none
  | .poll requested tk => match s.r with
    | .idle =>
      let n := nToProcess s.poller.data.length requested s.poller.minReq s.poller.maxReq
      if n < s.poller.minReq then some s else some { s with r := .planned n tk }
    | _ => none
  | .call => match s.r with
    | .planned n tk =>
      if tk then
        let ts := relevant s.poller n
        some { s with
          r := .called n
          calls := s.calls ++ [⟨s.poller.data.take n, ts.map fun t => ⟨t.1 - s.poller.read, t.2⟩⟩]
          poller := { s.poller with tags := s.poller.tags.drop ts.length } }
      else
        some { s with
          r := .called n
          calls := s.calls ++ [⟨s.poller.data.take n, []⟩]
          poller := { s.poller with tags := [] } }
    | _ => none
  | .consume => match s.r with
    | .called n => some { s with r := .idle, poller := { s.poller with data := s.poller.data.drop n, read := s.poller.read + n } }
    | _ => none

/-- a new poller and its listener, told the metadata when it is added — DataSink.hpp:89-93, 544-551, 653-655 -/
def start (cap tagCap minReq maxReq : Nat) (blocking : Bool) (info : List γ) : St α γ :=
  ⟨⟨cap, tagCap, [], [], 0, false, 0, 0, minReq, maxReq⟩, blocking, 0, some info, .idle, .idle, []⟩

/-- an interleaving of the two threads; `none` when one of its steps could not be taken then -/
def run (s : St α γ) : List (Act α γ) → Option (St α γ)
  | [] => some s
  | a :: as => (step s a).bind fun s' => run s' as

end Verif.Sink
