import Verif.Trigger.Model
/-!
# Selecting ranges of a stream by triggers — model of blocks/basic/include/gnuradio-4.0/basic/StreamToDataSet.hpp

`callD` is one call of `processBulk` of `StreamToDataSet`, `callS` one of `StreamFilter`. Samples are of any type, a tag's map is of any type
`τ` with a test for emptiness, and the matcher is any function with a state, as in the code (template parameter `TMatcher`).

Simplifications: the settings stay as they are during a run; the history is a list, newest sample first, cut to its capacity (what
`HistoryBuffer::push_front` does is C08); axis values are the integer numerators of `(start + j) / sample_rate`; names, units, ranges and
meta information of a data set, and the merged auto-forward tag, are left out.
-/
namespace Verif.Sel

open Verif.Trigger (Result)

/-- settings and matcher — StreamToDataSet.hpp:55-60, 78. `m t s` is the state after a call of the matcher, its answer, and the state's entry
`isSingleTrigger`; `fresh` is an empty `property_map`; `empty` the tag of line 182 -/
structure Cfg (τ σ : Type) where
  nPre : Nat
  nPost : Nat
  nMax : Nat
  fresh : σ
  m : τ → σ → σ × Result × Bool
  empty : τ
  isEmpty : τ → Bool

/-- answer of `detectTrigger` -/
structure Det where
  start : Bool
  stop : Bool
  single : Bool
deriving DecidableEq, Repr

variable {α τ σ : Type}

/-- `detectTrigger` — StreamToDataSet.hpp:450-466 -/
def detect (c : Cfg τ σ) (t : τ) (s : σ) : σ × Det :=
  match c.m t s with
  | (s', .ignore, _) => (s', ⟨false, false, false⟩)
  | (s', .matching, sg) => (s', ⟨true, false, sg⟩)
  | (s', .notMatching, sg) => (s', ⟨false, true, sg⟩)

/-- some answer that is not `Ignore` — StreamToDataSet.hpp:425, 431, 438 -/
def Det.any (d : Det) : Bool := d.start || d.stop || d.single

/-- `AccumulationState` — StreamToDataSet.hpp:80-87 -/
structure Acc where
  active : Bool := false
  pre : Bool := false
  post : Bool := false
  single : Bool := false
  remain : Nat := 0
  nPre : Nat := 0
  n : Nat := 0
deriving DecidableEq, Repr

/-- `AccumulationState::update`, the first `if` — StreamToDataSet.hpp:90-101 -/
def Acc.open (a : Acc) (d : Det) (nPre nPost : Nat) : Acc :=
  let a := { a with single := d.single }
  if !a.active && d.start then
    let a := { a with pre := decide (0 < nPre), active := true, n := 0 }
    if a.single then { a with post := true, remain := nPost } else a
  else a

/-- `AccumulationState::update` — StreamToDataSet.hpp:89-107 -/
def Acc.update (a : Acc) (d : Det) (nPre nPost : Nat) : Acc :=
  let a := a.open d nPre nPost
  if a.active && !a.post && d.stop then { a with post := true, remain := nPost } else a

/-- `AccumulationState::updatePostSamples` — StreamToDataSet.hpp:109-117; the count is at most `remain` at both callers -/
def Acc.postSamples (a : Acc) (k : Nat) : Acc :=
  let a := { a with remain := a.remain - k, n := a.n + k }
  if a.remain = 0 then { a with active := false, post := false } else a

/-- parts of a `DataSet` filled here — StreamToDataSet.hpp:316-361, 530-536: values, axis numerators, timing events -/
structure DS (α τ : Type) where
  values : List α := []
  axis : List Int := []
  events : List (Nat × τ) := []
deriving DecidableEq, Repr

/-- `fillAxisValues` — StreamToDataSet.hpp:530-535 -/
def fillAxis (start : Int) (n : Nat) : List Int := (List.range n).map (fun (j : Nat) => start + (j : Int))

/-- one entry of `_tempDataSets`, `_accState` and `_filterState` — StreamToDataSet.hpp:127-129 -/
structure Item (α τ σ : Type) where
  ds : DS α τ
  acc : Acc
  st : σ
deriving DecidableEq, Repr

/-- members of `StreamToDataSet` — StreamToDataSet.hpp:75-76, 127-129 -/
structure DSt (α τ σ : Type) where
  items : List (Item α τ σ) := []
  hist : List α := []
  histTags : List (Nat × τ) := []
deriving DecidableEq, Repr

/-- capacity of the history — StreamToDataSet.hpp:48, 75, 155 -/
def Cfg.cap (c : Cfg τ σ) : Nat := 1024 + c.nPre

/-- `_history.push_front(begin, end)` -/
def pushHist (c : Cfg τ σ) (h : List α) (xs : List α) : List α := (xs.reverse ++ h).take c.cap

/-- the first tag at index 0 that a test accepts, else the first at index 0, else the empty tag — StreamToDataSet.hpp:181-183, 407-448 -/
def pick (c : Cfg τ σ) (tags : List (Nat × τ)) (acc : τ → Bool) : τ :=
  let here := tags.filter (fun t => t.1 = 0)
  match here.find? (fun t => acc t.2) with
  | some t => t.2
  | none => (here.head?.map (·.2)).getD c.empty

/-- `findFirstTriggerTag` of the data-set form: a fresh state is asked first, then the state of every data set — StreamToDataSet.hpp:428-440 -/
def findD (c : Cfg τ σ) (items : List (Item α τ σ)) (tags : List (Nat × τ)) : τ :=
  pick c tags (fun t => (detect c t c.fresh).2.any || items.any (fun i => (detect c t i.st).2.any))

/-- a start trigger opens a new data set — StreamToDataSet.hpp:284-293 -/
def openD (c : Cfg τ σ) (t : τ) (items : List (Item α τ σ)) : List (Item α τ σ) :=
  let r := detect c t c.fresh
  if r.2.start then items ++ [⟨{}, ({} : Acc).update r.2 c.nPre c.nPost, r.1⟩] else items

/-- the first data set that is neither complete nor in its last samples is asked — StreamToDataSet.hpp:295-307 -/
def closeD (c : Cfg τ σ) (t : τ) : List (Item α τ σ) → List (Item α τ σ)
  | [] => []
  | i :: r =>
    if !i.acc.active || i.acc.post then i :: closeD c t r
    else
      let d := detect c t i.st
      { i with st := d.1, acc := if d.2.stop then i.acc.update d.2 c.nPre c.nPost else i.acc } :: r

/-- the samples before the trigger — StreamToDataSet.hpp:323-341 -/
def preD (c : Cfg τ σ) (hist : List α) (histTags : List (Nat × τ)) (i : Item α τ σ) : Item α τ σ :=
  if !i.acc.pre then i
  else
    let k := min c.nPre hist.length
    { i with
      ds := { values := i.ds.values ++ (hist.take k).reverse
              axis := i.ds.axis ++ fillAxis (-(k : Int)) k
              events := i.ds.events ++ (if k = 0 then []
                else (histTags.filter (fun t => t.1 ≤ k && !c.isEmpty t.2)).map (fun t => (k - t.1, t.2))) }
      acc := { i.acc with pre := false, nPre := k, n := i.acc.n + k } }

/-- free samples up to `n_max`, an unsigned difference — StreamToDataSet.hpp:345, 354 -/
def freeD (c : Cfg τ σ) (size : Nat) : Nat := (c.nMax + 2 ^ 64 - size) % 2 ^ 64

/-- how many samples of this call are copied — StreamToDataSet.hpp:345, 353-354 -/
def countD (c : Cfg τ σ) (i : Item α τ σ) (n : Nat) : Nat :=
  let w := if i.acc.post then min i.acc.remain n else n
  if c.nMax = 0 then w else min (freeD c i.ds.values.length) w

/-- the samples of this call — StreamToDataSet.hpp:343-371 -/
def copyD (c : Cfg τ σ) (ins : List α) (tags : List (Nat × τ)) (i : Item α τ σ) : Item α τ σ :=
  let k := countD c i ins.length
  if k = 0 then (if i.acc.post then { i with acc := { i.acc with active := false } } else i)
  else
    let acc := if i.acc.post then i.acc.postSamples k else { i.acc with n := i.acc.n + k }
    { i with
      ds := { values := i.ds.values ++ ins.take k
              axis := i.ds.axis ++ fillAxis ((i.acc.n : Int) - i.acc.nPre) k
              events := i.ds.events ++
                (tags.filter (fun t => t.1 < k && !c.isEmpty t.2)).map (fun t => (acc.n - k + t.1, t.2)) }
      acc := acc }

/-- the loop over the data sets — StreamToDataSet.hpp:315-372 -/
def accumulate (c : Cfg τ σ) (hist : List α) (histTags : List (Nat × τ)) (ins : List α) (tags : List (Nat × τ)) (i : Item α τ σ) :
    Item α τ σ :=
  if !i.acc.active then i else copyD c ins tags (preD c hist histTags i)

/-- ageing of the tags in the history, without the removal — StreamToDataSet.hpp:483-487, 494-497 -/
def ageTags (old new : List (Nat × τ)) (n : Nat) : List (Nat × τ) := (old ++ new).map (fun t => (t.1 + n, t.2))

/-- `updateHistory` of the data-set form, which is always called for all samples — StreamToDataSet.hpp:468-514 -/
def historyD (c : Cfg τ σ) (s : DSt α τ σ) (ins : List α) (tags : List (Nat × τ)) : DSt α τ σ :=
  if ins.length = 0 then s
  else if c.nPre = 0 then { s with histTags := s.histTags.filter (fun t => t.1 ≤ c.nPre) }
  else { s with hist := pushHist c s.hist ins
                histTags := (ageTags s.histTags tags ins.length).filter (fun t => t.1 ≤ c.nPre) }

/-- number of data sets published — StreamToDataSet.hpp:378-395 -/
def doneD (items : List (Item α τ σ)) (room : Nat) : Nat := min room (items.takeWhile (fun i => !i.acc.active)).length

/-- `processBulkDataSet`: state, samples consumed, data sets published — StreamToDataSet.hpp:264-402 -/
def callD (c : Cfg τ σ) (s : DSt α τ σ) (ins : List α) (tags : List (Nat × τ)) (room : Nat) : DSt α τ σ × Nat × List (DS α τ) :=
  if s.items.head?.any (fun i => !i.acc.active) && room = 0 then (s, 0, [])
  else
    let t := findD c s.items tags
    let items := closeD c t (openD c t s.items)
    if items.isEmpty then (historyD c { s with items := items } ins tags, ins.length, [])
    else
      let items := items.map (accumulate c s.hist s.histTags ins tags)
      let s := historyD c { s with items := items } ins tags
      let k := doneD items room
      ({ s with items := items.drop k }, ins.length, (items.take k).map (·.ds))

/-! ## StreamFilter -/

/-- members of `StreamFilter` — StreamToDataSet.hpp:75-76, 127, 129 -/
structure SSt (α τ σ : Type) where
  acc : Acc := {}
  st : σ
  hist : List α := []
  histTags : List (Nat × τ) := []
deriving DecidableEq, Repr

/-- `findFirstTriggerTag` of the stream form — StreamToDataSet.hpp:422-427 -/
def findS (c : Cfg τ σ) (s : σ) (tags : List (Nat × τ)) : τ := pick c tags (fun t => (detect c t s).2.any)

/-- `updateHistory` of the stream form for the first `k` samples — StreamToDataSet.hpp:468-514. Without samples before the trigger the tags go
to the merged tag, which is left out, as do the removed ones. -/
def historyS (c : Cfg τ σ) (s : SSt α τ σ) (ins : List α) (tags : List (Nat × τ)) (k : Nat) (copyTags : Bool) : SSt α τ σ :=
  if min k ins.length = 0 then s
  else if c.nPre = 0 then s
  else { s with hist := pushHist c s.hist (ins.take k)
                histTags := (ageTags s.histTags (if copyTags then tags else []) (min k ins.length)).filter (fun t => t.1 ≤ c.nPre) }

/-- what a call of `StreamFilter` does: samples consumed, samples published, tags published with their offset -/
structure OutS (α τ : Type) where
  consumed : Nat
  samples : List α
  tags : List (Nat × τ)
deriving DecidableEq, Repr

/-- the samples before the trigger, `none` when they do not fit — StreamToDataSet.hpp:196-212 -/
def preS (c : Cfg τ σ) (s : SSt α τ σ) (room : Nat) : Option (Acc × List α) :=
  if !s.acc.pre then some (s.acc, [])
  else
    let k := min c.nPre s.hist.length
    if room < k then none
    else some ({ s.acc with pre := false, n := s.acc.n + k }, (s.hist.take k).reverse)

/-- the samples of this call: new state and their number — StreamToDataSet.hpp:214-224 -/
def copyS (a : Acc) (n room : Nat) : Acc × Nat :=
  if !a.post then ({ a with n := a.n + min n room }, min n room)
  else (a.postSamples (min a.remain (min n room)), min a.remain (min n room))

/-- the tags published when at least one sample is — StreamToDataSet.hpp:233-251 -/
def tagsS (c : Cfg τ σ) (histTags tags : List (Nat × τ)) (nPre k : Nat) : List (Nat × τ) :=
  histTags.map (fun t => (if 0 < c.nPre && t.1 < nPre then nPre - t.1 else 0, t.2)) ++
    (tags.filter (fun t => t.1 < k)).map (fun t => (nPre + t.1, t.2))

/-- `processBulkStream` — StreamToDataSet.hpp:178-262 -/
def callS (c : Cfg τ σ) (s : SSt α τ σ) (ins : List α) (tags : List (Nat × τ)) (room : Nat) : SSt α τ σ × OutS α τ :=
  let d := detect c (findS c s.st tags) s.st
  let s := { s with st := d.1, acc := s.acc.update d.2 c.nPre c.nPost }
  if !s.acc.active then (historyS c s ins tags ins.length true, ⟨ins.length, [], []⟩)
  else
    match preS c s room with
    | none => (s, ⟨0, [], []⟩)
    | some (a, pre) =>
      let r := copyS a ins.length (room - pre.length)
      let s := { s with acc := r.1 }
      if pre.length + r.2 = 0 && r.1.active then (s, ⟨0, [], []⟩)
      else
        let published := decide (0 < pre.length + r.2)
        let tg := if published then tagsS c s.histTags tags pre.length r.2 else []
        let s := if published then { s with histTags := [] } else s
        let k := if r.1.active then r.2 else ins.length
        (historyS c s ins tags k (!published), ⟨k, pre ++ ins.take r.2, tg⟩)

/-! ## The standard matcher -/

/-- `BasicTriggerNameCtxMatcher::Filter` for an expression; one that throws (a malformed expression) is not followed further: `ignore` -/
def basic (nPre nPost nMax : Nat) (filter : Verif.Trigger.Str) : Cfg Verif.Trigger.Tag Verif.Trigger.St where
  nPre := nPre
  nPost := nPost
  nMax := nMax
  fresh := Verif.Trigger.St.fresh
  m := fun t s => let r := Verif.Trigger.filter filter t s; (r.1, r.2.getD .ignore, r.1.single.getD false)
  empty := []
  isEmpty := List.isEmpty

end Verif.Sel
