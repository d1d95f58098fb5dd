/-!
# Trigger expressions — model of core/include/gnuradio-4.0/TriggerMatcher.hpp

Strings are lists of characters. The matcher keeps its state in a `property_map`; here it is a structure with one field per key.
-/
namespace Verif.Trigger

abbrev Str := List Char

/-- `MatchResult` — TriggerMatcher.hpp:13-17 -/
inductive Result where
  | matching | notMatching | ignore
deriving DecidableEq, Repr

/-- the characters `trim` removes — TriggerMatcher.hpp:70, 75 -/
def isWs (c : Char) : Bool := c = ' ' || c = '\t' || c = '\n' || c = '\r' || c = '\x0c' || c = '\x0b'

/-- `trim` — TriggerMatcher.hpp:69-77 -/
def trim (s : Str) : Str := ((s.dropWhile isWs).reverse.dropWhile isWs).reverse

/-- name, context and their `^` flags of one side of an expression -/
structure Part where
  name : Str
  nameEnds : Bool
  ctx : Str
  ctxEnds : Bool
deriving DecidableEq, Repr

/-- the values set before parsing — TriggerMatcher.hpp:155-162 -/
def Part.none : Part := ⟨[], false, [], false⟩

/-- split at the first `c`: text before, and text after when there is one -/
def splitAt (c : Char) (s : Str) : Str × Option Str :=
  match s.dropWhile (fun x => x != c) with
  | [] => (s, Option.none)
  | _ :: r => (s.takeWhile (fun x => x != c), some r)

/-- removal of a leading `^`: flag and the text after it — TriggerMatcher.hpp:88-93, 96-98 -/
def caret (s : Str) : Bool × Str :=
  match s with
  | '^' :: r => (true, trim r)
  | _ => (false, s)

/-- `detail::parse`, `none` when it throws; without a separator the context flag keeps its old value — TriggerMatcher.hpp:79-101 -/
def parse (s : Str) (old : Part) : Option Part :=
  match splitAt '/' s with
  | (a, some b) =>
    if b.contains '/' then Option.none
    else some ⟨(caret (trim a)).2, (caret (trim a)).1, (caret (trim b)).2, (caret (trim b)).1⟩
  | (_, Option.none) => some ⟨(caret (trim s)).2, (caret (trim s)).1, [], old.ctxEnds⟩

/-- the state kept between calls — TriggerMatcher.hpp:106-122 -/
structure St where
  filter : Option Str
  startDef : Bool
  stopDef : Bool
  start : Part
  stop : Part
  active : Bool
  waitStart : Bool
  waitStop : Bool
  single : Option Bool
deriving DecidableEq, Repr

/-- an empty `property_map` -/
def St.fresh : St := ⟨Option.none, false, false, .none, .none, false, false, false, Option.none⟩

/-- `isSingleTrigger` — TriggerMatcher.hpp:130-143 -/
def St.isSingle (s : St) : Bool := s.startDef != s.stopDef

/-- the state after the defaults were written — TriggerMatcher.hpp:151-165, 124-128 -/
def St.defaults (s : St) (crit : Str) : St := ⟨some crit, false, false, .none, .none, false, false, false, s.single⟩

/-- the expression without its brackets, `none` when they are unmatched — TriggerMatcher.hpp:170-175 -/
def strip (c : Str) : Option Str :=
  if c.head? = some '[' && c.getLast? = some ']' then some ((c.drop 1).take (c.length - 2))
  else if (c.head? = some '[') != (c.getLast? = some ']') then Option.none
  else some c

/-- the two sides — TriggerMatcher.hpp:177-184 -/
def sides (c : Str) : Str × Str :=
  match splitAt ',' c with
  | (a, some b) => (trim a, trim b)
  | (_, Option.none) => (c, [])

/-- the start side — TriggerMatcher.hpp:186-200; `none`: threw -/
def setStart (s : St) (part : Str) : Option St :=
  if part ≠ [] then (parse part s.start).map (fun p => { s with start := p, startDef := true })
  else some { s with start := { s.start with name := [], ctx := [] } }

/-- the stop side — TriggerMatcher.hpp:202-216 -/
def setStop (s : St) (part : Str) : Option St :=
  if part ≠ [] then (parse part s.stop).map (fun p => { s with stop := p, stopDef := true })
  else some { s with stop := { s.stop with name := [], ctx := [] } }

/-- only a stop side was given: it becomes the start side, the `^` flags stay where they are — TriggerMatcher.hpp:218-230 -/
def swapSingle (s : St) : St :=
  if s.isSingle && s.stopDef then
    { s with start := { s.start with name := s.stop.name, ctx := s.stop.ctx }, stop := { s.stop with name := [], ctx := [] } }
  else s

/-- both sides equal: a single trigger — TriggerMatcher.hpp:234-243 -/
def collapse (s : St) : St :=
  if s.start.name = s.stop.name && s.start.ctx = s.stop.ctx then
    { s with startDef := true, stopDef := false, stop := { s.stop with name := [], ctx := [] } }
  else s

/-- the record of the kind — TriggerMatcher.hpp:245-251 -/
def record (s : St) : St := { s with single := some s.isSingle }

/-- `verifyFilterState`: state and whether it threw — TriggerMatcher.hpp:145-252 -/
def verify (crit : Str) (s : St) : St × Bool :=
  if s.filter = some crit then (s, false)
  else
    let d := s.defaults crit
    if crit = [] then (d, false)
    else match strip crit with
      | Option.none => (d, true)
      | some c =>
        match setStart d (sides c).1 with
        | Option.none => (d, true)
        | some s1 =>
          match setStop s1 (sides c).2 with
          | Option.none => (s1, true)
          | some s2 => (record (collapse (swapSingle s2)), false)

/-- a tag map; `none` is a value that is not a string -/
abbrev Tag := List (Str × Option Str)

/-- `readTagString`: first with the prefix, then without — TriggerMatcher.hpp:275-281, Tag.hpp:115-128 -/
def readTag (t : Tag) (key : Str) : Str :=
  match t.find? (fun e => e.1 = "gr:".toList ++ key) with
  | some e => e.2.getD []
  | Option.none => match t.find? (fun e => e.1 = key) with
    | some e => e.2.getD []
    | Option.none => []

/-- `hay.contains(needle)` -/
def occurs (needle : Str) : Str → Bool
  | [] => needle.isEmpty
  | c :: r => needle.isPrefixOf (c :: r) || occurs needle r

/-- name test — TriggerMatcher.hpp:288, 301, 315 -/
def nameMatch (p : Part) (t : Tag) : Bool := p.name.isEmpty || readTag t "trigger_name".toList = p.name
/-- context test of the two-sided form — TriggerMatcher.hpp:302, 316 -/
def ctxMatch (p : Part) (t : Tag) : Bool := p.ctx.isEmpty || occurs p.ctx (readTag t "context".toList)
/-- context test of the one-sided form: the other way round — TriggerMatcher.hpp:289 -/
def ctxMatchSingle (p : Part) (t : Tag) : Bool := p.ctx.isEmpty || occurs (readTag t "context".toList) p.ctx

/-- `reset` — TriggerMatcher.hpp:124-128 -/
def St.reset (s : St) : St := { s with active := false, waitStart := false, waitStop := false }

/-- the two-sided form — TriggerMatcher.hpp:297-333 -/
def filterRange (s : St) (t : Tag) : St × Result :=
  if !s.active || s.waitStart then
    if nameMatch s.start t && ctxMatch s.start t then
      let w := s.start.nameEnds || s.start.ctxEnds
      ({ s with active := true, waitStart := w }, if w then .ignore else .matching)
    else if s.waitStart then ({ s with waitStart := false }, .matching)
    else (s, .ignore)
  else
    let m := nameMatch s.stop t && ctxMatch s.stop t
    if m || s.waitStop then
      let w := s.stop.nameEnds || s.stop.ctxEnds
      if !w then (s.reset, .notMatching)
      else if !m then (s.reset, .notMatching)
      else ({ s with waitStop := w }, .ignore)
    else (s, .ignore)

/-- `filter` after the state was brought up to date — TriggerMatcher.hpp:260-336 -/
def filterBody (s : St) (t : Tag) : St × Result :=
  if (!s.startDef && !s.stopDef) || t.isEmpty then (s, .ignore)
  else if s.isSingle && nameMatch s.start t && ctxMatchSingle s.start t then
    ({ s with waitStart := s.start.nameEnds || s.start.ctxEnds }, .matching)
  else if s.startDef && s.stopDef then filterRange s t
  else (s, .ignore)

/-- `filter`; `none`: threw — TriggerMatcher.hpp:254-336 -/
def filter (crit : Str) (t : Tag) (s : St) : St × Option Result :=
  let v := verify crit s
  if v.2 then (v.1, Option.none) else ((filterBody v.1 t).1, some (filterBody v.1 t).2)

/-- calls with the same expression for a sequence of tags -/
def run (crit : Str) : St → List Tag → List (Option Result)
  | _, [] => []
  | s, t :: r => (filter crit t s).2 :: run crit (filter crit t s).1 r

end Verif.Trigger
