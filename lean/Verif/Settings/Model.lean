import Verif.Work.TagModel
/-!
# Model of the context-dependent block settings

Sources: core/src/Settings.cpp, core/include/gnuradio-4.0/Settings.hpp (`CtxSettingsBase`, `CtxSettings<TBlock>`).

A context name is a natural number, `0` standing for the empty (default) name; the order of the numbers is the order of
`std::map`/`flat_map` iteration. Every clock reading is an explicit argument `now`. `gr::log::fatal` throws (Logger.hpp:198-201): the
functions that may throw return the state reached and a flag. The mutex is not modelled (each operation is atomic), except that
re-entering it is a distinct outcome. A member value and its `pmt::Value` representation are identified.

Not modelled: `meta_information`, `assignFrom`, the value of `_changed` seen by other threads, `loadParametersFromPropertyMap`
(`set` after filtering), wrap-around of `time + 1000` in `resolveDuplicateTimestamp`.
-/
namespace Verif.Settings

open Verif.Work.Tags (Key Map settingsKey insertOrAssign)

/-- `SettingsCtx` — Settings.hpp:40-70 -/
structure Ctx where
  time : Nat
  context : Nat
  deriving DecidableEq, Repr

/-- `CtxSettingsPair` — Settings.hpp:73-76 -/
structure Entry (V : Type) where
  ctx : Ctx
  settings : Map V
  deriving DecidableEq, Repr

/-- `_storedParameters` — Settings.hpp:540: vectors sorted by time, in the order of the context names -/
abbrev Stored (V : Type) := List (Nat × List (Entry V))

/-- `_autoUpdateParameters` — Settings.hpp:543 -/
abbrev Auto := List (Ctx × List Key)

/-- what the code reads from the block type and from its configuration. `writable`: the keys of `parameterSetters`,
`autoUpdateHandlers` and `stagedAppliers`; `readable`: the keys of `activeParameterReaders`/`parameterReaders`; `conv`:
`convertParameter`; `isMono`: `is_monostate`; `tagOk`: `holds<Type>` in `autoUpdateImpl`; `accept`: conversion plus
`validate_and_set` in `applyStagedImpl`, giving the new member value; `best`: result of the retry loop over `_matchPred` (see
`matchLoop`); `expiry`: `expiry_time`; `wasm`: `__EMSCRIPTEN__`; `hasCallback`: `HasSettingsChangedCallback`; `forwards`: membership in
`kDefaultTags` or `_autoForwardParameters`; `tagCtx`: context name and trigger time found in a tag. -/
structure Cfg (V : Type) where
  writable : List Key
  readable : List Key
  conv : Key → V → Option V
  isMono : V → Bool
  tagOk : Key → V → Bool
  accept : Key → V → Option V
  best : List Nat → Nat → Option Nat
  expiry : Nat
  wasm : Bool
  hasCallback : Bool
  forwards : Key → Bool
  tagCtx : Map V → Option (Nat × Option Nat)

/-- the members used by the operations — Settings.hpp:533-560 -/
structure St (V : Type) where
  stored : Stored V
  defaults : Map V
  auto : Auto
  activeCtx : Ctx
  staged : Map V
  active : Map V
  fields : Key → V
  changed : Bool

/-- lookup of a key in a `property_map` -/
def get {V : Type} (m : Map V) (k : Key) : Option V := (m.find? (fun e => decide (e.1 = k))).map (·.2)

/-- `_storedParameters.find(context)` -/
def storedFind {V : Type} (s : Stored V) (c : Nat) : Option (List (Entry V)) :=
  (s.find? (fun e => decide (e.1 = c))).map (·.2)

/-- `_autoUpdateParameters.find(ctx)` -/
def autoFind (a : Auto) (c : Ctx) : Option (List Key) := (a.find? (fun e => decide (e.1 = c))).map (·.2)

/-- `_autoUpdateParameters[ctx] = keys` -/
def autoPut (a : Auto) (c : Ctx) (ks : List Key) : Auto :=
  if a.any (fun e => decide (e.1 = c)) then a.map (fun e => if e.1 = c then (c, ks) else e) else a ++ [(c, ks)]

/-- `_storedParameters[context]` replaced by `v`, inserted in key order when absent -/
def storedPut {V : Type} : Stored V → Nat → List (Entry V) → Stored V
  | [], c, v => [(c, v)]
  | e :: r, c, v => if e.1 = c then (c, v) :: r else if c < e.1 then (c, v) :: e :: r else e :: storedPut r c v

/-! ## Search — Settings.cpp:237-311 -/

/-- one pass over the stored context names: `none` when the predicate said `false` for all of them — Settings.cpp:249-256 -/
def matchPass (pred : Nat → Nat → Nat → Option Bool) (search attempt : Nat) : List Nat → Option (Option Nat)
  | [] => none
  | c :: r =>
    match pred c search attempt with
    | none => some none
    | some true => some (some c)
    | some false => matchPass pred search attempt r

/-- the retry loop; `none`: no decision within `fuel` attempts (the code has no such limit) — Settings.cpp:248-257 -/
def matchLoop (pred : Nat → Nat → Nat → Option Bool) (search : Nat) (cs : List Nat) : Nat → Nat → Option (Option Nat)
  | 0, _ => none
  | fuel + 1, attempt =>
    match matchPass pred search attempt cs with
    | some r => some r
    | none => matchLoop pred search cs fuel (attempt + 1)

/-- `findBestMatchCtx` — Settings.cpp:237-259 -/
def bestCtx {V : Type} (cfg : Cfg V) (s : Stored V) (c : Nat) : Option Nat :=
  if s.isEmpty then none
  else if s.any (fun e => decide (e.1 = c)) then some c
  else cfg.best (s.map (·.1)) c

/-- index returned by `lower_bound` on the times (of a sorted vector) -/
def lowerIdx {V : Type} (v : List (Entry V)) (t : Nat) : Nat := (v.takeWhile (fun e => decide (e.ctx.time < t))).length

/-- index returned by `upper_bound` on the times (of a sorted vector) -/
def upperIdx {V : Type} (v : List (Entry V)) (t : Nat) : Nat := (v.takeWhile (fun e => decide (e.ctx.time ≤ t))).length

/-- the search in the vector of one context — Settings.cpp:267-285 -/
def searchVec {V : Type} (v : List (Entry V)) (t : Nat) : Option Ctx :=
  match v.getLast? with
  | none => none
  | some last =>
    if t = 0 ∨ last.ctx.time ≤ t then some last.ctx
    else match v[lowerIdx v t]? with
      | none => some last.ctx
      | some e =>
        if e.ctx.time = t then some e.ctx
        else if lowerIdx v t ≠ 0 then (v[lowerIdx v t - 1]?).map (·.ctx)
        else none

/-- `findBestMatchSettingsCtx` — Settings.cpp:261-287 -/
def bestSettingsCtx {V : Type} (cfg : Cfg V) (s : Stored V) (ctx : Ctx) : Option Ctx :=
  match bestCtx cfg s ctx.context with
  | none => none
  | some c =>
    match storedFind s c with
    | none => none
    | some v => searchVec v ctx.time

/-- `getBestMatchStoredParameters` — Settings.cpp:289-302 -/
def bestStored {V : Type} (cfg : Cfg V) (s : Stored V) (ctx : Ctx) : Option (Map V) :=
  match bestSettingsCtx cfg s ctx with
  | none => none
  | some b =>
    match storedFind s b.context with
    | none => none
    | some v => (v.find? (fun e => decide (e.ctx = b))).map (·.settings)

/-- `getBestMatchAutoUpdateParameters` — Settings.cpp:304-311 -/
def bestAuto {V : Type} (cfg : Cfg V) (s : Stored V) (a : Auto) (ctx : Ctx) : Option (List Key) :=
  match bestSettingsCtx cfg s ctx with
  | none => none
  | some b => autoFind a b

/-- the clock reading used when a time of zero is given — Settings.cpp:115-120, 180-184 -/
def effTime {V : Type} (cfg : Cfg V) (now t : Nat) : Nat := if t = 0 then (if cfg.wasm then now + 100 else now) else t

/-- the time `getStored` looks up: here the tolerance is added to explicit times too — Settings.cpp:43-48 -/
def queryTime {V : Type} (cfg : Cfg V) (now t : Nat) : Nat := (if t = 0 then now else t) + (if cfg.wasm then 100 else 0)

/-- `getStored({}, ctx)` — Settings.cpp:41-58 -/
def getStored {V : Type} (cfg : Cfg V) (s : St V) (now : Nat) (ctx : Ctx) : Option (Map V) :=
  bestStored cfg s.stored ⟨queryTime cfg now ctx.time, ctx.context⟩

/-! ## Storage and expiry — Settings.cpp:315-386 -/

/-- `resolveDuplicateTimestamp` — Settings.cpp:315-328 -/
def resolveDup {V : Type} (s : Stored V) (ctx : Ctx) : Ctx :=
  match storedFind s ctx.context with
  | none => ctx
  | some v =>
    let lo := lowerIdx v ctx.time
    let up := upperIdx v (ctx.time + 1000)
    if lo ≠ up ∧ lo ≠ v.length then
      match v[up - 1]? with
      | some e => ⟨e.ctx.time + 1, ctx.context⟩
      | none => ctx
    else ctx

/-- create the auto-update set of a context that has none: inherited from the best match, else all writable members —
Settings.cpp:331-341, Settings.hpp:979-989 -/
def ensureAuto {V : Type} (cfg : Cfg V) (s : Stored V) (a : Auto) (ctx : Ctx) : Auto :=
  match autoFind a ctx with
  | some _ => a
  | none =>
    match bestAuto cfg s a ctx with
    | some ks => autoPut a ctx ks
    | none => autoPut a ctx cfg.writable

/-- insertion at `lower_bound` — Settings.cpp:346-347 -/
def insertEntry {V : Type} (v : List (Entry V)) (e : Entry V) : List (Entry V) :=
  v.takeWhile (fun x => decide (x.ctx.time < e.ctx.time)) ++ e :: v.dropWhile (fun x => decide (x.ctx.time < e.ctx.time))

/-- the stored parameters after `addStoredParameters` (its other effect is `ensureAuto`) — Settings.cpp:330-348 -/
def addStored {V : Type} (s : Stored V) (m : Map V) (ctx : Ctx) : Stored V :=
  storedPut s ctx.context (insertEntry ((storedFind s ctx.context).getD []) ⟨ctx, m⟩)

/-- `2^64`, the modulus of `time + expiry_time` -/
def wrap : Nat := 2 ^ 64

/-- `std::numeric_limits<std::uint64_t>::max()`: no expiry -/
def noExpiry : Nat := wrap - 1

/-- the predicate of `remove_if` — Settings.cpp:363 -/
def expired {V : Type} (cfg : Cfg V) (now : Nat) (e : Entry V) : Bool := decide ((e.ctx.time + cfg.expiry) % wrap ≤ now)

/-- the context found at index `i ≥ kept` after `remove_if`: an element that was moved away keeps its time, its string is empty
(libstdc++ moves the string); an expired element is still in place unless it was overwritten, which cannot happen at `i ≥ kept` —
Settings.cpp:363-364 -/
def tailCtx {V : Type} (cfg : Cfg V) (now : Nat) (e : Entry V) : Ctx :=
  if expired cfg now e then e.ctx else ⟨e.ctx.time, 0⟩

/-- erase a list of keys — Settings.cpp:351-355 -/
def eraseAuto (a : Auto) (cs : List Ctx) : Auto := a.filter (fun e => !cs.contains e.1)

/-- number of leading entries dropped by the "keep at least one past set" rule — Settings.cpp:371-384 -/
def dropCount {V : Type} (v : List (Entry V)) (now : Nat) : Nat :=
  let lo := lowerIdx v now
  match v[lo]? with
  | none => v.length - 1
  | some e => if e.ctx.time = now then lo else lo - 1

/-- one round of the loop of `removeExpiredStoredParameters` — Settings.cpp:360-385 -/
def expireVec {V : Type} (cfg : Cfg V) (now : Nat) (v : List (Entry V)) (a : Auto) : List (Entry V) × Auto :=
  let kept := if cfg.expiry = noExpiry then v else v.filter (fun e => !expired cfg now e)
  let a1 := if cfg.expiry = noExpiry then a else eraseAuto a ((v.drop kept.length).map (tailCtx cfg now))
  let n := dropCount kept now
  (kept.drop n, eraseAuto a1 ((kept.take n).map (·.ctx)))

/-- the loop over all contexts -/
def expireAll {V : Type} (cfg : Cfg V) (now : Nat) : Stored V → Auto → Stored V × Auto
  | [], a => ([], a)
  | e :: r, a =>
    let (v, a1) := expireVec cfg now e.2 a
    let (r', a2) := expireAll cfg now r a1
    ((e.1, v) :: r', a2)

/-- `removeExpiredStoredParameters` — Settings.cpp:350-386 -/
def removeExpired {V : Type} (cfg : Cfg V) (now : Nat) (s : Stored V) (a : Auto) : Stored V × Auto :=
  expireAll cfg (if cfg.wasm then now + 100 else now) s a

/-! ## Operations -/

/-- the loop of `set` over the given parameters: new parameters, auto-update set, rejected parameters, threw —
Settings.hpp:994-1010, 313-328 -/
def setLoop {V : Type} (cfg : Cfg V) : Map V → Map V → List Key → Map V → Map V × List Key × Map V × Bool
  | [], m, ks, ret => (m, ks, ret, false)
  | (k, x) :: r, m, ks, ret =>
    if cfg.isMono x then setLoop cfg r m ks ret
    else if cfg.writable.contains (settingsKey k) then
      match cfg.conv (settingsKey k) x with
      | none => (m, ks, ret, true)
      | some y => setLoop cfg r (insertOrAssign m (settingsKey k) y) (ks.filter (fun z => !decide (z = settingsKey k))) ret
    else setLoop cfg r m ks (insertOrAssign ret (settingsKey k) x)

/-- the context a `set` call stores under — Settings.hpp:971-976 -/
def setCtx {V : Type} (cfg : Cfg V) (s : Stored V) (now : Nat) (ctx : Ctx) : Ctx :=
  let c : Ctx := ⟨if ctx.time = 0 then now else ctx.time, ctx.context⟩
  if cfg.wasm then resolveDup s c else c

/-- the parameters a `set` call starts from — Settings.hpp:978 -/
def setBase {V : Type} (cfg : Cfg V) (s : St V) (c : Ctx) : Map V := (bestStored cfg s.stored c).getD s.defaults

/-- the loop of `set` for the context `c` -/
def setResult {V : Type} (cfg : Cfg V) (s : St V) (ps : Map V) (c : Ctx) : Map V × List Key × Map V × Bool :=
  setLoop cfg ps (setBase cfg s c) ((autoFind (ensureAuto cfg s.stored s.auto c) c).getD []) []

/-- `set` for the context `c` with its time filled in; `now'` is the clock reading of the expiry pass — Settings.hpp:977-1026 -/
def setAt {V : Type} (cfg : Cfg V) (s : St V) (now' : Nat) (ps : Map V) (c : Ctx) : St V × Map V × Bool :=
  let r := setResult cfg s ps c
  let a2 := autoPut (ensureAuto cfg s.stored s.auto c) c r.2.1
  if r.2.2.2 then ({ s with auto := a2 }, r.2.2.1, true)
  else
    let x := removeExpired cfg now' (addStored s.stored r.1 c) (ensureAuto cfg s.stored a2 c)
    ({ s with stored := x.1, auto := x.2 }, r.2.2.1, false)

/-- `set`: state, parameters that are not members, threw — Settings.hpp:967-1026 -/
def set {V : Type} (cfg : Cfg V) (s : St V) (now now' : Nat) (ps : Map V) (ctx : Ctx) : St V × Map V × Bool :=
  setAt cfg s now' ps (setCtx cfg s.stored now ctx)

/-- `doSetStagedImpl`: staged parameters and threw — Settings.hpp:600-620 -/
def stageLoop {V : Type} (cfg : Cfg V) : Map V → Map V → Map V × Bool
  | [], m => (m, false)
  | (k, x) :: r, m =>
    if cfg.writable.contains (settingsKey k) then
      match cfg.conv (settingsKey k) x with
      | none => (m, true)
      | some y => stageLoop cfg r (insertOrAssign m (settingsKey k) y)
    else stageLoop cfg r m

/-- `setStaged` — Settings.cpp:107-110, Settings.hpp:600-620 -/
def setStaged {V : Type} (cfg : Cfg V) (s : St V) (ps : Map V) : St V × Bool :=
  let (m, threw) := stageLoop cfg ps s.staged
  ({ s with staged := m, changed := if threw then s.changed else s.changed || !m.isEmpty }, threw)

/-- `map::insert(range)`: keys already present keep their value -/
def insertMissing {V : Type} (m : Map V) (r : Map V) : Map V :=
  r.foldl (fun acc e => if acc.any (fun x => decide (x.1 = e.1)) then acc else acc ++ [e]) m

/-- `activateContext` with the time already resolved: state, returned context, threw — Settings.cpp:122-166 -/
def activateAt {V : Type} (cfg : Cfg V) (s : St V) (ctx : Ctx) : St V × Option Ctx × Bool :=
  match bestSettingsCtx cfg s.stored ctx with
  | none => (s, none, false)
  | some b =>
    if b = s.activeCtx then (s, some b, false)
    else match bestStored cfg s.stored ctx with
      | none => (s, if b.context = s.activeCtx.context then some b else none, false)
      | some ps =>
        if b.context = s.activeCtx.context then
          let a := ensureAuto cfg s.stored s.auto b
          let fixedPs := ps.filter (fun e => !((autoFind a b).getD []).contains e.1)
          let (s1, threw) := setStaged cfg { s with auto := a } fixedPs
          if threw then (s1, some b, true)
          else ({ s1 with activeCtx := b, changed := true }, some b, false)
        else ({ s with staged := insertMissing s.staged ps, activeCtx := b, changed := true }, some b, false)

/-- `activateContext` — Settings.cpp:114-167 -/
def activate {V : Type} (cfg : Cfg V) (s : St V) (now : Nat) (ctx : Ctx) : St V × Option Ctx × Bool :=
  activateAt cfg s ⟨effTime cfg now ctx.time, ctx.context⟩

/-- removal of the first entry with the given time -/
def eraseTime {V : Type} : List (Entry V) → Nat → List (Entry V)
  | [], _ => []
  | e :: r, t => if e.ctx.time = t then r else e :: eraseTime r t

/-- the stored parameters after erasing that entry; a context without entries is erased too — Settings.cpp:192-196 -/
def dropTime {V : Type} (s : Stored V) (c : Nat) (v : List (Entry V)) (t : Nat) : Stored V :=
  if (eraseTime v t).isEmpty then s.filter (fun e => !decide (e.1 = c)) else storedPut s c (eraseTime v t)

/-- `removeContext`: state, result, threw — Settings.cpp:169-203 -/
def removeContext {V : Type} (cfg : Cfg V) (s : St V) (now now' : Nat) (ctx : Ctx) : St V × Bool × Bool :=
  if ctx.context = 0 then (s, false, false)
  else match storedFind s.stored ctx.context with
    | none => (s, false, false)
    | some v =>
      let t := effTime cfg now ctx.time
      if v.any (fun e => decide (e.ctx.time = t)) then
        let s1 := { s with stored := dropTime s.stored ctx.context v t }
        if s.activeCtx.context = ctx.context then
          let r := activate cfg s1 now' ⟨0, 0⟩
          (r.1, !r.2.2, r.2.2)
        else (s1, true, false)
      else (s, false, false)

/-- the loop of `autoUpdate` over the tag: staged parameters and `wasChanged` — Settings.hpp:1128-1146, 330-368 -/
def tagLoop {V : Type} [DecidableEq V] (cfg : Cfg V) (active : Map V) (ctxChanged : Bool) (ks : List Key) :
    Map V → Map V → Bool → Map V × Bool
  | [], m, ch => (m, ch)
  | (k, x) :: r, m, ch =>
    let f := settingsKey k
    if !cfg.writable.contains f then tagLoop cfg active ctxChanged ks r m ch
    else if !ctxChanged && decide (get active f = some x) then tagLoop cfg active ctxChanged ks r m ch
    else if ks.contains f && cfg.tagOk f x then tagLoop cfg active ctxChanged ks r (insertOrAssign m f x) true
    else tagLoop cfg active ctxChanged ks r m ch

/-- the fast-path test — Settings.hpp:1053-1077 -/
def relevant {V : Type} (cfg : Cfg V) (tag : Map V) : Bool :=
  tag.any (fun e => cfg.writable.contains (settingsKey e.1) ||
    decide (settingsKey e.1 = "context".toList) || decide (settingsKey e.1 = "trigger_time".toList))

/-- the auto-update set used for `ctx`: `try_emplace` first creates an *empty* set, which the following search may find —
Settings.hpp:1109-1120 -/
def tagAuto {V : Type} (cfg : Cfg V) (s : Stored V) (a : Auto) (ctx : Ctx) : Auto :=
  match autoFind a ctx with
  | some _ => a
  | none =>
    let a1 := autoPut a ctx []
    match bestAuto cfg s a1 ctx with
    | some ks => autoPut a1 ctx ks
    | none => autoPut a1 ctx cfg.writable

/-- the context of a tag with its time filled in — Settings.cpp:420-437 -/
def tagCtxOf {V : Type} (cfg : Cfg V) (now : Nat) (tag : Map V) : Option Ctx :=
  (cfg.tagCtx tag).map (fun p => ⟨if p.2.getD 0 = 0 then now else p.2.getD 0, p.1⟩)

/-- the context switch asked for by a tag: state, context found, threw — Settings.hpp:1092-1105 -/
def tagActivate {V : Type} (cfg : Cfg V) (s : St V) (now : Nat) (tag : Map V) : St V × Option Ctx × Bool :=
  match tagCtxOf cfg now tag with
  | none => (s, none, false)
  | some c => activate cfg s now c

/-- `autoUpdate` — Settings.hpp:1047-1153; second component: threw -/
def autoUpdate {V : Type} [DecidableEq V] (cfg : Cfg V) (s : St V) (now : Nat) (tag : Map V) : St V × Bool :=
  if !relevant cfg tag then
    ({ s with changed := if s.staged.isEmpty then false else s.changed }, false)
  else
    let r := tagActivate cfg s now tag
    if r.2.2 then (r.1, true)
    else
      let ctx := r.2.1.getD r.1.activeCtx
      let ctxChanged := !decide (s.activeCtx = ctx)
      let a := tagAuto cfg r.1.stored r.1.auto ctx
      let l := tagLoop cfg r.1.active ctxChanged ((autoFind a ctx).getD []) tag r.1.staged false
      let c' := if (tagCtxOf cfg now tag).isNone && !l.2 && l.1.isEmpty then false else if ctxChanged || l.2 then true else r.1.changed
      ({ r.1 with auto := a, staged := l.1, changed := c' }, false)

/-- `updateActiveParametersImpl`/`storeCurrentParameters` — Settings.hpp:1241-1258 -/
def readFields {V : Type} (cfg : Cfg V) (fields : Key → V) (m : Map V) : Map V :=
  cfg.readable.foldl (fun acc k => insertOrAssign acc k (fields k)) m

/-- state of the loop of `applyStagedParameters` -/
structure ApplyAcc (V : Type) where
  fields : Key → V
  applied : Map V
  forward : Map V

/-- one staged parameter — Settings.hpp:1174-1183, 650-732 -/
def applyStep {V : Type} (cfg : Cfg V) (acc : ApplyAcc V) (e : Key × V) : ApplyAcc V :=
  if cfg.writable.contains e.1 then
    let fwd := if cfg.forwards e.1 then insertOrAssign acc.forward e.1 e.2 else acc.forward
    match cfg.accept e.1 e.2 with
    | none => ⟨acc.fields, acc.applied, fwd⟩
    | some w => ⟨fun k => if k = e.1 then w else acc.fields k, insertOrAssign acc.applied e.1 e.2, fwd⟩
  else acc

/-- `gr::tag::RESET_DEFAULTS` as a `string_view` — Tag.hpp:126, 177 -/
def resetKey : Key := "gr:reset_default".toList
/-- `gr::tag::STORE_DEFAULTS` as a `string_view` — Tag.hpp:126, 178 -/
def storeKey : Key := "gr:store_default".toList

/-- `applyStagedParameters`: `none` when the mutex would be locked twice (`resetDefaults` calls `applyStagedParameters` again). `cb` is
the effect of the user's `settingsChanged` on the members, called only when at least one parameter was applied —
Settings.hpp:1155-1212 -/
def apply {V : Type} (cfg : Cfg V) (s : St V) (cb : (Key → V) → Key → V) : Option (St V × Map V × Map V) :=
  if s.staged.any (fun e => decide (e.1 = resetKey)) then none
  else
    let r := s.staged.foldl (applyStep cfg) ⟨s.fields, [], []⟩
    let act1 := readFields cfg r.fields s.active
    let f2 := if cfg.hasCallback && !r.applied.isEmpty then cb r.fields else r.fields
    let act2 := readFields cfg f2 act1
    let d := if s.staged.any (fun e => decide (e.1 = storeKey)) then readFields cfg f2 s.defaults else s.defaults
    some ({ s with fields := f2, active := act2, defaults := d, staged := [], changed := false }, r.applied, r.forward)

/-- `storeDefaults` — Settings.hpp:1028 -/
def storeDefaults {V : Type} (cfg : Cfg V) (s : St V) : St V := { s with defaults := readFields cfg s.fields s.defaults }

/-- `resetDefaults`, first half: the defaults are stored as a new set — Settings.hpp:1031-1036 -/
def resetStore {V : Type} (cfg : Cfg V) (s : St V) (n1 : Nat) : St V :=
  let c : Ctx := if cfg.wasm then resolveDup s.stored ⟨n1, 0⟩ else ⟨n1, 0⟩
  { s with stored := addStored s.stored s.defaults c, auto := ensureAuto cfg s.stored s.auto c }

/-- the expiry pass on a state -/
def expireSt {V : Type} (cfg : Cfg V) (s : St V) (now : Nat) : St V :=
  { s with stored := (removeExpired cfg now s.stored s.auto).1, auto := (removeExpired cfg now s.stored s.auto).2 }

/-- `resetDefaults` with the clock readings `n1`, `n2`, `n3`; `none` as for `apply`; the flag tells that it threw —
Settings.hpp:1030-1045 -/
def resetDefaults {V : Type} (cfg : Cfg V) (s : St V) (n1 n2 n3 : Nat) (cb : (Key → V) → Key → V) : Option (St V × Bool) :=
  let r := activate cfg (resetStore cfg s n1) n2 ⟨0, 0⟩
  if r.2.2 then some (r.1, true)
  else (apply cfg r.1 cb).map (fun x => (expireSt cfg x.1 n3, false))

/-! ## Runs -/

/-- one API call with the clock readings it makes -/
inductive Op (V : Type) where
  | set (now now' : Nat) (ps : Map V) (ctx : Ctx)
  | setStaged (ps : Map V)
  | activate (now : Nat) (ctx : Ctx)
  | remove (now now' : Nat) (ctx : Ctx)
  | tag (now : Nat) (tag : Map V)
  | apply (cb : (Key → V) → Key → V)
  | storeDefaults
  | reset (n1 n2 n3 : Nat) (cb : (Key → V) → Key → V)
  | touch (f : Key → V)

/-- one call; `touch` is the block changing its own members -/
def step {V : Type} [DecidableEq V] (cfg : Cfg V) (s : St V) : Op V → Option (St V)
  | .set n n' ps c => some (set cfg s n n' ps c).1
  | .setStaged ps => some (setStaged cfg s ps).1
  | .activate n c => some (activate cfg s n c).1
  | .remove n n' c => some (removeContext cfg s n n' c).1
  | .tag n t => some (autoUpdate cfg s n t).1
  | .apply cb => (apply cfg s cb).map (·.1)
  | .storeDefaults => some (storeDefaults cfg s)
  | .reset n1 n2 n3 cb => (resetDefaults cfg s n1 n2 n3 cb).map (·.1)
  | .touch f => some { s with fields := f }

/-- a sequence of calls -/
def run {V : Type} [DecidableEq V] (cfg : Cfg V) (s : St V) : List (Op V) → Option (St V)
  | [] => some s
  | o :: r => (step cfg s o).bind (fun s' => run cfg s' r)

/-- a freshly constructed object: nothing stored, active context `{0, ""}` — Settings.hpp:533-560 -/
def St.fresh {V : Type} (fields : Key → V) : St V := ⟨[], [], [], ⟨0, 0⟩, [], [], fields, false⟩

end Verif.Settings
