import Verif.LifeCycle.Model
/-!
# Model of the message interface of a block

core/include/gnuradio-4.0/Message.hpp, core/include/gnuradio-4.0/Block.hpp (`processScheduledMessages`, `processMessages`,
`notifyListeners`) and core/src/Block.cpp (the twelve standard properties).

Simplified: texts of error messages become the constructors of `Err`; the values inside nested maps are opaque numbers; the order
in which the listeners of one property are notified (sorted by client in the code) is the order of subscription here.
-/
namespace Verif.Msg
open Verif.LifeCycle (State)

/-- `enum class Command` (`part`: Partial, `fin`: Final) — Message.hpp:24-36 -/
inductive Cmd where
  | invalid | get | set | part | fin | ready | disconnect | subscribe | unsubscribe | notify | heartbeat
  deriving DecidableEq, Repr

/-- The values of a `property_map` which the callbacks look at — Value.hpp; others are `other` -/
inductive Val where
  | str (s : String) | u64 (n : Nat) | keys (l : List String) | map (m : List (String × Nat)) | other (n : Nat)
  deriving DecidableEq, Repr

/-- `property_map` — Tag.hpp -/
abbrev Body := List (String × Val)

/-- The exceptions of the callbacks, one constructor for each text — Block.cpp:40-443; `user` is thrown by the settings or by user code -/
inductive Err where
  | command | noData | noState | stateType | stateName (s : String) | transition | notSet (keys : List String)
  | noContext | contextType | activate | defaultContext | removeContext | user (n : Nat)
  deriving DecidableEq, Repr

/-- `std::expected<property_map, Error> data` — Message.hpp:61 -/
inductive Data where
  | ok (b : Body)
  | error (e : Err)
  deriving DecidableEq, Repr

/-- `struct Message` — Message.hpp:53-62 -/
structure Msg where
  protocol : String := "MDPW03"
  cmd : Cmd := .notify
  service : String := ""
  client : String := ""
  endpoint : String := ""
  data : Data := .ok []
  rbac : String := ""
  deriving DecidableEq, Repr

/-- What the callbacks need of the block behind them: the function pointers of `BlockBase` — Block.hpp:482-488, 508-514 — and the
functions of `SettingsBase` they call. The theorems hold for every choice of these functions. A changing function gives the new state and may
throw. `now` is the system clock. -/
structure Owner (σ : Type) where
  now : σ → Nat
  state : σ → State
  changeState : σ → State → σ × Except Err Bool
  get : σ → Body
  staged : σ → Body
  stage : σ → Body → σ × Except Err (List String)
  storeDefaults : σ → σ × Except Err Unit
  resetDefaults : σ → σ × Except Err Unit
  active : σ → String × Nat
  activate : σ → String → Nat → σ × Except Err Bool
  stored : σ → List String → String → Nat → Option (List (String × Nat))
  storedAll : σ → List (String × Nat)
  setIn : σ → List (String × Nat) → String → Nat → σ × Except Err (List (String × Nat))
  remove : σ → String → Nat → σ × Except Err Bool
  metaInfo : σ → Body
  ui : σ → Body

/-- A block: what its owner holds, and `propertySubscriptions` — Block.hpp:502 — as pairs of property and client -/
structure Blk (σ : Type) where
  own : σ
  subs : List (String × String) := []

/-- What a property callback does: it returns a message or nothing, or throws — Block.hpp:475 -/
inductive Out where
  | reply (m : Msg)
  | silent
  | threw (e : Err)
  deriving DecidableEq, Repr

/-- `BlockBase::PropertyCallback` — Block.hpp:475 -/
abbrev Handler (σ : Type) := Blk σ → Msg → Blk σ × Out

/-- `dataMap.find` — ValueMap.hpp -/
def find (k : String) : Body → Option Val
  | [] => none
  | (k', v) :: r => if k' = k then some v else find k r

/-- `propertySubscriptions[p].insert(c)` unless `c` is empty — Block.cpp:31-33 and the five copies -/
def Blk.subscribe {σ : Type} (b : Blk σ) (p c : String) : Blk σ :=
  if c = "" then b else if (p, c) ∈ b.subs then b else { b with subs := b.subs ++ [(p, c)] }

/-- `propertySubscriptions[p].erase(c)` — Block.cpp:36 and the five copies -/
def Blk.unsubscribe {σ : Type} (b : Blk σ) (p c : String) : Blk σ := { b with subs := b.subs.filter (· ≠ (p, c)) }

/-- `gr::meta::enumName` on `lifecycle::State` — LifeCycle.hpp:74 -/
def stateName : State → String
  | .idle => "IDLE" | .initialised => "INITIALISED" | .running => "RUNNING" | .requestedPause => "REQUESTED_PAUSE"
  | .paused => "PAUSED" | .requestedStop => "REQUESTED_STOP" | .stopped => "STOPPED" | .error => "ERROR"

/-- `gr::meta::parseEnum<lifecycle::State>` — meta/reflection.hpp:520-530 -/
def parseState (s : String) : Option State :=
  [State.idle, .initialised, .running, .requestedPause, .paused, .requestedStop, .stopped, .error].find? (fun st => stateName st = s)

section callbacks
variable {σ : Type} (o : Owner σ)

/-- `propertyCallbackHeartbeat` — Block.cpp:22-41 -/
def heartbeatCb : Handler σ := fun b m =>
  match m.cmd with
  | .set | .get => (b, .reply { m with data := .ok [("heartbeat", .u64 (o.now b.own))] })
  | .subscribe => (b.subscribe "Heartbeat" m.client, .silent)
  | .unsubscribe => (b.unsubscribe "Heartbeat" m.client, .silent)
  | _ => (b, .threw .command)

/-- `propertyCallbackEcho` — Block.cpp:43-52 -/
def echoCb : Handler σ := fun b m =>
  match m.cmd with
  | .set => (b, .reply m)
  | _ => (b, .threw .command)

/-- The `Set` branch of `propertyCallbackLifecycleState` — Block.cpp:58-85 -/
def lifecycleSet : Handler σ := fun b m =>
  match m.data with
  | .error _ => (b, .threw .noState)
  | .ok body =>
    match find "state" body with
    | none => (b, .threw .noState)
    | some (.str s) =>
      match parseState s with
      | none => (b, .threw (.stateName s))
      | some st =>
        match o.changeState b.own st with
        | (s', .ok true) => ({ b with own := s' }, .silent)
        | (s', .ok false) => ({ b with own := s' }, .threw .transition)
        | (s', .error e) => ({ b with own := s' }, .threw e)
    | some _ => (b, .threw .stateType)

/-- `propertyCallbackLifecycleState` — Block.cpp:54-105 -/
def lifecycleCb : Handler σ := fun b m =>
  match m.cmd with
  | .set => lifecycleSet o b m
  | .get => (b, .reply { m with data := .ok [("state", .str (stateName (o.state b.own)))] })
  | .subscribe => (b.subscribe "LifecycleState" m.client, .silent)
  | .unsubscribe => (b.unsubscribe "LifecycleState" m.client, .silent)
  | _ => (b, .threw .command)

/-- The `Set` branch of `propertyCallbackStagedSettings` — Block.cpp:149-166 -/
def stagedSet : Handler σ := fun b m =>
  match m.data with
  | .error _ => (b, .threw .noData)
  | .ok body =>
    match o.stage b.own body with
    | (s', .error e) => ({ b with own := s' }, .threw e)
    | (s', .ok []) =>
      ({ b with own := s' }, if m.client = "" then .silent else .reply { m with cmd := .fin, data := .ok (o.staged s') })
    | (s', .ok ks) => ({ b with own := s' }, .threw (.notSet ks))

/-- `propertyCallbackStagedSettings` — Block.cpp:135-181 -/
def stagedCb : Handler σ := fun b m =>
  match m.cmd with
  | .set => stagedSet o b m
  | .get => (b, .reply { m with data := .ok (o.staged b.own) })
  | .subscribe => (b.subscribe "StagedSettings" m.client, .silent)
  | .unsubscribe => (b.unsubscribe "StagedSettings" m.client, .silent)
  | _ => (b, .threw .command)

/-- The `Set` branch of `propertyCallbackSettings` and of `propertyCallbackUiConstraints`: stage, and drop the returned message — Block.cpp:111-118, 422-429 -/
def stageAndDrop : Handler σ := fun b m =>
  match m.data with
  | .error _ => (b, .threw .noData)
  | .ok _ =>
    match stagedSet o b m with
    | (b', .threw e) => (b', .threw e)
    | (b', _) => (b', .silent)

/-- `propertyCallbackSettings` — Block.cpp:107-133 -/
def settingsCb : Handler σ := fun b m =>
  match m.cmd with
  | .set => stageAndDrop o b m
  | .get => (b, .reply { m with data := .ok (o.get b.own) })
  | .subscribe => (b.subscribe "Settings" m.client, .silent)
  | .unsubscribe => (b.unsubscribe "Settings" m.client, .silent)
  | _ => (b, .threw .command)

/-- `propertyCallbackStoreDefaults` — Block.cpp:183-193 -/
def storeDefaultsCb : Handler σ := fun b m =>
  match m.cmd with
  | .set =>
    match o.storeDefaults b.own with
    | (s', .ok _) => ({ b with own := s' }, .silent)
    | (s', .error e) => ({ b with own := s' }, .threw e)
  | _ => (b, .threw .command)

/-- `propertyCallbackResetDefaults` — Block.cpp:195-205 -/
def resetDefaultsCb : Handler σ := fun b m =>
  match m.cmd with
  | .set =>
    match o.resetDefaults b.own with
    | (s', .ok _) => ({ b with own := s' }, .silent)
    | (s', .error e) => ({ b with own := s' }, .threw e)
  | _ => (b, .threw .command)

/-- The context named in a message: `gr:context`, else `context` — Block.cpp:218-235, 282-299; Tag.hpp:121-122, 174 -/
def contextOf (body : Body) : Except Err String :=
  match find "gr:context" body with
  | some (.str s) => .ok s
  | some _ => .error .contextType
  | none =>
    match find "context" body with
    | some (.str s) => .ok s
    | some _ => .error .contextType
    | none => .error .noContext

/-- The time named in a message: `gr:ctx_time`, else `ctx_time`, else 0; 0 for a value of another type — Block.cpp:237-248, 301-312; Tag.hpp:175 -/
def timeOf (body : Body) : Nat :=
  match find "gr:ctx_time" body with
  | some (.u64 n) => n
  | some _ => 0
  | none =>
    match find "ctx_time" body with
    | some (.u64 n) => n
    | _ => 0

/-- The message with the active context as its data — Block.cpp:260-267 -/
def activeReply (b : Blk σ) (m : Msg) : Out :=
  .reply { m with data := .ok [("gr:context", .str (o.active b.own).1), ("gr:ctx_time", .u64 (o.active b.own).2)] }

/-- `propertyCallbackActiveContext` — Block.cpp:207-270 -/
def activeContextCb : Handler σ := fun b m =>
  match m.cmd with
  | .set =>
    match m.data with
    | .error _ => (b, .threw .noData)
    | .ok body =>
      match contextOf body with
      | .error e => (b, .threw e)
      | .ok ctx =>
        match o.activate b.own ctx (timeOf body) with
        | (s', .ok true) => ({ b with own := s' }, activeReply o { b with own := s' } m)
        | (s', .ok false) => ({ b with own := s' }, .threw .activate)
        | (s', .error e) => ({ b with own := s' }, .threw e)
  | .get => (b, activeReply o b m)
  | _ => (b, .threw .command)

/-- The keys asked for in a `Get` — Block.cpp:321-333 -/
def askedKeys (body : Body) : List String :=
  match find "parameters" body with
  | some (.keys l) => l
  | _ => []

/-- The parameters given in a `Set` — Block.cpp:342-348 -/
def givenParameters (body : Body) : List (String × Nat) :=
  match find "parameters" body with
  | some (.map l) => l
  | _ => []

/-- `propertyCallbackSettingsCtx` once the context is known — Block.cpp:314-366 -/
def settingsCtxBody (b : Blk σ) (m : Msg) (body : Body) (ctx : String) : Blk σ × Out :=
  match m.cmd with
  | .get => (b, .reply { m with data := .ok [("parameters", .map ((o.stored b.own (askedKeys body) ctx (timeOf body)).getD []))] })
  | .set =>
    match o.setIn b.own (givenParameters body) ctx (timeOf body) with
    | (s', .ok failed) => ({ b with own := s' }, .reply { m with data := .ok [("failed_to_set", .map failed)] })
    | (s', .error e) => ({ b with own := s' }, .threw e)
  | .disconnect =>
    if ctx = "" then (b, .threw .defaultContext)
    else
      match o.remove b.own ctx (timeOf body) with
      | (s', .ok true) => ({ b with own := s' }, .reply m)
      | (s', .ok false) => ({ b with own := s' }, .threw .removeContext)
      | (s', .error e) => ({ b with own := s' }, .threw e)
  | _ => (b, .threw .command)

/-- `propertyCallbackSettingsCtx` — Block.cpp:272-367 -/
def settingsCtxCb : Handler σ := fun b m =>
  match m.data with
  | .error _ => (b, .threw .noData)
  | .ok body =>
    match contextOf body with
    | .error e => (b, .threw e)
    | .ok ctx => settingsCtxBody o b m body ctx

/-- `propertyCallbackSettingsContexts` — Block.cpp:369-393 -/
def settingsContextsCb : Handler σ := fun b m =>
  match m.cmd with
  | .get => (b, .reply { m with data := .ok [("contexts", .keys ((o.storedAll b.own).map (·.1))), ("times", .map (o.storedAll b.own))] })
  | _ => (b, .threw .command)

/-- `propertyCallbackMetaInformation` — Block.cpp:395-416 -/
def metaCb : Handler σ := fun b m =>
  match m.cmd with
  | .get => (b, .reply { m with data := .ok (o.metaInfo b.own) })
  | .subscribe => (b.subscribe "MetaInformation" m.client, .silent)
  | .unsubscribe => (b.unsubscribe "MetaInformation" m.client, .silent)
  | _ => (b, .threw .command)

/-- `propertyCallbackUiConstraints` — Block.cpp:418-444 -/
def uiCb : Handler σ := fun b m =>
  match m.cmd with
  | .set => stageAndDrop o b m
  | .get => (b, .reply { m with data := .ok (o.ui b.own) })
  | .subscribe => (b.subscribe "UiConstraints" m.client, .silent)
  | .unsubscribe => (b.unsubscribe "UiConstraints" m.client, .silent)
  | _ => (b, .threw .command)

/-- `initStandardPropertyCallbacks` — Block.cpp:5-20 -/
def standard : List (String × Handler σ) :=
  [("Heartbeat", heartbeatCb o), ("Echo", echoCb), ("LifecycleState", lifecycleCb o), ("Settings", settingsCb o),
   ("StagedSettings", stagedCb o), ("StoreDefaults", storeDefaultsCb o), ("ResetDefaults", resetDefaultsCb o),
   ("ActiveContext", activeContextCb o), ("SettingsCtx", settingsCtxCb o), ("SettingsContexts", settingsContextsCb o),
   ("MetaInformation", metaCb o), ("UiConstraints", uiCb o)]

end callbacks

/-- `unique_name` and `name` of a block — Block.hpp:718-725 -/
structure Names where
  unique : String
  name : String
  deriving DecidableEq, Repr

section dispatch
variable {σ : Type}

/-- `propertyCallbacks.find` — Block.hpp:2200 -/
def lookup (e : String) : List (String × Handler σ) → Option (Handler σ)
  | [] => none
  | (k, h) :: r => if k = e then some h else lookup e r

/-- The reply made of what a callback did — Block.hpp:2206-2230. `none`: no reply. -/
def finish (n : Names) (m : Msg) : Blk σ × Out → Blk σ × Option Msg
  | (b, .reply r) => (b, some { r with cmd := .fin, service := n.unique })
  | (b, .silent) => (b, none)
  | (b, .threw e) => (b, some { m with data := .error e, cmd := .fin, service := n.unique })

/-- One round of the loop of `processMessages` up to the reply — Block.hpp:2195-2230 -/
def answer (n : Names) (table : List (String × Handler σ)) (b : Blk σ) (m : Msg) : Blk σ × Option Msg :=
  if m.service ≠ "" ∧ m.service ≠ n.unique ∧ m.service ≠ n.name then (b, none)
  else
    match lookup m.endpoint table with
    | none => (b, none)
    | some h => finish n m (h b m)

/-- The result of `processMessages`: the block, what was published on `msgOut`, what is left of `room`, and whether it returned
(`true`) or threw (`false`). -/
structure Done (σ : Type) where
  blk : Blk σ
  out : List Msg
  room : List Bool
  returned : Bool

/-- `processMessages` — Block.hpp:2190-2240. `room` says for each `tryReserve(1)` whether it succeeds: that depends on other producers and on the
reader, so it is arbitrary; past its end they succeed. A failed one throws (`gr::log::fatal`, Logger.hpp:198-201) outside the `try`. -/
def processMessages (n : Names) (table : List (String × Handler σ)) (connected : Bool) : List Bool → Blk σ → List Msg → Done σ
  | room, b, [] => ⟨b, [], room, true⟩
  | room, b, m :: ms =>
    match answer n table b m with
    | (b', none) => processMessages n table connected room b' ms
    | (b', some r) =>
      if connected = false then processMessages n table connected room b' ms
      else if room.head? = some false then ⟨b', [], room.tail, false⟩
      else
        let d := processMessages n table connected room.tail b' ms
        { d with out := r :: d.out }

/-- `notifyListeners`, `emitMessage`, `sendMessage`: what is published on `msgOut` — Block.hpp:1795-1804, Message.hpp:92-117. The
reservation waits for room. -/
def notify (n : Names) (connected : Bool) (b : Blk σ) (endpoint : String) (body : Body) : List Msg :=
  if connected = false then []
  else (b.subs.filter (·.1 = endpoint)).map fun s => { cmd := .notify, service := n.unique, client := s.2, endpoint := endpoint, data := .ok body }

/-- A block with its message ports: the unread messages of `msgIn`, all that was published on `msgOut`, and the outcomes of future
reservations -/
structure Inst (σ : Type) where
  blk : Blk σ
  inbox : List Msg
  out : List Msg
  room : List Bool

/-- `processScheduledMessages` — Block.hpp:1426-1460: heartbeats, then all available messages. They are consumed after `processMessages`; if that throws,
the reader span is released without consuming (`SpanReleasePolicy::ProcessNone`, CircularBuffer.hpp:662-678, 838). The `Bool` is
`false` if it threw. -/
def Inst.processScheduled (n : Names) (o : Owner σ) (table : List (String × Handler σ)) (connected : Bool) (i : Inst σ) : Inst σ × Bool :=
  let beats := notify n connected i.blk "Heartbeat" [("heartbeat", .u64 (o.now i.blk.own))]
  let d := processMessages n table connected i.room i.blk i.inbox
  (⟨d.blk, if d.returned then [] else i.inbox, i.out ++ beats ++ d.out, d.room⟩, d.returned)

/-- What happens to a block from outside: a client publishes on its `msgIn`; its thread calls `processScheduledMessages`; the block itself calls
`notifyListeners`, as `applyChangedSettings` (Block.hpp:1319-1321), the settings (Block.hpp:920) and a scheduler's `stateChanged`
(Scheduler.hpp:483) do. -/
inductive Event where
  | send (m : Msg)
  | call
  | tell (p : String) (body : Body)
  deriving DecidableEq, Repr

/-- One event of a block with connected message ports -/
def Inst.step (n : Names) (o : Owner σ) (table : List (String × Handler σ)) (i : Inst σ) : Event → Inst σ
  | .send m => { i with inbox := i.inbox ++ [m] }
  | .call => (i.processScheduled n o table true).1
  | .tell p body => { i with out := i.out ++ notify n true i.blk p body }

/-- A history of a block which starts without messages and subscriptions -/
def run (n : Names) (o : Owner σ) (table : List (String × Handler σ)) (s : σ) (room : List Bool) (evs : List Event) : Inst σ :=
  evs.foldl (Inst.step n o table) ⟨⟨s, []⟩, [], [], room⟩

end dispatch

end Verif.Msg
