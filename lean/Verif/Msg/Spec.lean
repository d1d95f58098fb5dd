import Verif.Msg.Model
/-!
# Specification for the message interface of a block (C68, C69)
-/
namespace Verif.Msg

/-- A message is meant for a block if it names nobody, or the block by its unique or by its user-given name. -/
def For (n : Names) (m : Msg) : Prop := m.service = "" ∨ m.service = n.unique ∨ m.service = n.name

instance (n : Names) (m : Msg) : Decidable (For n m) := inferInstanceAs (Decidable (_ ∨ _ ∨ _))

/-- The properties which every block has -/
def properties : List String :=
  ["Heartbeat", "Echo", "LifecycleState", "Settings", "StagedSettings", "StoreDefaults", "ResetDefaults", "ActiveContext", "SettingsCtx",
   "SettingsContexts", "MetaInformation", "UiConstraints"]

/-- Those one can subscribe to -/
def subscribable : List String := ["Heartbeat", "LifecycleState", "Settings", "StagedSettings", "MetaInformation", "UiConstraints"]

/-- The requests which are carried out without an answer: (un)subscriptions, and `Set` of these properties -/
def Quiet (m : Msg) : Prop :=
  (m.cmd = .subscribe ∨ m.cmd = .unsubscribe) ∧ m.endpoint ∈ subscribable ∨
  m.cmd = .set ∧ (m.endpoint ∈ ["LifecycleState", "Settings", "StoreDefaults", "ResetDefaults", "UiConstraints"] ∨
    m.endpoint = "StagedSettings" ∧ m.client = "")

instance (m : Msg) : Decidable (Quiet m) := inferInstanceAs (Decidable (_ ∨ _))

/-- `r` is a final answer of the block to the request `m`: it comes from the block and mirrors the request's client, property, protocol and token. -/
structure AnswerTo (n : Names) (m r : Msg) : Prop where
  cmd : r.cmd = .fin
  service : r.service = n.unique
  client : r.client = m.client
  endpoint : r.endpoint = m.endpoint
  protocol : r.protocol = m.protocol
  rbac : r.rbac = m.rbac

/-- The answers among the messages of a block to one client -/
def answersTo (c : String) (out : List Msg) : List Msg := out.filter (fun r => r.cmd = .fin ∧ r.client = c)

/-- The messages sent to the block in a history -/
def sent : List Event → List Msg
  | [] => []
  | .send m :: evs => m :: sent evs
  | _ :: evs => sent evs

/-- The further properties of a block (those of its class) do not change the client of a request and leave the subscriptions alone. -/
structure Wellbehaved {σ : Type} (extra : List (String × Handler σ)) : Prop where
  mirrors : ∀ k h, (k, h) ∈ extra → ∀ b m r, (h b m).2 = .reply r → r.client = m.client
  keeps : ∀ k h, (k, h) ∈ extra → ∀ b m, (h b m).1.subs = b.subs

/-- What a `Get` of a property returns when the block is in state `s` -/
def value {σ : Type} (o : Owner σ) (s : σ) (p : String) : Option Body :=
  if p = "Heartbeat" then some [("heartbeat", .u64 (o.now s))]
  else if p = "LifecycleState" then some [("state", .str (stateName (o.state s)))]
  else if p = "Settings" then some (o.get s)
  else if p = "StagedSettings" then some (o.staged s)
  else if p = "ActiveContext" then some [("gr:context", .str (o.active s).1), ("gr:ctx_time", .u64 (o.active s).2)]
  else if p = "SettingsContexts" then some [("contexts", .keys ((o.storedAll s).map (·.1))), ("times", .map (o.storedAll s))]
  else if p = "MetaInformation" then some (o.metaInfo s)
  else if p = "UiConstraints" then some (o.ui s)
  else none

/-- A `Set` that is carried out without an answer succeeds in state `s`, leading to `s'`. -/
inductive SetDone {σ : Type} (o : Owner σ) (s : σ) (m : Msg) : σ → Prop
  | lifecycle {body st s'} : m.endpoint = "LifecycleState" → m.data = .ok body → find "state" body = some (.str (stateName st)) →
      o.changeState s st = (s', .ok true) → SetDone o s m s'
  | settings {body s'} : m.endpoint = "Settings" ∨ m.endpoint = "UiConstraints" ∨ m.endpoint = "StagedSettings" → m.data = .ok body →
      o.stage s body = (s', .ok []) → SetDone o s m s'
  | store {u s'} : m.endpoint = "StoreDefaults" → o.storeDefaults s = (s', .ok u) → SetDone o s m s'
  | reset {u s'} : m.endpoint = "ResetDefaults" → o.resetDefaults s = (s', .ok u) → SetDone o s m s'

/-- The client `c` is subscribed to property `p` after the block has handled the messages `hist`: there is a subscription, and no later
cancellation. -/
def Subscribed (n : Names) (p c : String) (hist : List Msg) : Prop :=
  c ≠ "" ∧ ∃ pre m post, hist = pre ++ m :: post ∧ (For n m ∧ m.cmd = .subscribe ∧ m.endpoint = p ∧ m.client = c) ∧
    ∀ u ∈ post, ¬ (For n u ∧ u.cmd = .unsubscribe ∧ u.endpoint = p ∧ u.client = c)

end Verif.Msg
