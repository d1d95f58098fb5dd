import Verif.Msg.Model
/-!
# Model of the distribution of messages by a scheduler

core/include/gnuradio-4.0/Scheduler.hpp: `connectBlockMessagePorts`, `processMessages`, `processScheduledMessages`, `init`, `adoptBlock`.

Simplified: the messages a block has not read from the scheduler's bus are its `inbox` (a reader starts at the publish cursor when it is connected,
CircularBuffer.hpp:787-796); the parts of `processScheduledMessages` are separate events, so every interleaving of the scheduler with the threads
of the blocks is covered; all blocks use one type `σ` for what is behind their properties, which may be a sum. The waiting reservations are
taken to succeed.
-/
namespace Verif.Msg

/-- A block under a scheduler: names, what is behind its properties, its property callbacks, and its ports -/
structure Kid (σ : Type) where
  n : Names
  o : Owner σ
  table : List (String × Handler σ)
  i : Inst σ

/-- A scheduler: itself as a block — its `out` is what was published on its `msgOut` —, `_messagePortsConnected`, `_pendingMessagesToChildren`, the graph
(first) and its blocks, the unread messages of `_fromChildMessagePort`, and whether somebody reads `msgOut` — Scheduler.hpp:221-224 -/
structure Sys (σ : Type) where
  n : Names
  o : Owner σ
  table : List (String × Handler σ)
  self : Inst σ
  connected : Bool
  pending : List Msg
  kids : List (Kid σ)
  back : List Msg
  listening : Bool

/-- The condition under which a message is passed on to the blocks — Scheduler.hpp:528 -/
def passesOn (n : Names) (m : Msg) : Bool := m.service ≠ n.unique && m.service ≠ n.name && m.endpoint ≠ "LifecycleState"

variable {σ : Type}

/-- Publishing on `_toChildMessagePort`: every block gets the messages — Scheduler.hpp:517-519, 531-532 -/
def Kid.deliver (ms : List Msg) (k : Kid σ) : Kid σ := { k with i := { k.i with inbox := k.i.inbox ++ ms } }

/-- The part of `processScheduledMessages` of the base class, with the scheduler's `processMessages` — Scheduler.hpp:523-539, 547. The `Bool` is `false` if
it threw; then nothing was passed on and the messages stay unread. -/
def Sys.own (s : Sys σ) : Sys σ × Bool :=
  match s.self.processScheduled s.n s.o s.table s.listening with
  | (i, false) => ({ s with self := i }, false)
  | (i, true) =>
    let ms := s.self.inbox.filter (passesOn s.n)
    if s.connected then ({ s with self := i, kids := s.kids.map (Kid.deliver ms) }, true)
    else ({ s with self := i, pending := s.pending ++ ms }, true)

/-- `connectBlockMessagePorts` — Scheduler.hpp:490-521: unread messages of the graph become pending, all blocks get new readers, the pending
messages are published. -/
def Sys.connectPorts (s : Sys σ) : Sys σ :=
  let ms := s.pending ++ (s.kids.head?.map (·.i.inbox)).getD []
  { s with connected := true, pending := [], kids := s.kids.map (fun k => { k with i := { k.i with inbox := ms } }) }

/-- `init` — Scheduler.hpp:745-749 -/
def Sys.init (s : Sys σ) : Sys σ :=
  match s.own with
  | (s', false) => s'
  | (s', true) => s'.connectPorts

/-- `block->processScheduledMessages()`, or `notifyListeners` in a block: whatever it publishes on `msgOut` is on the way back — Scheduler.hpp:504, 550-553 -/
def Sys.kidStep (s : Sys σ) (j : Nat) (e : Event) : Sys σ :=
  match s.kids[j]? with
  | none => s
  | some k =>
    let i := k.i.step k.n k.o k.table e
    { s with kids := s.kids.set j { k with i := i }, back := s.back ++ i.out.drop k.i.out.length }

/-- The end of `processScheduledMessages` — Scheduler.hpp:555-583. Without readers of `msgOut` the span is released without consuming anything
(`SpanReleasePolicy::ProcessNone`, CircularBuffer.hpp:838). The `Bool` is `false` if it threw. -/
def Sys.collect (s : Sys σ) : Sys σ × Bool :=
  if s.listening then ({ s with self := { s.self with out := s.self.out ++ s.back }, back := [] }, true)
  else (s, s.back.all (fun m => match m.data with | .ok _ => true | .error _ => false))

/-- What can happen -/
inductive SysEvent (σ : Type) where
  | send (m : Msg)
  | own
  | init
  | kid (j : Nat)
  | kidTell (j : Nat) (p : String) (body : Body)
  | tell (p : String) (body : Body)
  | collect
  | listen (b : Bool)
  | adopt (n : Names) (o : Owner σ) (table : List (String × Handler σ)) (s : σ) (room : List Bool)

/-- One event. `adopt` is `adoptBlock` of a new block — Scheduler.hpp:1064-1071; the code runs it inside `own`, before messages are passed on. -/
def Sys.step (s : Sys σ) : SysEvent σ → Sys σ
  | .send m => { s with self := { s.self with inbox := s.self.inbox ++ [m] } }
  | .own => s.own.1
  | .init => s.init
  | .kid j => s.kidStep j .call
  | .kidTell j p body => s.kidStep j (.tell p body)
  | .tell p body => { s with self := { s.self with out := s.self.out ++ notify s.n s.listening s.self.blk p body } }
  | .collect => s.collect.1
  | .listen b => { s with listening := b }
  | .adopt n o table st room => { s with kids := s.kids ++ [⟨n, o, table, ⟨⟨st, []⟩, [], [], room⟩⟩] }

/-- A history -/
def Sys.run (s : Sys σ) (evs : List (SysEvent σ)) : Sys σ := evs.foldl Sys.step s

end Verif.Msg
