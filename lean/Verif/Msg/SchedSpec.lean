import Verif.Msg.Sched
/-!
# Specification for the distribution of messages by a scheduler (C70)
-/
namespace Verif.Msg
variable {σ : Type}

/-- The messages sent to the scheduler in a history -/
def sentTo : List (SysEvent σ) → List Msg
  | [] => []
  | .send m :: evs => m :: sentTo evs
  | _ :: evs => sentTo evs

/-- How often the scheduler is initialised in a history. The lifecycle does it at most once: `init` runs from IDLE to INITIALISED, and nothing leads back to
IDLE (LifeCycle.hpp:104-120, 242). -/
def inits : List (SysEvent σ) → Nat
  | [] => 0
  | .init :: evs => inits evs + 1
  | _ :: evs => inits evs

/-- A message that is not addressed to the scheduler itself and not about the lifecycle, which the scheduler handles for its blocks -/
def ForBlocks (n : Names) (m : Msg) : Prop := m.service ≠ n.unique ∧ m.service ≠ n.name ∧ m.endpoint ≠ "LifecycleState"

instance (n : Names) (m : Msg) : Decidable (ForBlocks n m) := inferInstanceAs (Decidable (_ ∧ _))

/-- A scheduler before anything happened: no messages anywhere, blocks with their settings and without subscriptions -/
structure Fresh (s : Sys σ) : Prop where
  connected : s.connected = false
  pending : s.pending = []
  back : s.back = []
  inbox : s.self.inbox = []
  out : s.self.out = []
  kids : ∀ k ∈ s.kids, k.i.inbox = [] ∧ k.i.out = [] ∧ k.i.blk.subs = []

/-- No two of the scheduler and its blocks have the same unique name. -/
def DistinctNames (s : Sys σ) : Prop := (s.n.unique :: s.kids.map (·.n.unique)).Nodup

instance (s : Sys σ) : Decidable (DistinctNames s) := inferInstanceAs (Decidable (List.Nodup _))

/-- No message is under way. -/
structure Drained (s : Sys σ) : Prop where
  inbox : s.self.inbox = []
  pending : s.pending = []
  back : s.back = []
  kids : ∀ k ∈ s.kids, k.i.inbox = []

end Verif.Msg
