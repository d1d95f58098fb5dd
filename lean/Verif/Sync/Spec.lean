import Verif.Sync.Model

/-!
What the statements about the synchronising block refer to.
-/
namespace Verif.Sync

/-- A synchronisation tag of time `T`: it has a trigger name, the one asked for if one is, and a trigger time. -/
def SyncTag (c : Cfg) (t : Tag) (T : Nat) : Prop :=
  ∃ n, t.name = some n ∧ (c.filter = "" ∨ n = c.filter) ∧ t.time = some (.u64 T)

/-- Times less than the tolerance apart. -/
def Near (c : Cfg) (a b : Nat) : Prop := a < b + c.tolerance ∧ b < a + c.tolerance

/-- Tags come in order, on samples available, and times have 64 bits. -/
structure In.Ok {α} (i : In α) : Prop where
  sorted : i.tags.Pairwise fun a b => a.index ≤ b.index
  inside : ∀ t ∈ i.tags, i.start ≤ t.index ∧ t.index < i.start + i.samples.length
  bits : ∀ t ∈ i.tags, ∀ n, t.time = some (.u64 n) → n < 2 ^ 64

/-- Every input has a synchronisation tag near the time `T` of one of the tags. -/
def Common {α} (c : Cfg) (ins : List (In α)) (T : Nat) : Prop :=
  (∃ i ∈ ins, ∃ t ∈ i.tags, SyncTag c t T) ∧ ∀ i ∈ ins, ∃ t ∈ i.tags, ∃ u, SyncTag c t u ∧ Near c T u

/-- The inputs have a time in common; the largest time does not count. -/
def CanSync {α} (c : Cfg) (ins : List (In α)) : Prop := ∃ T, T ≠ 2 ^ 64 - 1 ∧ Common c ins T

/-- The earliest time the inputs have in common. -/
def Earliest {α} (c : Cfg) (ins : List (In α)) (T : Nat) : Prop := Common c ins T ∧ ∀ S, Common c ins S → T ≤ S

/-- The trigger time of a tag, 0 if it has none. -/
def timeOf (t : Tag) : Nat :=
  match t.time with
  | some (.u64 n) => n
  | _ => 0

/-- Tags near the time of a synchronisation tag are synchronisation tags. -/
def Clean {α} (c : Cfg) (ins : List (In α)) : Prop :=
  ∀ i ∈ ins, ∀ t ∈ i.tags, ∀ j ∈ ins, ∀ u ∈ j.tags, ∀ T, SyncTag c u T → Near c (timeOf t) T → ∃ S, SyncTag c t S

/-- The number of samples dropped according to the tags up to sample `k` of an output. -/
def droppedUpTo (ts : List OTag) (k : Nat) : Nat :=
  (ts.map fun
    | .dropped o n => if o ≤ k then n else 0
    | .input _ _ => 0).sum

/-- The tags of the input that are on sample `k` of an output. -/
def tagsAt (ts : List OTag) (k : Nat) : List Tag :=
  ts.filterMap fun
    | .dropped _ _ => none
    | .input o t => if o = k then some t else none

/-- The index of a tag of an output. -/
def OTag.at : OTag → Nat
  | .dropped o _ => o
  | .input o _ => o

/-- Streams whose tags come in order with times of 64 bits. -/
def StreamsOk {α} (streams : List (List α × List Tag)) : Prop :=
  ∀ x ∈ streams, (x.2.Pairwise fun a b => a.index ≤ b.index) ∧ ∀ t ∈ x.2, ∀ n, t.time = some (.u64 n) → n < 2 ^ 64

/-- The calls of a run, each with the samples available and the room at every port. -/
def run {α} (c : Cfg) (s : Sys α) (calls : List (List (Nat × Nat))) : Sys α := calls.foldl (Sys.step c) s

/-- The calls say something about every one of `n` ports. -/
def CallsOk (n : Nat) (calls : List (List (Nat × Nat))) : Prop := ∀ call ∈ calls, call.length = n

/-- A call drops samples of some input without publishing anything and without aligning the inputs. -/
def Loses {α} (c : Cfg) (s : Sys α) (call : List (Nat × Nat)) : Prop :=
  ¬ CanSync c (s.views call) ∧ ∃ (k : Nat) (p p' : Port α), s.ports[k]? = some p ∧ (s.step c call).ports[k]? = some p' ∧ p'.out = p.out ∧ p'.pos ≠ p.pos

/-- The inputs are aligned: some call aligned them and no call after it lost samples. -/
def Aligned {α} (c : Cfg) (s : Sys α) (calls : List (List (Nat × Nat))) : Prop :=
  ∃ before call after, calls = before ++ call :: after ∧ CanSync c ((run c s before).views call) ∧
    ∀ xs x ys, after = xs ++ x :: ys → ¬ Loses c (run c s (before ++ call :: xs)) x

end Verif.Sync
