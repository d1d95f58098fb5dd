import Verif.Selector.Model

/-!
What the statements about the routing block refer to.
-/
namespace Verif.Selector

/-- The inputs routed to an output, in the order of the pairs. -/
def feeds (ps : List (Nat × Nat)) (o : Nat) : List Nat := (ps.filter fun p => p.2 == o).map (·.1)

/-- The pairs of a mapping that is all right: none twice, all ports exist. -/
def Proper (nIn nOut : Nat) (ps : List (Nat × Nat)) : Prop := ps.Nodup ∧ ∀ p ∈ ps, p.1 < nIn ∧ p.2 < nOut

/-- The block was given the pairs and took them. -/
def Took (c : Cfg) (ps : List (Nat × Nat)) : Prop :=
  ∃ c0 : Cfg, remap c0 (ps.map (·.1)) (ps.map (·.2)) = (c, none)

/-- Inputs that have to move together: routed to the same output, or to outputs linked by other inputs. -/
inductive Linked (ps : List (Nat × Nat)) (i : Nat) : Nat → Prop
  | refl : Linked ps i i
  | step {j k o : Nat} : Linked ps i j → (j, o) ∈ ps → (k, o) ∈ ps → Linked ps i k

/-- If combined inputs are kept in step, those of every output with several inputs have to move together with input 0. -/
def ZeroLinked (c : Cfg) (ps : List (Nat × Nat)) : Prop :=
  c.sync = true → ∀ o, 2 ≤ (feeds ps o).length → ∀ i ∈ feeds ps o, Linked ps 0 i

/-- Streams whose tags come in order. -/
def StreamsOk {α} (streams : List (List α × List Tag)) : Prop :=
  ∀ x ∈ streams, x.2.Pairwise fun a b => a.index ≤ b.index

/-- The calls are about `nIn` inputs and `nOut` outputs. -/
def CallsOk (nIn nOut : Nat) (calls : List Call) : Prop :=
  ∀ k ∈ calls, k.avail.length = nIn ∧ k.rooms.length = nOut

/-- The calls of a run; `none` if one of them reads or writes outside of the buffers. -/
def run {α} (c : Cfg) (s : Sys α) (calls : List Call) : Option (Sys α) := calls.foldlM (Sys.step c) s

/-- The sample a pair of stream and index stands for. -/
def sampleAt {α} (streams : List (List α × List Tag)) (p : Nat × Nat) : Option α := (streams[p.1]?).bind (·.1[p.2]?)

/-- The maps of the tags on the sample a pair of stream and index stands for. -/
def tagsAt {α} (streams : List (List α × List Tag)) (p : Nat × Nat) : List Nat :=
  match streams[p.1]? with
  | some x => (x.2.filter fun t => t.index == p.2).map (·.val)
  | none => []

/-- The maps of the tags on sample `k` of an output. -/
def valsAt (ts : List OTag) (k : Nat) : List Nat := (ts.filter fun t => t.index == (k : Int)).map (·.val)

/-- An output carries these samples of the streams, in this order, with their tags and no others. -/
structure Carries {α} (streams : List (List α × List Tag)) (tr : List (Nat × Nat)) (o : Out α) : Prop where
  samples : o.samples.map some = tr.map (sampleAt streams)
  tags : ∀ k p, tr[k]? = some p → valsAt o.tags k = tagsAt streams p
  inside : ∀ t ∈ o.tags, 0 ≤ t.index ∧ t.index < o.samples.length
  sorted : o.tags.Pairwise fun a b => a.index ≤ b.index

/-- The indices taken from stream `i`. -/
def from_ (tr : List (Nat × Nat)) (i : Nat) : List Nat := (tr.filter fun p => p.1 == i).map (·.2)

/-- The number of samples consumed of input `i`. -/
def Sys.taken {α} (s : Sys α) (i : Nat) : Nat :=
  match s.ins[i]? with
  | some p => p.pos
  | none => 0

/-- The number of samples of input `i` available in a call. -/
def Sys.there {α} (s : Sys α) (k : Call) (i : Nat) : Nat :=
  match s.ins[i]?, k.avail[i]? with
  | some p, some n => min n (p.stream.length - p.pos)
  | _, _ => 0

/-- The room at an output in a call. -/
def Call.room (k : Call) (o : Nat) : Nat := (k.rooms[o]?).getD 0

/-- Indices `a` to `b - 1`. -/
def between (a b : Nat) : List Nat := (List.range (b - a)).map (a + ·)

end Verif.Selector
