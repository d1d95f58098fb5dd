/-!
# Model of the default tag forwarding of a block

Sources: core/include/gnuradio-4.0/Block.hpp:1088-1099 (`insertOutputValue`), 1112-1262 (`forwardInputTags`), 1989-2005 (`finaliseIO`),
Port.hpp:594-680 (`InputSpan`), 685-755 (`OutputSpan::publishTag`).

Not modelled: a full tag ring or chunk pool at an output (the tag is dropped with a warning, Port.hpp:727-731, 745-748), output ports
without connection (nothing is published there), `forwardTags()` overrides, the `MergeTagPropagation` policy, and tags a block
publishes itself.
-/
namespace Verif.Work.Tags

/-! ## Content of a forwarded tag -/

abbrev Key := List Char
abbrev Map (V : Type) := List (Key × V)

/-- `GR_TAG_PREFIX` — Tag.hpp:112 -/
def grPrefix : Key := ['g', 'r', ':']

/-- `settingsKey` — Tag.hpp:180-186 -/
def settingsKey (k : Key) : Key := if grPrefix.isPrefixOf k then k.drop 3 else k

/-- what forwarding reads from the block. `supplement`: `autoForwardParameters().contains`; `known`: `allWritableMembers().contains`;
`active`: lookup in `activeParameters()`; `rateChanges`: resampling enabled and chunk sizes differ; `conv`: `sample_rate` conversion
of one value (the identity unless it is a `float` and `input_chunk_size != 0`) — Block.hpp:1088-1099 -/
structure Blk (V : Type) where
  supplement : Key → Bool
  known : Key → Bool
  active : Key → Option V
  rateChanges : Bool
  conv : V → V

/-- `isForwarded` — Block.hpp:1127 -/
def Blk.fwd {V : Type} (b : Blk V) (k : Key) : Bool := grPrefix.isPrefixOf k || b.supplement k

/-- `convertSampleRate` — Block.hpp:1090, 1140 -/
def Blk.converts {V : Type} (b : Blk V) (field : Key) : Bool := b.rateChanges && decide (field = "sample_rate".toList)

/-- `insert_or_assign` -/
def insertOrAssign {V : Type} (m : Map V) (k : Key) (v : V) : Map V :=
  if m.any (fun e => decide (e.1 = k)) then m.map (fun e => if e.1 = k then (k, v) else e) else m ++ [(k, v)]

/-- `insertOutputValue` — Block.hpp:1088-1099 -/
def insertOutput {V : Type} (b : Blk V) (m : Map V) (k : Key) (v : V) : Map V :=
  insertOrAssign m k (if b.converts (settingsKey k) then b.conv v else v)

/-- the flags of the first pass — Block.hpp:1129-1155 -/
structure Scan where
  anyForward : Bool := false
  anyDrop : Bool := false
  anySubstitute : Bool := false
  cached : Bool := false

/-- one key of the first pass — Block.hpp:1132-1155 -/
def scanStep {V : Type} [DecidableEq V] (b : Blk V) (s : Scan) (e : Key × V) : Scan :=
  if !b.fwd e.1 then { s with anyDrop := true }
  else
    let f := settingsKey e.1
    if b.known f then
      let differs := match b.active f with | some a => !decide (a = e.2) | none => false
      { s with anyForward := true, cached := true, anySubstitute := s.anySubstitute || b.converts f || differs }
    else { s with anyForward := true, anySubstitute := s.anySubstitute || b.converts f }

/-- one key of the second pass; `none`: dereference of the null `cachedSettings` — Block.hpp:1166-1179 -/
def buildStep {V : Type} (b : Blk V) (s : Scan) (dst : Map V) (e : Key × V) : Option (Map V) :=
  if !b.fwd e.1 then some dst
  else if s.anySubstitute && b.known (settingsKey e.1) then
    if !s.cached then none
    else match b.active (settingsKey e.1) with
      | some a => some (insertOutput b dst e.1 a)
      | none => some (insertOutput b dst e.1 e.2)
  else some (insertOutput b dst e.1 e.2)

/-- `publishFiltered`: the published map, if any — Block.hpp:1128-1181 -/
def publishFiltered {V : Type} [DecidableEq V] (b : Blk V) (m : Map V) : Option (Option (Map V)) :=
  let s := m.foldl (scanStep b) {}
  if !s.anyForward then some none
  else if !s.anyDrop && !s.anySubstitute then some (some m)
  else (m.foldlM (buildStep b s) []).map some

/-! ## Which tags are forwarded, and when they are consumed -/

/-- `InputSpan::tags(untilLocalIndex)` for a port whose unread tags are `tags` (ascending) — Port.hpp:655-662 -/
def inWindow {M : Type} (pos window : Nat) (tags : List (Nat × M)) : List (Int × M) :=
  (tags.takeWhile fun t => decide (t.1 < pos + window)).map fun t => ((t.1 : Int) - pos, t.2)

/-- the duplicate table of blocks with several inputs: entries seen (at most `cap`), tags published — Block.hpp:1233-1257 -/
def dedupStep {M : Type} [DecidableEq M] (cap : Nat) (s : List (Int × M) × List (Int × M)) (t : Int × M) : List (Int × M) × List (Int × M) :=
  if t ∈ s.1 then s else (if s.1.length < cap then s.1 ++ [t] else s.1, s.2 ++ [t])

/-- `kDedupCapacity` — Block.hpp:1234 -/
def dedupCapacity : Nat := 8

/-- the tags forwarded in a call, in order, with their relative index. `multi`: the block has more than one stream input — 1216-1261 -/
def offered {M : Type} [DecidableEq M] (multi : Bool) (pos window : Nat) (ports : List (List (Nat × M))) : List (Int × M) :=
  let all := ports.flatMap (inWindow pos window)
  if multi then (all.foldl (dedupStep dedupCapacity) ([], [])).2 else all

/-- one `work` call: `n` samples offered, `k` consumed, `q` published -/
structure Call where
  n : Nat
  k : Nat
  q : Nat
  deriving DecidableEq, Repr

/-- position of the (connected, synchronous) inputs, their unread and future tags, position of the outputs. All synchronous inputs
advance together, so one position serves for all; a tag becomes visible before its sample, so the tags beyond the offered samples
make no difference. -/
structure St (M : Type) where
  pos : Nat
  ports : List (List (Nat × M))
  out : Nat

/-- a published tag: output index, input index, content. -/
structure Ev (M : Type) where
  out : Nat
  inp : Nat
  val : M
  deriving DecidableEq, Repr

/-- the tags of one call: window and offset (Block.hpp:1118, 1159), nothing published when no sample is (2000-2003), tags consumed by
`~InputSpan` (Port.hpp:612-637; `consumeOnlyFirstTag` is `!backwardTagPropagation`, Block.hpp:1337-1342). -/
def callEvents {M : Type} [DecidableEq M] (multi backward : Bool) (s : St M) (c : Call) : List (Ev M) :=
  if c.q = 0 then [] else
  (offered multi s.pos (if backward then c.n else 1) s.ports).map fun t =>
    ⟨s.out + (if backward then 0 else t.1.toNat), ((s.pos : Int) + t.1).toNat, t.2⟩

def consumeTags {M : Type} (backward : Bool) (pos : Nat) (c : Call) (tags : List (Nat × M)) : List (Nat × M) :=
  if c.n = 0 ∨ c.k = 0 then tags else tags.dropWhile fun t => decide (t.1 < pos + (if backward then c.k else 1))

def callNext {M : Type} (backward : Bool) (s : St M) (c : Call) : St M :=
  ⟨s.pos + c.k, s.ports.map (consumeTags backward s.pos c), s.out + c.q⟩

/-- a sequence of calls: everything published, and the final state -/
def run {M : Type} [DecidableEq M] (multi backward : Bool) : St M → List Call → List (Ev M) × St M
  | s, [] => ([], s)
  | s, c :: cs => let r := run multi backward (callNext backward s c) cs; (callEvents multi backward s c ++ r.1, r.2)

end Verif.Work.Tags
