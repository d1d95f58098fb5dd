import Verif.Sink.WinModel
import Verif.Sink.Spec
/-!
# What the data sets of a data sink should be

Positions count the samples of the stream. A matcher gives a verdict on each tag; from the verdicts and the stream alone follows which
data sets there are.
-/
namespace Verif.Sink

variable {α γ σ : Type}

/-- what a matcher says of a tag: the position of its sample, the verdict, the tag's map and the metadata then -/
structure Verdict (γ : Type) where
  pos : Nat
  says : Match
  map : List γ
  info : List γ
deriving DecidableEq, Repr

/-- the verdicts on tags, one after the other; tags without entries are not shown to the matcher if `skip` -/
def judge (m : Matcher γ σ) (skip : Bool) (b : Nat) (info : List γ) : σ → List (Tag γ) → List (Verdict γ) × σ
  | st, [] => ([], st)
  | st, t :: r =>
    if skip = true ∧ t.map = [] then judge m skip b info st r
    else
      let y := judge m skip b info (m t st).2 r
      (⟨b + t.index, (m t st).1, t.map, info⟩ :: y.1, y.2)

/-- the verdicts of a run whose first sample is at position `b` -/
def verdicts (m : Matcher γ σ) (skip : Bool) : List γ → Nat → σ → List (In α γ) → List (Verdict γ)
  | _, _, _, [] => []
  | _, b, st, .meta' info :: r => verdicts m skip info b st r
  | info, b, st, .chunk c :: r =>
    (judge m skip b info st c.tags).1 ++ verdicts m skip info (b + c.data.length) (judge m skip b info st c.tags).2 r

/-- the triggers among them -/
def triggers (vs : List (Verdict γ)) : List (Verdict γ) := vs.filter fun v => v.says = .matching

/-- tags come with the first sample of a chunk, as the framework cuts the stream at tags -/
def AtStart (ins : List (In α γ)) : Prop := ∀ c, In.chunk c ∈ ins → ∀ t ∈ c.tags, t.index = 0

/-- a data set with these samples -/
def dataset (info : List γ) (values : List α) (events : List (Int × List γ)) : DS α γ :=
  ⟨info, values, List.range values.length, values.length, events⟩

/-- what a run does to a sink -/
def Sink.run (s : Sink α γ σ) : List (In α γ) → Sink α γ σ
  | [] => s
  | .meta' info :: r => (s.step (.settings info)).run r
  | .chunk c :: r => (s.step (.chunk c)).run r

/-- the history has the last `n` samples of `past` at least, if there are as many -/
def Remembers (h : Option (Hist α)) (n : Nat) (past : List α) : Prop :=
  n = 0 ∨ ∃ cap, n ≤ cap ∧ h = some ⟨cap, past.reverse.take cap⟩

/-! ### Around triggers -/

/-- up to `pre` samples before the trigger and up to `post` from it on; the tag is at the sample of the trigger -/
def window (pre post : Nat) (s : List α) (v : Verdict γ) : DS α γ :=
  dataset v.info ((s.take v.pos).drop (v.pos - pre) ++ (s.drop v.pos).take post) [((min pre v.pos : Nat), v.map)]

/-! ### Between tags -/

/-- verdicts that start or end a section -/
def borders (vs : List (Verdict γ)) : List (Verdict γ) := vs.filter fun v => v.says ≠ .ignore

/-- every start with the border after it -/
def sections : List (Verdict γ) → List (Verdict γ × Option (Verdict γ))
  | [] => []
  | v :: r => if v.says = .matching then (v, r.head?) :: sections r else sections r

/-- the samples of a section, at most `limit` -/
def inside (limit : Nat) (s : List α) (x : Verdict γ × Option (Verdict γ)) : List α :=
  ((match x.2 with | some e => s.take e.pos | none => s).drop x.1.pos).take limit

/-- a section ends with the border after it or when it is full -/
def Closed (limit : Nat) (s : List α) (x : Verdict γ × Option (Verdict γ)) : Prop := x.2 ≠ none ∨ (inside limit s x).length = limit

instance (limit : Nat) (s : List α) (x : Verdict γ × Option (Verdict γ)) : Decidable (Closed limit s x) := by
  unfold Closed; infer_instance

/-- its data set: the tag it starts with, and the one it ends with unless it was full before -/
def sectionSet (limit : Nat) (s : List α) (x : Verdict γ × Option (Verdict γ)) : DS α γ :=
  dataset x.1.info (inside limit s x)
    ((0, x.1.map) :: match x.2 with
      | some e => if (inside limit s x).length < limit then [(((inside limit s x).length : Nat), e.map)] else []
      | none => [])

/-! ### Single samples -/

/-- the metadata when the sample at `p` is processed; `info` is the metadata at position `b` -/
def infoAt : List γ → Nat → List (In α γ) → Nat → List γ
  | info, _, [], _ => info
  | _, b, .meta' info :: r, p => infoAt info b r p
  | info, b, .chunk c :: r, p => if p < b + c.data.length then info else infoAt info (b + c.data.length) r p

/-- the sample `delay` after the trigger, and where the trigger was -/
def snapshot (info : List γ) (delay : Nat) (s : List α) (v : Verdict γ) : Option (DS α γ) :=
  (s[v.pos + delay]?).map fun x => dataset info [x] [(-(delay : Int), v.map)]

end Verif.Sink
