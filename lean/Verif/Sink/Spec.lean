import Verif.Sink.Model
/-!
# What a streaming listener of the data sink should hand to its user

A listener is given a sequence of metadata changes and chunks. The samples of the chunks, one after the other, are the stream; a tag
belongs to the sample it arrived with, and metadata to the first sample that arrives after it was set.
-/
namespace Verif.Sink

variable {α γ : Type}

/-- the stream -/
def samples : List (In α γ) → List α
  | [] => []
  | .meta' _ :: r => samples r
  | .chunk c :: r => c.data ++ samples r

/-- the tags with their positions in the stream, from position `b` on; `p` is metadata set and not yet sent -/
def positions : Option (List γ) → Nat → List (In α γ) → List (Nat × List γ)
  | _, _, [] => []
  | _, b, .meta' m :: r => positions (some m) b r
  | p, b, .chunk c :: r =>
    if c.data.length = 0 then positions p b r
    else p.toList.map (fun m => (b, m)) ++ c.tags.map (fun t => (b + t.index, t.map)) ++ positions none (b + c.data.length) r

/-- the samples a user was given -/
def got (cs : List (Call α γ)) : List α := cs.flatMap (·.data)

/-- the tags a user was given, with the position of their sample among all samples given, the first call starting at `b` -/
def gotTags : Nat → List (Call α γ) → List (Nat × List γ)
  | _, [] => []
  | b, c :: r => c.tags.map (fun t => (b + t.index, t.map)) ++ gotTags (b + c.data.length) r

/-- every tag of a call is on one of its samples -/
def Inside (cs : List (Call α γ)) : Prop := ∀ c ∈ cs, ∀ t ∈ c.tags, t.index < c.data.length

/-- the tags of a chunk are in order and on its own samples, as those of an input port are -/
def Chunk.Ok (c : Chunk α γ) : Prop := c.tags.Pairwise (fun a b => a.index ≤ b.index) ∧ ∀ t ∈ c.tags, t.index < c.data.length

/-- every chunk is as an input port gives it -/
def Ok (ins : List (In α γ)) : Prop := ∀ c, In.chunk c ∈ ins → c.Ok

/-- what reached the listener in an interleaving -/
def arrived : List (Act α γ) → List (In α γ)
  | [] => []
  | .meta' m :: r => .meta' m :: arrived r
  | .offer c :: r => .chunk c :: arrived r
  | _ :: r => arrived r

/-- the chunk the writing thread is busy with -/
def WPos.held : WPos α γ → List (In α γ)
  | .idle => []
  | .sized c _ | .planned c _ _ _ | .tagged c _ _ _ => [.chunk c]

/-- every poll was made with a function that takes tags -/
def TakesTags (as : List (Act α γ)) : Prop := ∀ n tk, Act.poll n tk ∈ as → tk = true

/-! ### What a dropping listener keeps: for each chunk how many of its samples and how many of the tags on these -/

/-- how much of one chunk is kept -/
structure Keep where
  n : Nat
  k : Nat
deriving DecidableEq, Repr

/-- metadata and tags on the first `n` samples of a chunk whose first sample is at `b` -/
def onFirst (p : Option (List γ)) (b : Nat) (c : Chunk α γ) (n : Nat) : List (Nat × List γ) :=
  p.toList.map (fun m => (b, m)) ++ (c.tags.filter fun t => t.index < n).map fun t => (b + t.index, t.map)

/-- samples kept -/
def kept : List (In α γ) → List Keep → List α
  | .meta' _ :: r, ks => kept r ks
  | .chunk c :: r, k :: ks => c.data.take k.n ++ kept r ks
  | _, _ => []

/-- metadata still to be sent after a chunk of which `k` is kept -/
def after (p : Option (List γ)) (k : Keep) : Option (List γ) := if 0 < k.n ∧ 0 < k.k then none else p

/-- tags kept, with their positions among the samples kept: the first `k` of those on kept samples, if there is a sample -/
def keptTags : Option (List γ) → Nat → List (In α γ) → List Keep → List (Nat × List γ)
  | _, b, .meta' m :: r, ks => keptTags (some m) b r ks
  | p, b, .chunk c :: r, k :: ks =>
    (if 0 < k.n then (onFirst p b c k.n).take k.k else []) ++ keptTags (after p k) (b + k.n) r ks
  | _, _, _, _ => []

/-- there is one entry for each chunk, within what the chunk has -/
def Fits : Option (List γ) → List (In α γ) → List Keep → Prop
  | _, [], ks => ks = []
  | _, .meta' m :: r, ks => Fits (some m) r ks
  | _, .chunk _ :: _, [] => False
  | p, .chunk c :: r, k :: ks => k.n ≤ c.data.length ∧ k.k ≤ (onFirst p 0 c k.n).length ∧ Fits (after p k) r ks

/-- how many of the tags on kept samples are not kept -/
def missed : Option (List γ) → List (In α γ) → List Keep → Nat
  | _, .meta' m :: r, ks => missed (some m) r ks
  | p, .chunk c :: r, k :: ks => ((onFirst p 0 c k.n).length - k.k) + missed (after p k) r ks
  | _, _, _ => 0

end Verif.Sink
