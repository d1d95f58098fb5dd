import Verif.Sel.Model
/-!
# Selecting ranges of a stream: what the user is promised

A stream is a list of samples, each with the tags attached to it. A filter is described by which tags open and which close a range. From
this the ranges of a stream, and from a range its data set, follow without any reference to calls, chunks, histories or output space.
-/
namespace Verif.Sel

variable {α τ σ : Type}

/-- a stream: samples with their tags -/
abbrev Strm (α τ : Type) := List (α × List τ)

/-- what a filter asks for: tags that open a range and tags that close one; with `single` a tag opens and closes at once -/
structure Rule (τ : Type) where
  opens : τ → Bool
  closes : τ → Bool
  single : Bool

/-- a range: the sample of the tag that opened it and that of the tag that closed it -/
structure Range where
  start : Nat
  stop : Option Nat
deriving DecidableEq, Repr

/-- the first range that is still open gets closed at `p` -/
def closeFirst (p : Nat) : List Range → List Range
  | [] => []
  | r :: rs => if r.stop = none then ⟨r.start, some p⟩ :: rs else r :: closeFirst p rs

/-- of the tags at one sample the first counts that opens a range, or that closes one while there is an open one -/
def control (R : Rule τ) (rs : List Range) (ts : List τ) : Option τ :=
  ts.find? (fun t => R.opens t || (R.closes t && rs.any (fun r => r.stop = none)))

/-- the ranges after the tags `ts` of sample `p` -/
def judge (R : Rule τ) (rs : List Range) (p : Nat) (ts : List τ) : List Range :=
  match control R rs ts with
  | none => rs
  | some t =>
    let rs := if R.closes t then closeFirst p rs else rs
    if R.opens t then rs ++ [⟨p, if R.single then some p else none⟩] else rs

/-- the ranges of a stream in the order of their starts -/
def ranges (R : Rule τ) (xs : Strm α τ) : List Range := xs.zipIdx.foldl (fun rs x => judge R rs x.2 x.1.2) []

/-- samples `lo, …, hi - 1` -/
def window (lo hi : Nat) (xs : Strm α τ) : Strm α τ := (xs.take hi).drop lo

/-- at most `nMax` samples, all if it is 0 -/
def cut (nMax : Nat) (xs : Strm α τ) : Strm α τ := if nMax = 0 then xs else xs.take nMax

/-- the tags of some samples with their positions -/
def tagsOf (xs : Strm α τ) : List (Nat × τ) := xs.zipIdx.flatMap (fun x => x.1.2.map (fun t => (x.2, t)))

/-- the data set of some samples of which the first `pre` are before the trigger: time zero is at the trigger; empty tags are left out -/
def DS.ofSamples (isEmpty : τ → Bool) (pre : Nat) (w : Strm α τ) : DS α τ where
  values := w.map (·.1)
  axis := (List.range w.length).map (fun (k : Nat) => (k : Int) - (pre : Int))
  events := (tagsOf w).filter (fun t => !isEmpty t.2)

/-- the data set of a range from `s` to `e`: up to `nPre` samples before the start (fewer at the begin of the stream), the samples from the
start up to but not including the stop, and `nPost` from the stop on; at most `nMax` -/
def datasetOf (c : Cfg τ σ) (xs : Strm α τ) (s e : Nat) : DS α τ :=
  DS.ofSamples c.isEmpty (min c.nPre s) (cut c.nMax (window (s - c.nPre) (e + c.nPost) xs))

/-- a matcher follows a rule: its states fall into those that wait for an opening tag and those that wait for a closing one -/
structure Follows (c : Cfg τ σ) (R : Rule τ) (On Off : σ → Prop) : Prop where
  fresh : Off c.fresh
  opens : ∀ t s, Off s → R.opens t → (c.m t s).2 = (.matching, R.single) ∧ (if R.single then Off (c.m t s).1 else On (c.m t s).1)
  waits : ∀ t s, Off s → ¬ R.opens t → (c.m t s).2.1 = .ignore ∧ Off (c.m t s).1
  closes : ∀ t s, On s → R.closes t → (c.m t s).2.1 = .notMatching ∧ Off (c.m t s).1
  stays : ∀ t s, On s → ¬ R.closes t → (c.m t s).2.1 = .ignore ∧ On (c.m t s).1
  empty : ¬ R.opens c.empty ∧ ¬ R.closes c.empty
  one : R.single → ∀ t, ¬ R.closes t

/-- the `n` samples from `p` on can be the input of one call: the framework cuts the input before every tagged sample, so that only the first
sample of a call has tags (Block.hpp; the note at StreamToDataSet.hpp:411) -/
structure Chunk (xs : Strm α τ) (p n : Nat) : Prop where
  pos : 0 < n
  le : p + n ≤ xs.length
  tags : ∀ x ∈ (window (p + 1) (p + n) xs), x.2 = []

/-- one call with the `n` samples from `p` on -/
def stepD (c : Cfg τ σ) (xs : Strm α τ) (s : DSt α τ σ) (p n room : Nat) : DSt α τ σ × Nat × List (DS α τ) :=
  callD c s ((window p (p + n) xs).map (·.1)) (tagsOf (window p (p + n) xs)) room

/-- the states, samples consumed and data sets published that any sequence of calls can lead to, with input cut in any way and any output
space at each call -/
inductive ReachD (c : Cfg τ σ) (xs : Strm α τ) : DSt α τ σ → Nat → List (DS α τ) → Prop
  | init : ReachD c xs {} 0 []
  | call {s : DSt α τ σ} {p : Nat} {pub : List (DS α τ)} (h : ReachD c xs s p pub) (n room : Nat) (hc : Chunk xs p n) :
      ReachD c xs (stepD c xs s p n room).1 (p + (stepD c xs s p n room).2.1) (pub ++ (stepD c xs s p n room).2.2)

/-! ## StreamFilter -/

/-- where a range ends, `P` samples having been seen -/
def Range.upTo (nPost P : Nat) (r : Range) : Nat := match r.stop with | none => P | some e => min P (e + nPost)

/-- samples without their tags -/
def bare (w : Strm α τ) : Strm α τ := w.map (fun x => (x.1, []))

/-- the ranges one after the other, of a stream of which `P` samples have been seen, each with up to `nPre` samples before and `nPost` after it.
A sample that an earlier range had already (`last` is its end) comes again without its tags. -/
def selected (nPre nPost : Nat) (xs : Strm α τ) (P : Nat) : Nat → List Range → Strm α τ
  | _, [] => []
  | last, r :: rs =>
    bare (window (r.start - nPre) (min last (r.upTo nPost P)) xs) ++ window (max last (r.start - nPre)) (r.upTo nPost P) xs ++
      selected nPre nPost xs P (r.upTo nPost P) rs

/-- the ranges do not overlap: each begins after the last one was closed and its samples after the stop have passed -/
def Apart (nPost : Nat) (rs : List Range) : Prop :=
  ∀ k r r', rs[k]? = some r → rs[k + 1]? = some r' → ∃ e, r.stop = some e ∧ e + nPost ≤ r'.start

/-- one call with the `n` samples from `p` on -/
def stepS (c : Cfg τ σ) (xs : Strm α τ) (s : SSt α τ σ) (p n room : Nat) : SSt α τ σ × OutS α τ :=
  callS c s ((window p (p + n) xs).map (·.1)) (tagsOf (window p (p + n) xs)) room

/-- states, samples consumed, samples and tags published (with their position in the output) that any sequence of calls can lead to -/
inductive ReachS (c : Cfg τ σ) (xs : Strm α τ) : SSt α τ σ → Nat → List α → List (Nat × τ) → Prop
  | init : ReachS c xs { st := c.fresh } 0 [] []
  | call {s : SSt α τ σ} {p : Nat} {out : List α} {tags : List (Nat × τ)} (h : ReachS c xs s p out tags) (n room : Nat) (hc : Chunk xs p n) :
      ReachS c xs (stepS c xs s p n room).1 (p + (stepS c xs s p n room).2.consumed) (out ++ (stepS c xs s p n room).2.samples)
        (tags ++ (stepS c xs s p n room).2.tags.map (fun t => (out.length + t.1, t.2)))

end Verif.Sel
