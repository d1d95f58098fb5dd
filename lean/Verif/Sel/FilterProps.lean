import Verif.Sel.Filter
import Verif.Sel.Props
/-!
# C65: what `StreamFilter` publishes
-/
namespace Verif.Sel

open Verif.Trigger

variable {α τ σ : Type} {c : Cfg τ σ} {R : Rule τ} {On Off : σ → Prop}

/-- what the theorems ask of the stream: opening and closing tags do not share a sample, the ranges do not overlap, and a filter for single
triggers takes at least one sample after the trigger, or none before it -/
structure Orderly (c : Cfg τ σ) (R : Rule τ) (xs : Strm α τ) : Prop where
  one : ∀ x ∈ xs, ∀ t ∈ x.2, ∀ t' ∈ x.2, R.opens t → ¬ R.closes t'
  apart : Apart c.nPost (ranges R xs)
  single : R.single = true → 0 < c.nPost ∨ c.nPre = 0

/-- **C65** (at any time) However the stream is split over calls, and whatever the output space at each call: what has been published is
the selection of the `p` samples consumed so far, or — when a range begins with the next sample — that selection together with the samples
before this range; and every tag is at its sample. -/
theorem stream_partial (F : Follows c R On Off) {xs : Strm α τ} (ho : Orderly c R xs) {s : SSt α τ σ} {p : Nat} {out : List α}
    {tags : List (Nat × τ)} (h : ReachS c xs s p out tags) :
    ∃ w, out = w.map (·.1) ∧ tags = tagsOf w ∧
      (w = selected c.nPre c.nPost xs p 0 (ranges R (xs.take p)) ∨ w = selected c.nPre c.nPost xs p 0 (ranges R (xs.take (p + 1)))) := by
  obtain ⟨W, h1, h2, inv⟩ := reach_invS F ho.single ho.one ho.apart h
  exact ⟨W, h1, h2, inv_output ho.one inv⟩

/-- **C65** (at the end) When the whole stream is consumed, the output is its selection. -/
theorem stream_whole_partial (F : Follows c R On Off) {xs : Strm α τ} (ho : Orderly c R xs) {s : SSt α τ σ} {out : List α}
    {tags : List (Nat × τ)} (h : ReachS c xs s xs.length out tags) :
    out = (selected c.nPre c.nPost xs xs.length 0 (ranges R xs)).map (·.1) ∧
      tags = tagsOf (selected c.nPre c.nPost xs xs.length 0 (ranges R xs)) := by
  obtain ⟨w, h1, h2, h3⟩ := stream_partial F ho h
  rw [List.take_of_length_le (by omega), List.take_of_length_le (by omega), or_self] at h3
  rw [h1, h2, h3]
  exact ⟨rfl, rfl⟩

/-- the samples of a selection are those of the ranges, one after the other -/
theorem selected_samples (nPre nPost : Nat) (xs : Strm α τ) (P last : Nat) (rs : List Range) :
    (selected nPre nPost xs P last rs).map (·.1) = rs.flatMap (fun r => (window (r.start - nPre) (r.upTo nPost P) xs).map (·.1)) := by
  induction rs generalizing last with
  | nil => rfl
  | cons r l ih =>
    rw [selected, List.map_append, ih, List.map_append, bare_map, List.flatMap_cons, ← List.map_append]
    congr 2
    obtain ⟨lo, hlo⟩ : ∃ lo, lo = r.start - nPre := ⟨_, rfl⟩
    obtain ⟨hi, hhi⟩ : ∃ hi, hi = r.upTo nPost P := ⟨_, rfl⟩
    rw [← hlo, ← hhi]
    by_cases h1 : last ≤ lo
    · rw [window_nil lo (min last hi) xs (by omega), Nat.max_eq_right h1, List.nil_append]
    · by_cases h2 : last ≤ hi
      · rw [Nat.min_eq_left h2, Nat.max_eq_left (by omega), ← window_split xs lo last hi (by omega) h2]
      · rw [Nat.min_eq_right (by omega), window_nil (max last lo) hi xs (by omega), List.append_nil]

/-- **C65** (samples) At the end of the stream: for each range in turn, up to `n_pre` samples before it, its samples, and `n_post` after it. -/
theorem stream_samples_partial (F : Follows c R On Off) {xs : Strm α τ} (ho : Orderly c R xs) {s : SSt α τ σ} {out : List α}
    {tags : List (Nat × τ)} (h : ReachS c xs s xs.length out tags) :
    out = (ranges R xs).flatMap (fun r => (window (r.start - c.nPre) (r.upTo c.nPost xs.length) xs).map (·.1)) := by
  rw [(stream_whole_partial F ho h).1, selected_samples]

/-- **C65** (progress) A call never publishes more than fits, and consumes something whenever the output has more space than `n_pre`. -/
theorem stream_progress_partial (F : Follows c R On Off) {xs : Strm α τ} (ho : Orderly c R xs) {s : SSt α τ σ} {p : Nat} {out : List α}
    {tags : List (Nat × τ)} (h : ReachS c xs s p out tags) {n room : Nat} (hc : Chunk xs p n) :
    (stepS c xs s p n room).2.samples.length ≤ room ∧ (stepS c xs s p n room).2.consumed ≤ n ∧
      (c.nPre < room → 0 < (stepS c xs s p n room).2.consumed) := by
  obtain ⟨W, h1, h2, inv⟩ := reach_invS F ho.single ho.one ho.apart h
  obtain ⟨w, g1, g2, g3, g4, g5, _⟩ := inv_stepS F ho.single ho.one ho.apart inv hc room
  exact ⟨by rw [g1, List.length_map]; exact g3, g4, g5⟩

/-- **C65** for an expression `[a, b]` of the standard matcher, without `^` -/
theorem two_sided_stream_partial (nPre nPost nMax : Nat) (a b : Part) (ha : a.Ok) (hb : b.Ok) (hab : ¬ (a.name = b.name ∧ a.ctx = b.ctx))
    (hae : a.ends = false) (hbe : b.ends = false) (text : Str) (ht : IsText (.two a b) text) {xs : Strm α Tag}
    (hone : ∀ x ∈ xs, ∀ t ∈ x.2, ∀ t' ∈ x.2, t ≠ [] → t' ≠ [] → Meets a t → ¬ Meets b t') (hap : Apart nPost (ranges (ruleOf a b) xs))
    {s : SSt α Tag St} {out : List α} {tags : List (Nat × Tag)} (h : ReachS (basic nPre nPost nMax text) xs s xs.length out tags) :
    out = (ranges (ruleOf a b) xs).flatMap (fun r => (window (r.start - nPre) (r.upTo nPost xs.length) xs).map (·.1)) ∧
      tags = tagsOf (selected nPre nPost xs xs.length 0 (ranges (ruleOf a b) xs)) := by
  have F := two_follows nPre nPost nMax a b ha hb hab hae hbe text ht
  have ho : Orderly (basic nPre nPost nMax text) (ruleOf a b) xs := by
    refine ⟨?_, hap, fun hs => by cases hs⟩
    intro x hx t htx t' htx' h1 h2
    simp only [ruleOf, decide_eq_true_eq] at h1 h2
    exact hone x hx t htx t' htx' h1.1 h2.1 h1.2 h2.2
  exact ⟨stream_samples_partial F ho h, (stream_whole_partial F ho h).2⟩

/-- **C65** for a one-sided expression -/
theorem one_sided_stream_partial (nPre nPost nMax : Nat) (q : Part) (hq : q.Ok) (text : Str) (ht : IsText (.one q) text) {xs : Strm α Tag}
    (hap : Apart nPost (ranges (ruleOne q) xs)) (hn : 0 < nPost ∨ nPre = 0)
    {s : SSt α Tag St} {out : List α} {tags : List (Nat × Tag)} (h : ReachS (basic nPre nPost nMax text) xs s xs.length out tags) :
    out = (ranges (ruleOne q) xs).flatMap (fun r => (window (r.start - nPre) (r.upTo nPost xs.length) xs).map (·.1)) ∧
      tags = tagsOf (selected nPre nPost xs xs.length 0 (ranges (ruleOne q) xs)) := by
  have F := one_follows nPre nPost nMax q hq text ht
  have ho : Orderly (basic nPre nPost nMax text) (ruleOne q) xs := by
    refine ⟨?_, hap, fun _ => hn⟩
    intro x hx t htx t' htx' _ h2
    simp [ruleOne] at h2
  exact ⟨stream_samples_partial F ho h, (stream_whole_partial F ho h).2⟩

/-! ## Executions on concrete streams -/

/-- calls with at most the given numbers of samples and the given output spaces -/
def runS [DecidableEq τ] (c : Cfg τ σ) (xs : Strm α τ) :
    List (Nat × Nat) → SSt α τ σ → Nat → List α → List (Nat × τ) → Option (SSt α τ σ × Nat × List α × List (Nat × τ))
  | [], s, p, out, tags => some (s, p, out, tags)
  | (n, room) :: r, s, p, out, tags =>
    if Chunk xs p n then
      runS c xs r (stepS c xs s p n room).1 (p + (stepS c xs s p n room).2.consumed) (out ++ (stepS c xs s p n room).2.samples)
        (tags ++ (stepS c xs s p n room).2.tags.map (fun t => (out.length + t.1, t.2)))
    else none

theorem runS_reach [DecidableEq τ] (c : Cfg τ σ) (xs : Strm α τ) (l : List (Nat × Nat)) (s : SSt α τ σ) (p : Nat) (out : List α)
    (tags : List (Nat × τ)) (h : ReachS c xs s p out tags) {o : SSt α τ σ × Nat × List α × List (Nat × τ)}
    (ho : runS c xs l s p out tags = some o) : ReachS c xs o.1 o.2.1 o.2.2.1 o.2.2.2 := by
  induction l generalizing s p out tags with
  | nil => cases ho; exact h
  | cons a r ih =>
    obtain ⟨n, room⟩ := a
    unfold runS at ho
    split at ho
    · next hc => exact ih _ _ _ _ (h.call n room hc) ho
    · cases ho

/-- a short form of the result: samples consumed, samples published, positions of the tags published -/
def outS [DecidableEq τ] (c : Cfg τ σ) (xs : Strm α τ) (l : List (Nat × Nat)) : Option (Nat × List α × List Nat) :=
  (runS c xs l { st := c.fresh } 0 [] []).map (fun o => (o.2.1, o.2.2.1, o.2.2.2.map (·.1)))

/-- the demo stream meets the hypotheses -/
example : Apart 2 (ranges (ruleOf start stop) demo) := by
  rw [show ranges (ruleOf start stop) demo = [⟨5, some 10⟩, ⟨15, some 20⟩] by decide +kernel]
  intro k r r' h1 h2
  match k with
  | 0 => cases h1; cases h2; exact ⟨10, rfl, by decide⟩
  | 1 => cases h2
  | k + 2 => cases h2

example : ∀ x ∈ demo, ∀ t ∈ x.2, ∀ t' ∈ x.2, t ≠ [] → t' ≠ [] → Meets start t → ¬ Meets stop t' := by decide +kernel

/-- with plenty of space; -/
example : outS (basic 2 2 0 "[A/p1, A/p2]".toList) demo
    [(2, 99), (2, 99), (1, 99), (3, 99), (2, 99), (2, 99), (3, 99), (5, 99), (2, 99), (8, 99)] =
    some (30, [3, 4, 5, 6, 7, 8, 9, 10, 11, 13, 14, 15, 16, 17, 18, 19, 20, 21], [1, 2, 5, 7, 11, 16]) := by decide +kernel

/-- and with space for three samples at a time, or less: calls that consume nothing, or less than offered -/
example : outS (basic 2 2 0 "[A/p1, A/p2]".toList) demo
    [(2, 3), (2, 0), (1, 3), (3, 1), (3, 2), (3, 3), (2, 0), (2, 3), (2, 1), (1, 3), (1, 3), (2, 3), (5, 1), (5, 3), (4, 3), (1, 3), (2, 3), (8, 3)] =
    some (30, [3, 4, 5, 6, 7, 8, 9, 10, 11, 13, 14, 15, 16, 17, 18, 19, 20, 21], [1, 2, 5, 7, 11, 16]) := by decide +kernel

/-! ## Findings -/

/-- finding: a call that has no space to publish anything has looked at its tag already, and the next call looks at it again. With a tag that
meets both sides, the selection then depends on the output space: `[A/p1, A]` gives samples 3 to 6, or none. -/
theorem selection_depends_on_space :
    outS (basic 0 0 0 "[A/p1, A]".toList) (strm 12 [(3, mkTag "A" "p1"), (7, mkTag "A" "p2")]) [(3, 9), (4, 9), (5, 9)] =
      some (12, [3, 4, 5, 6], [0]) ∧
    outS (basic 0 0 0 "[A/p1, A]".toList) (strm 12 [(3, mkTag "A" "p1"), (7, mkTag "A" "p2")]) [(3, 9), (4, 0), (4, 9), (5, 9)] =
      some (12, [], []) := by decide +kernel

/-- finding: for single triggers with samples before but none after them, the tag of the trigger is not published, although its sample is part
of a later range: triggers at 5 and 7 with two samples before -/
theorem single_trigger_tag_lost :
    outS (basic 2 0 0 "A/p1".toList) (strm 12 [(5, mkTag "A" "p1"), (7, mkTag "A" "p1")]) [(5, 9), (2, 9), (5, 9)] =
      some (12, [3, 4, 5, 6], []) := by decide +kernel

/-- finding: a range that begins among the samples after the last stop is not selected at all: of the ranges 2 to 5 and 6 to 10 only the first
comes -/
theorem range_after_stop_lost :
    ranges (ruleOf start stop) (strm 14 [(2, mkTag "A" "p1"), (5, mkTag "A" "p2"), (6, mkTag "A" "p1"), (10, mkTag "A" "p2")]) =
      [⟨2, some 5⟩, ⟨6, some 10⟩] ∧
    outS (basic 0 3 0 "[A/p1, A/p2]".toList)
      (strm 14 [(2, mkTag "A" "p1"), (5, mkTag "A" "p2"), (6, mkTag "A" "p1"), (10, mkTag "A" "p2")]) [(2, 9), (3, 9), (1, 9), (4, 9), (4, 9)] =
      some (14, [2, 3, 4, 5, 6, 7], [0, 3, 4]) := by decide +kernel

end Verif.Sel
