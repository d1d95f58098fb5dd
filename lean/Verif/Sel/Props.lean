import Verif.Sel.Basic
import Verif.Trigger.Props
/-!
# C64: what `StreamToDataSet` publishes
-/
namespace Verif.Sel

open Verif.Trigger

variable {α τ σ : Type} {c : Cfg τ σ} {R : Rule τ} {On Off : σ → Prop}

/-- settings that the block accepts: `n_max` is 0 or leaves room for the samples before and after (StreamToDataSet.hpp:159-166), 32 bit -/
structure Accepted (c : Cfg τ σ) : Prop where
  bits : c.nMax < 2 ^ 32
  room : c.nMax = 0 ∨ c.nPre + c.nPost ≤ c.nMax

/-- **C64** (contents) With a matcher that follows a rule, and no tag that both opens and closes: however the input is cut into calls and
whatever the output space at each call is, the `k`-th data set published is that of the `k`-th range of the stream — its samples, time axis
and events — and the range is closed and its samples were all seen, or the data set has the maximal size. -/
theorem datasets_partial (F : Follows c R On Off) (hc : Accepted c) {xs : Strm α τ}
    (hdis : ∀ x ∈ xs, ∀ t ∈ x.2, R.opens t → ¬ R.closes t) {s : DSt α τ σ} {p : Nat} {pub : List (DS α τ)} (h : ReachD c xs s p pub)
    (k : Nat) (d : DS α τ) (hd : pub[k]? = some d) :
    ∃ r e, (ranges R (xs.take p))[k]? = some r ∧ r.stop = some e ∧ d = datasetOf c xs r.start e ∧ e < p ∧
      (e + c.nPost ≤ p ∨ c.nMax ≠ 0 ∧ d.values.length = c.nMax) := by
  obtain ⟨rs1, rs2, hr, hp, _⟩ := (reach_inv F (by have := hc.bits; omega) hc.room hdis h).split
  obtain ⟨r, hr1, e, h1, h2, h3, h4⟩ := hp.get k d hd
  refine ⟨r, e, ?_, h1, h4, h2, h3⟩
  rw [hr, List.getElem?_append_left]
  · exact hr1
  · exact (List.getElem?_eq_some_iff.mp hr1).1

/-- **C64** (publication) A call whose output has space for it publishes the data sets of all ranges that are complete before the next
incomplete one: after a call over the samples from `p` to `p + n`, the first `K` ranges are out, if they are all closed and their samples
have come — the last ones in this very call, or, when there is a maximal size, before it. -/
theorem published_partial (F : Follows c R On Off) (hc : Accepted c) {xs : Strm α τ}
    (hdis : ∀ x ∈ xs, ∀ t ∈ x.2, R.opens t → ¬ R.closes t) {s : DSt α τ σ} {p : Nat} {pub : List (DS α τ)} (h : ReachD c xs s p pub)
    {n room : Nat} (hch : Chunk xs p n) (hroom : 0 < room) (K : Nat) (hK : K ≤ (ranges R (xs.take (p + n))).length)
    (hsp : K ≤ pub.length + room)
    (hdone : ∀ k r, k < K → (ranges R (xs.take (p + n)))[k]? = some r →
      ∃ e, r.stop = some e ∧ (c.nMax = 0 ∧ e + c.nPost ≤ p + n ∨ e + c.nPost ≤ p)) :
    (stepD c xs s p n room).2.1 = n ∧ K ≤ (pub ++ (stepD c xs s p n room).2.2).length := by
  have hm : c.nMax < 2 ^ 64 := by have := hc.bits; omega
  have inv := reach_inv F hm hc.room hdis h
  rcases stepD_cases c xs s hch room with ⟨_, h0, _⟩ | ⟨items, hi, h1, h2, _⟩
  · omega
  · rw [h2]
    refine ⟨rfl, ?_⟩
    obtain ⟨rs1, rs2, hr, hp, ha⟩ := inv.split
    obtain ⟨x, hx, _⟩ := chunk_cons hch
    have hP : p ≤ xs.length := by have := hch.le; omega
    have hmid := open_close F hP hc.room inv.hist x.2 (hdis x (List.mem_of_getElem? hx)) ha
    rw [← tagsOf_chunk hch hx] at hmid
    have hrs : ranges R (xs.take (p + n)) = rs1 ++ judge R rs2 p x.2 := by
      rw [ranges_chunk R hch hx, hr, judge_append R p x.2 rs1 rs2 (all_closed hp)]
    have hlen1 := hp.length
    have hlen2 : (judge R rs2 p x.2).length = items.length := by rw [hi, List.length_map]; exact hmid.length
    rw [hrs, List.length_append] at hK
    have hin : ∀ k i, k < K - pub.length → items[k]? = some i → i.acc.active = false := by
      intro k i hk hik
      rw [hi, List.getElem?_map] at hik
      cases hj : (closeD c (findD c s.items (tagsOf (window p (p + n) xs)))
        (openD c (findD c s.items (tagsOf (window p (p + n) xs))) s.items))[k]? with
      | none => rw [hj] at hik; cases hik
      | some j =>
        rw [hj] at hik
        cases hik
        obtain ⟨r, hr', hmd⟩ := hmid.get k j hj
        obtain ⟨e, he, hd⟩ := hdone (rs1.length + k) r (by omega) (by
          rw [hrs, List.getElem?_append_right (by omega), Nat.add_sub_cancel_left]; exact hr')
        exact at_done hm hch.le hch.pos hmd he hd
    have := takeWhile_ge items (K - pub.length) hin (by omega)
    rw [List.length_append, List.length_map, List.length_take]
    unfold doneD
    have h3 : (items.takeWhile (fun i => !i.acc.active)).length ≤ items.length := (List.takeWhile_sublist _).length_le
    omega

/-- **C64** (independence) Two ways to feed the same stream: what both have published of it is the same. -/
theorem chunking_partial (F : Follows c R On Off) (hc : Accepted c) {xs : Strm α τ}
    (hdis : ∀ x ∈ xs, ∀ t ∈ x.2, R.opens t → ¬ R.closes t) {s s' : DSt α τ σ} {p : Nat} {pub pub' : List (DS α τ)}
    (h : ReachD c xs s p pub) (h' : ReachD c xs s' p pub') (k : Nat) (d d' : DS α τ) (hd : pub[k]? = some d) (hd' : pub'[k]? = some d') :
    d = d' := by
  obtain ⟨r, e, h1, h2, h3, _⟩ := datasets_partial F hc hdis h k d hd
  obtain ⟨r', e', h1', h2', h3', _⟩ := datasets_partial F hc hdis h' k d' hd'
  rw [h1] at h1'
  cases h1'
  rw [h2] at h2'
  cases h2'
  rw [h3, h3']

/-- **C64** for an expression `[a, b]` of the standard matcher, without `^` -/
theorem two_sided_datasets_partial (nPre nPost nMax : Nat) (a b : Part) (ha : a.Ok) (hb : b.Ok) (hab : ¬ (a.name = b.name ∧ a.ctx = b.ctx))
    (hae : a.ends = false) (hbe : b.ends = false) (text : Str) (ht : IsText (.two a b) text) (hc : Accepted (basic nPre nPost nMax text))
    {xs : Strm α Tag} (hdis : ∀ x ∈ xs, ∀ t ∈ x.2, t ≠ [] → Meets a t → ¬ Meets b t) {s : DSt α Tag St} {p : Nat} {pub : List (DS α Tag)}
    (h : ReachD (basic nPre nPost nMax text) xs s p pub) (k : Nat) (d : DS α Tag) (hd : pub[k]? = some d) :
    ∃ r e, (ranges (ruleOf a b) (xs.take p))[k]? = some r ∧ r.stop = some e ∧ d = datasetOf (basic nPre nPost nMax text) xs r.start e := by
  obtain ⟨r, e, h1, h2, h3, _⟩ := datasets_partial (two_follows nPre nPost nMax a b ha hb hab hae hbe text ht) hc
    (fun x hx t htx ho hcl => by
      simp only [ruleOf, decide_eq_true_eq] at ho hcl
      exact hdis x hx t htx ho.1 ho.2 hcl.2) h k d hd
  exact ⟨r, e, h1, h2, h3⟩

/-- **C64** for a one-sided expression: every matching tag gives a data set of the samples around it -/
theorem one_sided_datasets (nPre nPost nMax : Nat) (q : Part) (hq : q.Ok) (text : Str) (ht : IsText (.one q) text)
    (hc : Accepted (basic nPre nPost nMax text)) {xs : Strm α Tag} {s : DSt α Tag St} {p : Nat} {pub : List (DS α Tag)}
    (h : ReachD (basic nPre nPost nMax text) xs s p pub) (k : Nat) (d : DS α Tag) (hd : pub[k]? = some d) :
    ∃ r e, (ranges (ruleOne q) (xs.take p))[k]? = some r ∧ r.stop = some e ∧ d = datasetOf (basic nPre nPost nMax text) xs r.start e := by
  obtain ⟨r, e, h1, h2, h3, _⟩ := datasets_partial (one_follows nPre nPost nMax q hq text ht) hc
    (fun x hx t htx ho hcl => by simp [ruleOne] at hcl) h k d hd
  exact ⟨r, e, h1, h2, h3⟩

/-! ## Executions on concrete streams -/

instance (xs : Strm α τ) (p n : Nat) [DecidableEq τ] : Decidable (Chunk xs p n) :=
  decidable_of_iff (0 < n ∧ p + n ≤ xs.length ∧ ∀ x ∈ window (p + 1) (p + n) xs, x.2 = [])
    ⟨fun ⟨h1, h2, h3⟩ => ⟨h1, h2, h3⟩, fun ⟨h1, h2, h3⟩ => ⟨h1, h2, h3⟩⟩

/-- calls with the given numbers of samples and output spaces -/
def runD [DecidableEq τ] (c : Cfg τ σ) (xs : Strm α τ) : List (Nat × Nat) → DSt α τ σ → Nat → List (DS α τ) → Option (DSt α τ σ × Nat × List (DS α τ))
  | [], s, p, pub => some (s, p, pub)
  | (n, room) :: r, s, p, pub =>
    if Chunk xs p n then
      runD c xs r (stepD c xs s p n room).1 (p + (stepD c xs s p n room).2.1) (pub ++ (stepD c xs s p n room).2.2)
    else none

theorem runD_reach [DecidableEq τ] (c : Cfg τ σ) (xs : Strm α τ) (l : List (Nat × Nat)) (s : DSt α τ σ) (p : Nat) (pub : List (DS α τ))
    (h : ReachD c xs s p pub) {o : DSt α τ σ × Nat × List (DS α τ)} (ho : runD c xs l s p pub = some o) : ReachD c xs o.1 o.2.1 o.2.2 := by
  induction l generalizing s p pub with
  | nil => cases ho; exact h
  | cons a r ih =>
    obtain ⟨n, room⟩ := a
    unfold runD at ho
    split at ho
    · next hc => exact ih _ _ _ (h.call n room hc) ho
    · cases ho

/-- samples `0, 1, …` with the given tags -/
def strm (n : Nat) (tags : List (Nat × Tag)) : Strm Nat Tag :=
  (List.range n).map (fun i => (i, (tags.filter (fun t => t.1 = i)).map (·.2)))

/-- the stream of the unit tests: numbers of samples and tags of qa_StreamToDataSet.cpp -/
def demo : Strm Nat Tag := strm 30 [(2, mkTag "N" ""), (4, mkTag "S" ""), (5, mkTag "A" "p1"), (8, mkTag "S" ""), (10, mkTag "A" "p2"),
  (12, mkTag "S" ""), (15, mkTag "A" "p1"), (20, mkTag "A" "p2"), (22, mkTag "S" "")]

def start : Part := ⟨"A".toList, false, "p1".toList, false⟩
def stop : Part := ⟨"A".toList, false, "p2".toList, false⟩

/-- the ranges of the demo stream -/
example : ranges (ruleOf start stop) demo = [⟨5, some 10⟩, ⟨15, some 20⟩] := by decide +kernel

/-- a run over all of it with odd cuts and a full output in between: both data sets come, the second as soon as there is space -/
example : (runD (basic 2 2 0 "[A/p1, A/p2]".toList) demo
    [(2, 1), (2, 1), (1, 1), (3, 1), (2, 0), (1, 0), (1, 0), (3, 0), (3, 1), (5, 0), (2, 0), (8, 1)] {} 0 []).map
      (fun o => (o.2.1, o.2.2.map (fun d => (d.values, d.axis, d.events.map (·.1))))) =
    some (30, [([3, 4, 5, 6, 7, 8, 9, 10, 11], [-2, -1, 0, 1, 2, 3, 4, 5, 6], [1, 2, 5, 7]),
      ([13, 14, 15, 16, 17, 18, 19, 20, 21], [-2, -1, 0, 1, 2, 3, 4, 5, 6], [2, 7])]) := by decide +kernel

/-- the hypotheses of the theorems hold for it -/
example : ∀ x ∈ demo, ∀ t ∈ x.2, t ≠ [] → Meets start t → ¬ Meets stop t := by decide +kernel

example : Accepted (basic 2 2 10 "[A/p1, A/p2]".toList) := ⟨by decide, by decide⟩

/-- ranges that overlap, with a limit of 6 samples: the first start belongs to the first stop -/
example : (runD (basic 1 1 6 "[A/p1, A/p2]".toList)
      (strm 20 [(3, mkTag "A" "p1"), (5, mkTag "A" "p1"), (9, mkTag "A" "p2"), (11, mkTag "A" "p2")])
      [(3, 1), (2, 1), (4, 1), (1, 1), (1, 1), (2, 0), (7, 1)] {} 0 []).map (fun o => (o.2.1, o.2.2.map (·.values))) =
    some (20, [[2, 3, 4, 5, 6, 7], [4, 5, 6, 7, 8, 9]]) := by decide +kernel

/-! ## Findings -/

/-- finding: a tag that meets both sides closes the range it has just opened. With `[A/p1, A]` — from `p1` to the next `A` — the ranges
are 3 to 7 and so on, but the data sets are empty; -/
theorem start_tag_closes_range :
    ranges (ruleOf start ⟨"A".toList, false, [], false⟩) (strm 12 [(3, mkTag "A" "p1"), (7, mkTag "A" "p2")]) = [⟨3, some 7⟩] ∧
    (runD (basic 0 0 0 "[A/p1, A]".toList) (strm 12 [(3, mkTag "A" "p1"), (7, mkTag "A" "p2")])
      [(3, 1), (4, 1), (5, 1)] {} 0 []).map (fun o => (o.2.1, o.2.2.map (·.values))) = some (12, [[]]) := by decide +kernel

/-- finding: with a maximal size the data set of a range may still be kept back when all its samples have come: here the stream ends two
samples after the stop, all that belongs to the range, and the data set is not published -/
theorem limit_keeps_back :
    ranges (ruleOf start stop) (strm 6 [(0, mkTag "A" "p1"), (4, mkTag "A" "p2")]) = [⟨0, some 4⟩] ∧
    (runD (basic 0 2 5 "[A/p1, A/p2]".toList) (strm 6 [(0, mkTag "A" "p1"), (4, mkTag "A" "p2")])
      [(4, 9), (2, 9)] {} 0 []).map (fun o => (o.2.1, o.2.2.map (·.values))) = some (6, []) ∧
    (runD (basic 0 2 6 "[A/p1, A/p2]".toList) (strm 6 [(0, mkTag "A" "p1"), (4, mkTag "A" "p2")])
      [(4, 9), (2, 9)] {} 0 []).map (fun o => (o.2.1, o.2.2.map (·.values))) = some (6, [[0, 1, 2, 3, 4, 5]]) := by decide +kernel

/-- finding: a closing side with `^` misses its tag when another tag comes before it at the same sample: `[A/p1, A/^p2]` for `p1` at 3, `p2`
at 7 and another trigger at 9 gives samples 3 to 8, but not if the tag at 7 has one before it — then the range goes on -/
theorem caret_stop_missed :
    (runD (basic 0 0 0 "[A/p1, A/^p2]".toList) (strm 12 [(3, mkTag "A" "p1"), (7, mkTag "A" "p2"), (9, mkTag "B" "")])
      [(3, 9), (4, 9), (2, 9), (3, 9)] {} 0 []).map (fun o => (o.2.1, o.2.2.map (·.values))) = some (12, [[3, 4, 5, 6, 7, 8]]) ∧
    (runD (basic 0 0 0 "[A/p1, A/^p2]".toList) (strm 12 [(3, mkTag "A" "p1"), (7, mkTag "X" ""), (7, mkTag "A" "p2"), (9, mkTag "B" "")])
      [(3, 9), (4, 9), (2, 9), (3, 9)] {} 0 []).map (fun o => (o.2.1, o.2.2.map (·.values))) = some (12, []) := by decide +kernel

/-- a fresh state never starts for an opening side with `^` -/
theorem caret_fresh (nPre nPost nMax : Nat) (a b : Part) (ha : a.Ok) (hb : b.Ok) (hab : ¬ (a.name = b.name ∧ a.ctx = b.ctx))
    (hae : a.ends = true) (text : Str) (ht : IsText (.two a b) text) (t : Tag) :
    (detect (basic nPre nPost nMax text) t St.fresh).2.start = false := by
  obtain ⟨s1, hv, h1, h2, h3, _, h5⟩ := verify_two a b ha hb text ht St.fresh nofun
  obtain ⟨g1, g2, g3, g4, g5⟩ := h5 hab
  have hrel : Rel text a b .off s1 := ⟨h1, h3, g1, h2, g2, by rw [g3, g4, g5], nofun, nofun⟩
  have hig : (filterBody s1 t).2 = .ignore := by
    by_cases h0 : t = []
    · subst h0; rw [filterBody_nil]
    · have := (rel_step text a b .off s1 hrel t h0).1
      rw [this]
      by_cases hm : Meets a t <;> simp [ruleTwo, hm, hae]
  unfold detect
  rw [basic_m _ _ _ _ _ _ _ hv, hig]

/-- **C64 is false for an opening side with `^`** (finding): nothing is ever published, for any stream and any calls. Each call asks a fresh
state whether a range starts, so the tag after the last matching one never meets a state that waits for it. -/
theorem caret_start_never (nPre nPost nMax : Nat) (a b : Part) (ha : a.Ok) (hb : b.Ok) (hab : ¬ (a.name = b.name ∧ a.ctx = b.ctx))
    (hae : a.ends = true) (text : Str) (ht : IsText (.two a b) text) {xs : Strm α Tag} {s : DSt α Tag St} {p : Nat} {pub : List (DS α Tag)}
    (h : ReachD (basic nPre nPost nMax text) xs s p pub) : pub = [] := by
  have key : pub = [] ∧ s.items = [] := by
    induction h with
    | init => exact ⟨rfl, rfl⟩
    | @call s p pub h n room hc ih =>
      have ho : ∀ t, openD (basic nPre nPost nMax text) t s.items = [] := by
        intro t
        unfold openD
        dsimp only
        rw [show (basic nPre nPost nMax text).fresh = St.fresh from rfl,
          caret_fresh nPre nPost nMax a b ha hb hab hae text ht t, ih.2]
        rfl
      rcases stepD_cases (basic nPre nPost nMax text) xs s hc room with ⟨he, _⟩ | ⟨items, hi, h1, h2, _⟩
      · rw [he]; exact ⟨by rw [ih.1]; rfl, ih.2⟩
      · have : items = [] := by rw [hi, ho]; rfl
        rw [h1, h2, this, ih.1]
        simp
  exact key.1

/-- the matcher itself accepts such a side: `[A/^p1, A/p2]` matches at the first tag after the last `p1` -/
example : Verif.Trigger.run "[A/^p1, A/p2]".toList St.fresh [mkTag "A" "p1", mkTag "B" "", mkTag "A" "p2"] =
    [some .ignore, some .matching, some .notMatching] := by decide +kernel

end Verif.Sel
