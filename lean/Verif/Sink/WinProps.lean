import Verif.Sink.Mux
import Verif.Sink.Snap
/-!
# Data sets of a data sink (C86, C87, C88)
-/
namespace Verif.Sink

variable {α γ σ : Type}

/-! ### The sink -/

/-- What a listener publishes depends on the stream, the sink's history and the listener alone, not on the other listeners. -/
theorem listeners_independent (s s' : Sink α γ σ) (i j : Nat) (hh : s.hist = s'.hist) (hl : s.lis[i]? = s'.lis[j]?)
    (ins : List (In α γ)) : (s.run ins).lis[i]? = (s'.run ins).lis[j]? := by
  rw [run_lis, run_lis, List.getElem?_map, List.getElem?_map, hl, hh]

/-- A streaming callback in a sink is called as C85 says. -/
theorem stream_in_sink (s : Sink α γ σ) (i : Nat) (tk : Bool) (n : Nat) (p : Option (List γ)) (out : List (Call α γ))
    (hl : s.lis[i]? = some (.stream tk n p out)) (ins : List (In α γ)) :
    ∃ p', (s.run ins).lis[i]? = some (.stream tk n p' (out ++ callbacks tk n p ins)) := by
  rw [run_lis, List.getElem?_map, hl, Option.map_some]
  generalize s.hist = h
  clear hl s
  induction ins generalizing h p out with
  | nil => exact ⟨p, by simp [Lis.run, callbacks]⟩
  | cons x r ih =>
    cases x with
    | meta' info => exact ih _ _ _
    | chunk c =>
      obtain ⟨p', e⟩ := ih (callback tk n p c).2 (out ++ (callback tk n p c).1) (h.map (·.push c.data))
      exact ⟨p', by rw [List.append_assoc] at e; exact e⟩

/-- The history of a sink has the last samples while it runs. -/
theorem history_runs (s : Sink α γ σ) (n : Nat) (past : List α) (h : Remembers s.hist n past) (ins : List (In α γ)) :
    Remembers (s.run ins).hist n (past ++ samples ins) := by
  induction ins generalizing s past with
  | nil => simpa [Sink.run, samples] using h
  | cons x r ih =>
    cases x with
    | meta' info => exact ih _ past h
    | chunk c =>
      have := ih (s.step (.chunk c)) (past ++ c.data) (h.push c.data)
      rw [List.append_assoc] at this
      exact this

/-- The first listener that looks back gets a history that is empty at first, long enough for it. -/
theorem history_new (s : Sink α γ σ) (l : Lis α γ σ) (bp : Bool) (h : s.hist = none) :
    Remembers (s.step (.add l bp)).hist l.back [] := by
  simp only [Sink.step, h, ensure, Option.map_none, Option.getD_none]
  by_cases hb : l.back ≤ 0
  · exact .inl (by omega)
  · rw [if_neg hb]
    exact .inr ⟨l.back, Nat.le_refl _, by simp⟩

/-- A listener that looks back no further than the history goes leaves it alone. -/
theorem history_enough (s : Sink α γ σ) (l : Lis α γ σ) (bp : Bool) (n : Nat) (past : List α) (h : Remembers s.hist n past)
    (hb : l.back ≤ n) : Remembers (s.step (.add l bp)).hist n past := by
  rcases h with rfl | ⟨cap, h1, h2⟩
  · exact .inl rfl
  · right
    refine ⟨cap, h1, ?_⟩
    simp only [Sink.step, h2, ensure, Option.map_some, Option.getD_some]
    rw [if_pos (by omega)]

/-- FINDING: a listener that looks back further turns the history round: the samples kept are then in the wrong order, for this
listener and for those added before. -/
theorem history_reversed (s : Sink α γ σ) (l : Lis α γ σ) (bp : Bool) (cap : Nat) (past : List α)
    (h : s.hist = some ⟨cap, past.reverse.take cap⟩) (hb : cap < l.back) :
    (s.step (.add l bp)).hist = some ⟨l.back, past.drop (past.length - cap)⟩ := by
  simp only [Sink.step, h, ensure, Option.map_some, Option.getD_some]
  rw [if_neg (by omega)]
  simp only [Hist.push, List.append_nil, Option.some.injEq, Hist.mk.injEq, true_and]
  rw [List.take_of_length_le (by rw [List.length_reverse, List.length_take]; omega), List.take_reverse, List.reverse_reverse]

/-! ### Around triggers (C86) -/

/-- Every trigger gives one data set, with up to `pre` samples before the sample of the trigger and `post` from it on, in the order
of the triggers, as soon as these samples have come; stopping gives the rest as far as it goes, unless it is empty. -/
theorem trigger_windows (s : Sink α γ σ) (i : Nat) (m : Matcher γ σ) (t : Trig α γ σ) (out : List (DS α γ))
    (hl : s.lis[i]? = some (.trig m t out)) (hnew : t.caps = []) (past : List α) (hrem : Remembers s.hist t.pre past)
    (ins : List (In α γ)) (hat : AtStart ins) (all : List α) (hall : all = past ++ samples ins) (ts : List (Verdict γ))
    (hts : ts = triggers (verdicts m true t.info past.length t.state ins)) :
    (∃ t', (s.run ins).lis[i]? =
      some (.trig m t' (out ++ (ts.filter fun v => v.pos + t.post ≤ all.length).map (window t.pre t.post all)))) ∧
    ∃ t', ((s.run ins).step .stop).lis[i]? =
      some (.trig m t' (out ++ (ts.filter fun v => v.pos + t.post ≤ all.length).map (window t.pre t.post all) ++
        ((ts.filter fun v => all.length < v.pos + t.post).map (window t.pre t.post all)).filter fun d => d.values ≠ [])) := by
  obtain ⟨pre, post, info, st, caps⟩ := t
  obtain rfl : caps = [] := hnew
  obtain ⟨t', e1, e2⟩ := trig_run m ins hat s.hist past pre post info st [] .nil (fun v hv => by cases hv) hrem out
  simp only [List.filter_nil, List.map_nil, List.append_nil, List.nil_append] at e1 e2
  have hi : (s.run ins).lis[i]? = some (.trig m t' (out ++ (ts.filter fun v => v.pos + post ≤ all.length).map (window pre post all))) := by
    rw [run_lis, List.getElem?_map, hl, Option.map_some, e1, hts, hall]
  refine ⟨⟨t', hi⟩, { t' with caps := [] }, ?_⟩
  simp only [Sink.step]
  rw [List.getElem?_map, hi, Option.map_some]
  simp only [Lis.stop, Trig.stop, e2, hts, hall]
  congr 3
  rw [List.filter_map, List.map_map, List.filter_map]
  congr 1
  refine List.filter_congr fun v _ => ?_
  simp only [Function.comp, capOf]
  cases (window pre post (past ++ samples ins) v).values <;> simp

/-- The same for a trigger listener that is added to a sink without history: it gets windows of what follows, with the metadata the sink
has, and the other listeners stay. -/
theorem trigger_added (s : Sink α γ σ) (hh : s.hist = none) (m : Matcher γ σ) (pre post : Nat) (i0 : List γ) (st : σ) (bp : Bool)
    (ins : List (In α γ)) (hat : AtStart ins) :
    ∃ t' before after, before ++ after = s.lis.map (Lis.run (s.step (.add (.trig m ⟨pre, post, i0, st, []⟩ []) bp)).hist ins) ∧
      ((s.step (.add (.trig m ⟨pre, post, i0, st, []⟩ []) bp)).run ins).lis = before ++
        .trig m t' (((triggers (verdicts m true s.info 0 st ins)).filter fun v => v.pos + post ≤ (samples ins).length).map
          (window pre post (samples ins))) :: after := by
  have hrem := history_new s (.trig m ⟨pre, post, i0, st, []⟩ []) bp hh
  generalize hs' : s.step (.add (.trig m ⟨pre, post, i0, st, []⟩ []) bp) = s' at hrem ⊢
  obtain ⟨t', e1, _⟩ := trig_run m ins hat s'.hist [] pre post s.info st [] .nil (fun v hv => by cases hv) hrem []
  simp only [List.filter_nil, List.map_nil, List.append_nil, List.nil_append, List.length_nil] at e1
  have hl : s'.lis = if bp then s.lis ++ [.trig m ⟨pre, post, s.info, st, []⟩ []] else .trig m ⟨pre, post, s.info, st, []⟩ [] :: s.lis := by
    rw [← hs']; rfl
  rw [run_lis, hl]
  cases bp with
  | true => exact ⟨t', s.lis.map (Lis.run s'.hist ins), [], by simp, by simp [e1]⟩
  | false => exact ⟨t', [], s.lis.map (Lis.run s'.hist ins), by simp, by simp [e1]⟩

/-- every tag of the form `[9]` is a trigger -/
def nines : Matcher Nat Unit := fun t _ => (if t.map = [9] then .matching else .ignore, ())

/-- two overlapping windows and one cut short by the end of the stream -/
example : ((Sink.run (⟨none, [.trig nines ⟨2, 3, [], (), []⟩ []], [], false⟩ : Sink Nat Nat Unit) []).step
      (.add (.trig nines ⟨2, 3, [], (), []⟩ []) true)).hist = some ⟨2, []⟩ ∧
    (match ((Sink.run (⟨some ⟨2, []⟩, [.trig nines ⟨2, 3, [5], (), []⟩ []], [], false⟩ : Sink Nat Nat Unit)
        [.chunk ⟨[10], []⟩, .chunk ⟨[11, 12], [⟨0, [9]⟩]⟩, .chunk ⟨[13, 14, 15], [⟨0, [8]⟩, ⟨0, [9]⟩]⟩, .chunk ⟨[16], [⟨0, [9]⟩]⟩]).step .stop).lis with
      | [.trig _ _ out] => out
      | _ => []) =
      [⟨[5], [10, 11, 12, 13], [0, 1, 2, 3], 4, [(1, [9])]⟩,
       ⟨[5], [11, 12, 13, 14, 15], [0, 1, 2, 3, 4], 5, [(2, [9])]⟩,
       ⟨[5], [14, 15, 16], [0, 1, 2], 3, [(2, [9])]⟩] := by decide

/-- FINDING, as seen: after a listener that looks back three samples was added, the window of a listener that looks back two has the two
samples before the trigger in the wrong order. -/
theorem window_reversed :
    (match (Sink.run ((Sink.run ((⟨none, [], [], false⟩ : Sink Nat Nat Unit).step (.add (.trig nines ⟨2, 1, [], (), []⟩ []) true))
          [.chunk ⟨[1, 2], []⟩]).step (.add (.trig nines ⟨3, 1, [], (), []⟩ []) true)) [.chunk ⟨[3], [⟨0, [9]⟩]⟩]).lis with
      | [.trig _ _ a, .trig _ _ b] => (a, b)
      | _ => ([], [])) =
      ([⟨[], [2, 1, 3], [0, 1, 2], 3, [(2, [9])]⟩], [⟨[], [2, 1, 3], [0, 1, 2], 3, [(2, [9])]⟩]) := by decide

/-- FINDING: a trigger on a sample that is not the first of its chunk gives the window of the first. -/
theorem window_at_chunk :
    (match (Sink.run (⟨some ⟨1, []⟩, [.trig nines ⟨1, 1, [], (), []⟩ []], [], false⟩ : Sink Nat Nat Unit)
        [.chunk ⟨[1], []⟩, .chunk ⟨[2, 3, 4], [⟨2, [9]⟩]⟩]).lis with
      | [.trig _ _ a] => a
      | _ => []) = [⟨[], [1, 2], [0, 1], 2, [(1, [9])]⟩] ∧
    (triggers (verdicts nines true [] 0 () [.chunk (⟨[1], []⟩ : Chunk Nat Nat), .chunk ⟨[2, 3, 4], [⟨2, [9]⟩]⟩])).map
      (window 1 1 [1, 2, 3, 4]) = [⟨[], [3, 4], [0, 1], 2, [(1, [9])]⟩] := by decide

/-! ### Between tags (C87) -/

/-- Every start gives one data set: the samples from the start to the next start or stop, cut at the maximum size; it carries the tag of
the start, and that of the end if it was not full before. It is published at its end or when full, in the order of the starts;
stopping publishes what there is of the last. -/
theorem multiplexed_windows (s : Sink α γ σ) (i : Nat) (m : Matcher γ σ) (x : Mux α γ σ) (out : List (DS α γ))
    (hl : s.lis[i]? = some (.mux m x out)) (hnew : x.cur = none) (ins : List (In α γ)) (hat : AtStart ins)
    (limit : Nat) (hlim : limit = if x.maxSize = 0 then 2 ^ 64 - 1 else x.maxSize) (ws : List (Verdict γ × Option (Verdict γ)))
    (hws : ws = sections (borders (verdicts m false x.info 0 x.state ins))) :
    (∃ x', (s.run ins).lis[i]? =
      some (.mux m x' (out ++ (ws.filter fun w => Closed limit (samples ins) w).map (sectionSet limit (samples ins))))) ∧
    ∃ x', ((s.run ins).step .stop).lis[i]? = some (.mux m x' (out ++ ws.map (sectionSet limit (samples ins)))) := by
  obtain ⟨x', a', e1, hf, hat'⟩ := mux_run m ins hat s.hist [] limit x hlim [] [] ⟨fun y hy => (by cases hy), .inl ⟨hnew, rfl⟩⟩ out
  simp only [List.map_nil, List.append_nil, List.nil_append, List.length_nil] at e1 hf hat'
  rw [← hws] at hat'
  have hi : (s.run ins).lis[i]? = some (.mux m x' (out ++ a'.map (sectionSet limit (samples ins)))) := by
    rw [run_lis, List.getElem?_map, hl, Option.map_some, e1]
  have hcl : (a'.filter fun w => decide (Closed limit (samples ins) w)) = a' :=
    List.filter_eq_self.2 fun w hw => by simpa using (hf w hw).closed
  have hst : ((s.run ins).step .stop).lis[i]? =
      some (.mux m { x' with cur := none } (out ++ a'.map (sectionSet limit (samples ins)) ++ x'.cur.toList)) := by
    simp only [Sink.step]
    rw [List.getElem?_map, hi]
    rfl
  rcases hat' with ⟨hc, hs⟩ | ⟨v, h1, h2, hc, hs⟩
  · refine ⟨⟨x', ?_⟩, ⟨{ x' with cur := none }, ?_⟩⟩
    · rw [hi, hs, hcl]
    · rw [hst, hc, hs, Option.toList_none, List.append_nil]
  · refine ⟨⟨x', ?_⟩, ⟨{ x' with cur := none }, ?_⟩⟩
    · rw [hi, hs, List.filter_append, hcl]
      have : ¬ Closed limit (samples ins) (v, none) := by
        rintro (h | h)
        · exact h rfl
        · simp only [inside, List.length_take, List.length_drop] at h
          omega
      rw [List.filter_cons_of_neg (by simpa using this), List.filter_nil, List.append_nil]
    · rw [hst, hc, hs, List.map_append, List.append_assoc]
      simp only [Option.toList_some, List.map_cons, List.map_nil, openSet_eq h1 h2]

/-- `[9]` starts, `[8]` stops -/
def nineToEight : Matcher Nat Unit :=
  fun t _ => (if t.map = [9] then .matching else if t.map = [8] then .notMatching else .ignore, ())

/-- one section ends with a stop, the next is full after three samples, and the last is open when the sink stops -/
example : (match ((Sink.run (⟨none, [.mux nineToEight ⟨3, [5], (), none⟩ []], [], false⟩ : Sink Nat Nat Unit)
        [.chunk ⟨[10], []⟩, .chunk ⟨[11, 12], [⟨0, [9]⟩]⟩, .chunk ⟨[13], [⟨0, [8]⟩]⟩, .chunk ⟨[14, 15, 16, 17], [⟨0, [9]⟩, ⟨0, [7]⟩]⟩,
         .chunk ⟨[18], [⟨0, [8]⟩]⟩, .chunk ⟨[19, 20], [⟨0, [9]⟩]⟩]).step .stop).lis with
      | [.mux _ _ out] => out
      | _ => []) =
      [⟨[5], [11, 12], [0, 1], 2, [(0, [9]), (2, [8])]⟩,
       ⟨[5], [14, 15, 16], [0, 1, 2], 3, [(0, [9])]⟩,
       ⟨[5], [19, 20], [0, 1], 2, [(0, [9])]⟩] := by decide

/-! ### Single samples (C88) -/

/-- Every trigger gives one data set, with the sample that comes `delay` samples after that of the trigger, in the order of the
triggers, unless the stream ends before. The metadata are those at the time of the sample. -/
theorem snapshots_partial (s : Sink α γ σ) (i : Nat) (m : Matcher γ σ) (f : List γ → Nat) (x : Snap γ σ) (out : List (DS α γ))
    (hl : s.lis[i]? = some (.snap m f x out)) (hnew : x.shots = []) (ins : List (In α γ)) (hat : AtStart ins)
    (hf : ∀ info, In.meta' info ∈ ins → f info = x.delay) (ts : List (Verdict γ))
    (hts : ts = triggers (verdicts m true x.info 0 x.state ins)) :
    ∃ x', (s.run ins).lis[i]? = some (.snap m f x' (out ++
        ts.filterMap fun v => snapshot (infoAt x.info 0 ins (v.pos + x.delay)) x.delay (samples ins) v)) ∧
      ((s.run ins).step .stop).lis[i]? = some (.snap m f { x' with shots := [] } (out ++
        ts.filterMap fun v => snapshot (infoAt x.info 0 ins (v.pos + x.delay)) x.delay (samples ins) v)) := by
  obtain ⟨delay, info, st, shots⟩ := x
  obtain rfl : shots = [] := hnew
  obtain ⟨x', e⟩ := snap_run m f delay ins hat hf s.hist [] info st [] .nil (fun v hv => by cases hv) (fun v hv => by cases hv) out
  simp only [List.map_nil, List.nil_append, List.length_nil] at e
  have hi : (s.run ins).lis[i]? = some (.snap m f x' (out ++
        ts.filterMap fun v => snapshot (infoAt info 0 ins (v.pos + delay)) delay (samples ins) v)) := by
    rw [run_lis, List.getElem?_map, hl, Option.map_some, e, hts]
  refine ⟨x', hi, ?_⟩
  simp only [Sink.step]
  rw [List.getElem?_map, hi]
  rfl

/-- two snapshots, one of them in a later chunk than its trigger, and a third whose sample never comes -/
example : (match (Sink.run (⟨none, [.snap nines (fun _ => 2) ⟨2, [5], (), []⟩ []], [], false⟩ : Sink Nat Nat Unit)
        [.chunk ⟨[10, 11, 12], [⟨0, [9]⟩]⟩, .chunk ⟨[13, 14], [⟨0, [9]⟩]⟩, .meta' [6], .chunk ⟨[15], []⟩, .chunk ⟨[16], [⟨0, [9]⟩]⟩]).lis with
      | [.snap _ _ _ out] => out
      | _ => []) =
      [⟨[5], [12], [0], 1, [(-2, [9])]⟩, ⟨[6], [15], [0], 1, [(-2, [9])]⟩] := by decide

/-- FINDING: when the sample rate changes, a snapshot that is waiting keeps its number of samples, so that the delay in time is not the
one asked for, and a later trigger may be published before it. -/
theorem snapshot_overtaken :
    (match (Sink.run (⟨none, [.snap nines (fun i => i.length) ⟨4, [1, 1, 1, 1], (), []⟩ []], [], false⟩ : Sink Nat Nat Unit)
        [.chunk ⟨[10, 11], [⟨0, [9]⟩]⟩, .meta' [1], .chunk ⟨[12, 13], [⟨0, [9]⟩]⟩, .chunk ⟨[14], []⟩]).lis with
      | [.snap _ _ _ out] => out
      | _ => []) =
      [⟨[1], [13], [0], 1, [(-1, [9])]⟩, ⟨[1], [14], [0], 1, [(-4, [9])]⟩] := by decide

end Verif.Sink
