import Verif.TagSink.Model

/-!
# Property C168: sink and monitor log a stream as it is, however it is cut
-/

namespace Verif.TagSink

/-- The tags of a stream that fall to a call for the samples from `p` on, `n` of them, with the place in the call. -/
def tagsIn (ts : List (Nat × Nat)) (p n : Nat) : List (Int × Nat) :=
  (ts.filter fun t => decide (p ≤ t.1 ∧ t.1 < p + n)).map fun t => ((t.1 : Int) - p, t.2)

/-- A stream given to a sink in calls of the given sizes; `base` is where the stream stands. -/
def feed (f : St → List Rat → List (Int × Nat) → St) (xs : List Rat) (ts : List (Nat × Nat)) : Nat → List Nat → St → St
  | _, [], s => s
  | p, n :: ns, s => feed f xs ts (p + n) ns (f s ((xs.drop p).take n) (tagsIn ts p n))

/-- The tags are in order. -/
def Sorted (ts : List (Nat × Nat)) : Prop := ts.Pairwise fun a b => a.1 ≤ b.1

theorem filter_split (ts : List (Nat × Nat)) (p n m : Nat) (hs : Sorted ts) :
    ts.filter (fun t => decide (p ≤ t.1 ∧ t.1 < p + n)) ++ ts.filter (fun t => decide (p + n ≤ t.1 ∧ t.1 < p + n + m)) =
      ts.filter fun t => decide (p ≤ t.1 ∧ t.1 < p + (n + m)) := by
  induction ts with
  | nil => rfl
  | cons a ts ih =>
    unfold Sorted at hs
    rw [List.pairwise_cons] at hs
    have ih := ih hs.2
    by_cases h1 : p ≤ a.1 ∧ a.1 < p + n
    · rw [List.filter_cons_of_pos (by simpa using h1), List.filter_cons_of_neg (by simp; omega), List.filter_cons_of_pos (by simp; omega),
        List.cons_append, ih]
    · by_cases h2 : p + n ≤ a.1 ∧ a.1 < p + n + m
      · have hnil : ts.filter (fun t => decide (p ≤ t.1 ∧ t.1 < p + n)) = [] := by
          rw [List.filter_eq_nil_iff]
          intro t ht
          have := hs.1 t ht
          simp only [decide_eq_true_eq]
          omega
        rw [List.filter_cons_of_neg (by simpa using h1), List.filter_cons_of_pos (by simpa using h2), List.filter_cons_of_pos (by simp; omega),
          hnil, List.nil_append]
        rw [hnil, List.nil_append] at ih
        rw [ih]
      · rw [List.filter_cons_of_neg (by simpa using h1), List.filter_cons_of_neg (by simpa using h2), List.filter_cons_of_neg (by simp; omega), ih]

/-- The tags of a call with the numbers they are logged under. -/
def numbered (ts : List (Nat × Nat)) (p n q : Nat) : List (Nat × Nat) :=
  (ts.filter fun t => decide (p ≤ t.1 ∧ t.1 < p + n)).map fun t => (q + (t.1 - p), t.2)

/-- What one call must do, for a block that logs tags. -/
def Logs (c : Cfg) (f : St → List Rat → List (Int × Nat) → St) : Prop :=
  ∀ s xs ts p n, (f s xs (tagsIn ts p n)).tags = s.tags ++ numbered ts p n s.produced ∧
    (f s xs (tagsIn ts p n)).called = (if c.callback then s.called ++ numbered ts p n s.produced else s.called) ∧
    (f s xs (tagsIn ts p n)).samples = (if c.logSamples then s.samples ++ xs else s.samples) ∧
    (f s xs (tagsIn ts p n)).produced = s.produced + xs.length

/-- More tags in the log and, if there is one, for the callback. -/
def plus (c : Cfg) (s : St) (l : List (Nat × Nat)) : St :=
  { s with tags := s.tags ++ l, called := if c.callback then s.called ++ l else s.called }

theorem fold_tags (c : Cfg) (g : Cfg → St → Int × Nat → St)
    (hg : ∀ s t, g c s t = plus c s [(s.produced + (if t.1 < 0 then 0 else t.1.toNat), t.2)])
    (l : List (Nat × Nat)) (p : Nat) (hl : ∀ t ∈ l, p ≤ t.1) (s : St) :
    (l.map fun t => ((t.1 : Int) - p, t.2)).foldl (g c) s = plus c s (l.map fun t => (s.produced + (t.1 - p), t.2)) := by
  induction l generalizing s with
  | nil => simp [plus]
  | cons a l ih =>
    have ha := hl a (by simp)
    rw [List.map_cons, List.foldl_cons, ih (fun t ht => hl t (by simp [ht])), hg]
    have e : (if (a.1 : Int) - p < 0 then 0 else ((a.1 : Int) - p).toNat) = a.1 - p := by
      rw [if_neg (by omega)]; omega
    dsimp only
    rw [e]
    unfold plus
    cases c.callback <;> simp

theorem sink_logs (c : Cfg) (h : c.logTags = true) : Logs c (fun s xs ts => (sink c s xs ts).1) := by
  intro s xs ts p n
  have hg : ∀ s t, sinkTag c s t = plus c s [(s.produced + (if t.1 < 0 then 0 else t.1.toNat), t.2)] := by
    intro s t; unfold sinkTag; rw [if_pos h]; rfl
  have hl : ∀ t ∈ ts.filter (fun t => decide (p ≤ t.1 ∧ t.1 < p + n)), p ≤ t.1 := by
    intro t ht
    rw [List.mem_filter] at ht
    simp only [decide_eq_true_eq] at ht
    exact ht.2.1
  unfold sink tagsIn
  dsimp only
  rw [fold_tags c sinkTag hg _ p hl s]
  exact ⟨rfl, rfl, rfl, rfl⟩

theorem monitor_logs (c : Cfg) (h : c.logTags = true) : Logs c (monitor c) := by
  intro s xs ts p n
  have hg : ∀ s t, monitorTag c s t = plus c s [(s.produced + (if t.1 < 0 then 0 else t.1.toNat), t.2)] := by
    intro s t; unfold monitorTag; rw [if_pos h]; rfl
  have hl : ∀ t ∈ ts.filter (fun t => decide (p ≤ t.1 ∧ t.1 < p + n)), p ≤ t.1 := by
    intro t ht
    rw [List.mem_filter] at ht
    simp only [decide_eq_true_eq] at ht
    exact ht.2.1
  unfold monitor tagsIn
  rw [fold_tags c monitorTag hg _ p hl s]
  exact ⟨rfl, rfl, rfl, rfl⟩

theorem feed_logs (c : Cfg) (f : St → List Rat → List (Int × Nat) → St) (hf : Logs c f) (xs : List Rat) (ts : List (Nat × Nat)) (hs : Sorted ts)
    (sizes : List Nat) : ∀ (p : Nat) (s : St), p + sizes.sum ≤ xs.length →
      (feed f xs ts p sizes s).tags = s.tags ++ numbered ts p sizes.sum s.produced ∧
      (feed f xs ts p sizes s).called = (if c.callback then s.called ++ numbered ts p sizes.sum s.produced else s.called) ∧
      (feed f xs ts p sizes s).samples = (if c.logSamples then s.samples ++ (xs.drop p).take sizes.sum else s.samples) ∧
      (feed f xs ts p sizes s).produced = s.produced + sizes.sum := by
  induction sizes with
  | nil =>
    intro p s _
    have : numbered ts p 0 s.produced = [] := by
      unfold numbered
      have : ts.filter (fun t => decide (p ≤ t.1 ∧ t.1 < p + 0)) = [] := by
        rw [List.filter_eq_nil_iff]
        intro t _
        simp only [decide_eq_true_eq]
        omega
      rw [this]; rfl
    simp [feed, this]
  | cons n ns ih =>
    intro p s hp
    rw [List.sum_cons] at hp ⊢
    obtain ⟨f1, f2, f3, f4⟩ := hf s ((xs.drop p).take n) ts p n
    have hlen : ((xs.drop p).take n).length = n := by
      rw [List.length_take, List.length_drop]; omega
    rw [hlen] at f4
    obtain ⟨i1, i2, i3, i4⟩ := ih (p + n) (f s ((xs.drop p).take n) (tagsIn ts p n)) (by omega)
    have hnum : numbered ts p n s.produced ++ numbered ts (p + n) ns.sum (s.produced + n) = numbered ts p (n + ns.sum) s.produced := by
      unfold numbered
      rw [← filter_split ts p n ns.sum hs, List.map_append]
      congr 1
      apply List.map_congr_left
      intro t ht
      rw [List.mem_filter] at ht
      have := ht.2
      simp only [decide_eq_true_eq] at this
      have e : s.produced + n + (t.1 - (p + n)) = s.produced + (t.1 - p) := by omega
      rw [e]
    have hx : (xs.drop p).take n ++ (xs.drop (p + n)).take ns.sum = (xs.drop p).take (n + ns.sum) := by
      rw [List.take_add, List.drop_drop]
    unfold feed
    refine ⟨?_, ?_, ?_, ?_⟩
    · rw [i1, f1, f4, List.append_assoc, hnum]
    · rw [i2, f2, f4]
      cases c.callback
      · rfl
      · simp only [if_true]
        rw [List.append_assoc, hnum]
    · rw [i3, f3]
      cases c.logSamples
      · rfl
      · simp only [if_true]
        rw [List.append_assoc, hx]
    · rw [i4, f4]; omega

/-- A new sink or monitor that was given a whole stream, in calls of any sizes, has logged its tags under the numbers of their samples and
its samples, and called back for each tag. -/
theorem stream_logged (c : Cfg) (h : c.logTags = true) (xs : List Rat) (ts : List (Nat × Nat)) (hs : Sorted ts) (hin : ∀ t ∈ ts, t.1 < xs.length)
    (sizes : List Nat) (hz : sizes.sum = xs.length) :
    ∀ f ∈ [fun s xs ts => (sink c s xs ts).1, monitor c],
      (feed f xs ts 0 sizes (start {})).tags = ts ∧ (feed f xs ts 0 sizes (start {})).produced = xs.length ∧
      (feed f xs ts 0 sizes (start {})).called = (if c.callback then ts else []) ∧
      (feed f xs ts 0 sizes (start {})).samples = if c.logSamples then xs else [] := by
  intro f hf
  have hlog : Logs c f := by
    simp only [List.mem_cons, List.not_mem_nil, or_false] at hf
    rcases hf with rfl | rfl
    · exact sink_logs c h
    · exact monitor_logs c h
  obtain ⟨h1, h2, h3, h4⟩ := feed_logs c f hlog xs ts hs sizes 0 (start {}) (by omega)
  have hnum : numbered ts 0 sizes.sum (start {}).produced = ts := by
    unfold numbered
    have hfil : ts.filter (fun t => decide (0 ≤ t.1 ∧ t.1 < 0 + sizes.sum)) = ts := by
      rw [List.filter_eq_self]
      intro t ht
      have := hin t ht
      simp only [decide_eq_true_eq]
      omega
    rw [hfil]
    have e : (fun t : Nat × Nat => ((start {}).produced + (t.1 - 0), t.2)) = id := by
      funext t
      simp [start]
    rw [e, List.map_id]
  rw [hnum] at h1 h2
  refine ⟨h1, ?_, ?_, ?_⟩
  · rw [h4, hz]; simp [start]
  · rw [h2]; rfl
  · rw [h3, hz]
    cases c.logSamples <;> simp [start]

example : (feed (monitor ⟨true, true, 0, true⟩) [5, 6, 7, 8, 9] [(0, 70), (2, 71), (2, 72), (4, 73)] 0 [2, 1, 2] (start {})).tags =
    [(0, 70), (2, 71), (2, 72), (4, 73)] := by decide +kernel

/-- A monitor passes on its input. -/
theorem monitor_passes (c : Cfg) (s : St) (xs : List Rat) (ts : List (Int × Nat)) : (monitor c s xs ts).out = s.out ++ xs := by
  have : ∀ (ts : List (Int × Nat)) (s : St), (ts.foldl (monitorTag c) s).out = s.out := by
    intro ts
    induction ts with
    | nil => intro s; rfl
    | cons t ts ih =>
      intro s
      rw [List.foldl_cons, ih]
      cases h1 : c.logTags <;> cases h2 : c.callback <;> simp [monitorTag, h1, h2]
  unfold monitor
  dsimp only
  rw [this]

/-- The sink is done exactly if a number is expected and it has had that many samples. -/
theorem sink_done (c : Cfg) (s : St) (xs : List Rat) (ts : List (Int × Nat)) :
    (sink c s xs ts).2 = true ↔ 0 < c.expected ∧ c.expected ≤ s.produced + xs.length := by
  have : ∀ (ts : List (Int × Nat)) (s : St), (ts.foldl (sinkTag c) s).produced = s.produced := by
    intro ts
    induction ts with
    | nil => intro s; rfl
    | cons t ts ih =>
      intro s
      rw [List.foldl_cons, ih]
      cases h1 : c.logTags <;> simp [sinkTag, h1]
  unfold sink
  dsimp only
  rw [this]
  simp

/-- One sample at a time is the same as calls of one sample, for at most one tag to a sample. -/
theorem one_is_bulk (c : Cfg) (s : St) (x : Rat) (t : Option Nat) (h : c.logTags = true) :
    oneSample c s x t = monitor c s [x] (t.toList.map fun m => (0, m)) := by
  cases t with
  | none => rfl
  | some m => simp [oneSample, monitor, monitorTag, h]

/-- The findings. The counter is not reset by a new start: a tag at the first sample of the second run is logged under 3, and a sink that
expects 3 samples is done after the first one. Without a log of tags a monitor calls back in bulk processing, but not on single samples, and
a sink never does. -/
theorem findings :
    (let s := (sink ⟨true, true, 3, false⟩ (start {}) [1, 2, 3] []).1
     let r := sink ⟨true, true, 3, false⟩ (start s) [4] [(0, 9)]
     (r.1.tags, r.1.samples, r.2) = ([(3, 9)], [4], true)) ∧
    (monitor ⟨false, true, 0, true⟩ {} [1] [(0, 9)]).called = [(0, 9)] ∧
    (oneSample ⟨false, true, 0, true⟩ {} 1 (some 9)).called = [] ∧
    (sink ⟨false, true, 0, true⟩ {} [1] [(0, 9)]).1.called = [] := by
  decide +kernel

end Verif.TagSink
