import Verif.Sync.Aligned

/-!
C81 and C82: the synchronising block keeps its outputs in step, aligns them by the tags and reports every sample it drops.
-/
namespace Verif.Sync

def demoTag (i t : Nat) : Tag := ⟨i, some "T", some (.u64 t), 0⟩

def demoCfg : Cfg := ⟨5, "", 2⟩

def demo : List (List Nat × List Tag) :=
  [([1, 2, 3, 4, 5, 6, 7], [demoTag 1 99, demoTag 4 201]), ([10, 20, 30, 40, 50, 60, 70], [demoTag 2 100, demoTag 6 200])]

def demoCalls : List (List (Nat × Nat)) := [[(3, 10), (1, 10)], [(9, 10), (9, 10)], [(9, 10), (9, 10)]]

theorem demo_ok : StreamsOk demo ∧ (∀ x ∈ demo, x.1.length < 2 ^ 32) ∧ CallsOk demo.length demoCalls := by
  refine ⟨?_, by decide, fun call h => by revert call; decide⟩
  intro x hx
  simp only [demo, List.mem_cons, List.not_mem_nil, or_false] at hx
  rcases hx with rfl | rfl
  · refine ⟨by decide, ?_⟩
    intro t ht n hn
    simp only [List.mem_cons, List.not_mem_nil, or_false] at ht
    rcases ht with rfl | rfl <;> (cases hn; decide)
  · refine ⟨by decide, ?_⟩
    intro t ht n hn
    simp only [List.mem_cons, List.not_mem_nil, or_false] at ht
    rcases ht with rfl | rfl <;> (cases hn; decide)

example : (run demoCfg (Sys.init demo) demoCalls).ports.map (fun p => (p.out, p.outTags)) =
    [([1, 2, 3, 4, 5, 6, 7].take 5, [.input 1 (demoTag 1 99), .input 4 (demoTag 4 201)]),
      ([20, 30, 40, 50, 70], [.dropped 0 1, .input 1 (demoTag 2 100), .dropped 4 1, .input 4 (demoTag 6 200)])] := by decide

/-- C81: every sample of an output is a sample of its input, and the tags on the output say how many samples are missing before it. Holds for streams
of fewer than 2 ^ 32 samples. -/
theorem samples_accounted_partial {α} {c : Cfg} {streams : List (List α × List Tag)} (hs : StreamsOk streams) (hl : ∀ x ∈ streams, x.1.length < 2 ^ 32)
    (hne : streams ≠ []) {calls : List (List (Nat × Nat))} (hc : CallsOk streams.length calls) :
    ∀ (k : Nat) (p : Port α), (run c (Sys.init streams) calls).ports[k]? = some p →
      ∃ xs ts, streams[k]? = some (xs, ts) ∧ ∀ n, n < p.out.length → p.out[n]? = xs[n + droppedUpTo p.outTags n]? ∧
        n + droppedUpTo p.outTags n < xs.length := by
  intro k p hp
  have h := run_ok (c := c) (init_ok hs hl) hne hc
  obtain ⟨d, -, hok⟩ := h.each hp
  refine ⟨_, _, h.same k p hp, fun n hn => ⟨hok.samples n hn, ?_⟩⟩
  have h1 := hok.samples n hn
  rw [List.getElem?_eq_getElem hn] at h1
  exact (List.getElem?_eq_some_iff.1 h1.symm).1

/-- C81: the tags on a sample of an output are those on the sample at the input, in order, and the tags of an output come in order. -/
theorem tags_accounted_partial {α} {c : Cfg} {streams : List (List α × List Tag)} (hs : StreamsOk streams) (hl : ∀ x ∈ streams, x.1.length < 2 ^ 32)
    (hne : streams ≠ []) {calls : List (List (Nat × Nat))} (hc : CallsOk streams.length calls) :
    ∀ (k : Nat) (p : Port α), (run c (Sys.init streams) calls).ports[k]? = some p →
      ∃ xs ts, streams[k]? = some (xs, ts) ∧
        (∀ n, n < p.out.length → tagsAt p.outTags n = ts.filter fun t => decide (t.index = n + droppedUpTo p.outTags n)) ∧
        (∀ o t, OTag.input o t ∈ p.outTags → o < p.out.length) ∧ p.outTags.Pairwise fun a b => a.at ≤ b.at := by
  intro k p hp
  have h := run_ok (c := c) (init_ok hs hl) hne hc
  obtain ⟨d, -, hok⟩ := h.each hp
  exact ⟨_, _, h.same k p hp, hok.kept, hok.inOffs, hok.order⟩

/-- C81: all outputs have the same number of samples at all times. -/
theorem in_step {α} {c : Cfg} {streams : List (List α × List Tag)} (hs : StreamsOk streams) (hl : ∀ x ∈ streams, x.1.length < 2 ^ 32)
    (hne : streams ≠ []) {calls : List (List (Nat × Nat))} (hc : CallsOk streams.length calls) :
    ∃ n, ∀ p ∈ (run c (Sys.init streams) calls).ports, p.out.length = n :=
  (run_ok (c := c) (init_ok hs hl) hne hc).lock

/-- C82: when the inputs have a time in common the call aligns them: there is a number `m` such that on every input all samples but the `m` before a
synchronisation tag of that time are dropped, and as many samples are published on every output. What follows the tag has no other
synchronisation tag; the outputs are full or one of the inputs has no further samples before its next synchronisation tag. If no
synchronisation tags come before these, one of the inputs loses nothing. Holds if no other tags have a time as near. -/
theorem aligned_partial {α} {c : Cfg} {s : St} {ins : List (In α)} {rooms : List Nat} (hi : ∀ i ∈ ins, i.Ok) (hne : ins ≠ [])
    (hd : s.dropped.length = ins.length) (hr : rooms.length = ins.length) (h : CanSync c ins) (hcl : Clean c ins) :
    ∃ (T m q : Nat) (t : Nat → Tag), Earliest c ins T ∧ (∀ n ∈ rooms, q ≤ n) ∧
      (∀ (k : Nat) (i : In α), ins[k]? = some i → ∃ r S, (processBulk c s ins rooms).2[k]? = some r ∧
        t k ∈ i.tags ∧ SyncTag c (t k) S ∧ Near c S T ∧ i.start + m ≤ (t k).index ∧
        r.consumed = (t k).index - i.start - m + q ∧ r.samples = (i.samples.drop ((t k).index - i.start - m)).take q ∧ r.samples.length = q ∧
        (m < q → r.samples[m]? = i.samples[(t k).index - i.start]? ∧ .input m (t k) ∈ r.tags) ∧
        ∀ o u, OTag.input o u ∈ r.tags → m < o → ∀ S, ¬ SyncTag c u S) ∧
      (q ∈ rooms ∨ m < q ∧ ∃ (k : Nat) (i : In α) (r : Res α), ins[k]? = some i ∧ (processBulk c s ins rooms).2[k]? = some r ∧
        (r.consumed = i.samples.length ∨ ∃ u ∈ i.tags, u.index = i.start + r.consumed ∧ ∃ S, SyncTag c u S)) ∧
      ((∀ (k : Nat) (i : In α), ins[k]? = some i → ∀ u ∈ i.tags, u.index < (t k).index → ∀ S, ¬ SyncTag c u S) →
        ∃ (k : Nat) (i : In α) (r : Res α), ins[k]? = some i ∧ (processBulk c s ins rooms).2[k]? = some r ∧ r.consumed = q) := by
  obtain ⟨T, m, post, hT, -, -, h3, ⟨k1, i1, x1, hk1, hx1, hm1⟩, k2, i2, x2, hk2, hx2, hm2⟩ :=
    bulk_sync (rooms := rooms) hi hne hd h
  have hdk : ∀ (k : Nat) (i : In α), ins[k]? = some i → ∃ d, s.dropped[k]? = some d := by
    intro k i hk
    have := (List.getElem?_eq_some_iff.1 hk).1
    exact ⟨_, List.getElem?_eq_getElem (by omega)⟩
  have hsync : ∀ i ∈ ins, ∀ t ∈ i.tags, Near c (timeOf t) T → SyncTag c t (timeOf t) := by
    intro i hi' t ht hn
    obtain ⟨j, hj, u, hu, hT'⟩ := hT.1.1
    obtain ⟨S, hS⟩ := hcl i hi' t ht j hj u hu T hT' hn
    have := hS.time
    rw [getTime_eq] at this
    rw [this]
    exact hS
  have hrne : rooms ≠ [] := by
    intro he
    rw [he] at hr
    exact hne (List.length_eq_zero_iff.1 hr.symm)
  have hch : ∀ k : Nat, ∃ t : Tag, ∀ (i : In α) (d : Nat), ins[k]? = some i → s.dropped[k]? = some d →
      ∃ x, syncData c T i = some x ∧ DataOk c T i t x ∧ m ≤ x.pre ∧ post ≤ x.post ∧
        (processBulk c s ins rooms).2[k]? = some (emit i d (x.index - m) (min (m + 1 + post) (minOf rooms))) := by
    intro k
    cases hk : ins[k]? with
    | none => exact ⟨demoTag 0 0, fun i d hx => by cases hx⟩
    | some i =>
      obtain ⟨d, hd'⟩ := hdk k i hk
      obtain ⟨t, x, h⟩ := h3 k i d hk hd'
      refine ⟨t, fun i' d' hi' hd'' => ?_⟩
      cases hi'
      rw [hd'] at hd''
      cases hd''
      exact ⟨x, h⟩
  obtain ⟨tk, h3⟩ := Classical.axiomOfChoice hch
  refine ⟨T, m, min (m + 1 + post) (minOf rooms), tk, hT, ?_, ?_, ?_, ?_⟩
  · intro n hn
    have := minOf_le hn
    omega
  · intro k i hk
    obtain ⟨d, hd'⟩ := hdk k i hk
    obtain ⟨x, -, hx, hm, hp, hres⟩ := h3 k i d hk hd'
    generalize tk k = t at hx hres ⊢
    have hin := hx.inside
    have hix := hx.index
    have hpre := hx.pre
    refine ⟨_, timeOf t, hres, hx.mem, hsync i (List.mem_of_getElem? hk) t hx.mem hx.near, hx.near, by omega, ?_, ?_, ?_, ?_, ?_⟩
    · rw [← hix]; rfl
    · rw [← hix]; rfl
    · simp only [emit, List.length_take, List.length_drop]
      omega
    · intro hlt
      refine ⟨?_, ?_⟩
      · simp only [emit]
        rw [List.getElem?_take_of_lt hlt, List.getElem?_drop, ← hix]
        congr 1
        omega
      · simp only [emit]
        apply List.mem_append_right
        simp only [inputTags, List.mem_filterMap]
        refine ⟨t, hx.mem, ?_⟩
        simp only [relIndex, hin.1, if_true]
        rw [if_pos (by omega)]
        have : t.index - i.start - (x.index - m) = m := by omega
        rw [this]
    · intro o u hu ho S hS
      simp only [emit] at hu
      rcases List.mem_append.1 hu with hu | hu
      · unfold dropTag at hu
        split at hu
        · simp at hu
        · cases hu
      · obtain ⟨v, hv, hv1, hv2, he⟩ := mem_inputTags hu
        simp only [OTag.input.injEq] at he
        obtain ⟨ho', rfl⟩ := he
        exact hx.post u hv (by omega) (by omega) S hS
  · by_cases hq : m + 1 + post < minOf rooms
    · right
      obtain ⟨d, hd'⟩ := hdk k2 i2 hk2
      obtain ⟨x, hxe, hx, hm, hp, hres⟩ := h3 k2 i2 d hk2 hd'
      rw [hx2] at hxe
      cases hxe
      refine ⟨by omega, k2, i2, _, hk2, hres, ?_⟩
      have hin := hx.inside
      have hix := hx.index
      have hpre := hx.pre
      have hcon : (emit i2 d (x2.index - m) (min (m + 1 + post) (minOf rooms))).consumed = x2.index + 1 + x2.post := by
        simp only [emit]; omega
      rw [hcon]
      rcases hx.postEnd with he | ⟨u, hu, hu1, hu2⟩
      · exact .inl he
      · exact .inr ⟨u, hu, by omega, hu2⟩
    · left
      have := minOf_mem hrne
      rw [Nat.min_eq_right (by omega)]
      exact this
  · intro hno
    obtain ⟨d, hd'⟩ := hdk k1 i1 hk1
    obtain ⟨x, hxe, hx, hm, hp, hres⟩ := h3 k1 i1 d hk1 hd'
    rw [hx1] at hxe
    cases hxe
    refine ⟨k1, i1, _, hk1, hres, ?_⟩
    have hall := hx.preAll fun u hu hlt S hS => hno k1 i1 hk1 u hu hlt S hS
    simp only [emit]
    omega

def demoIns : List (In Nat) := [⟨[1, 2, 3, 4, 5], 0, [demoTag 1 99, demoTag 4 201]⟩, ⟨[10, 20, 30, 40], 0, [demoTag 2 100]⟩]

example : CanSync demoCfg demoIns ∧ Clean demoCfg demoIns := by
  have hall : ∀ i ∈ demoIns, ∀ t ∈ i.tags, t = demoTag 1 99 ∨ t = demoTag 4 201 ∨ t = demoTag 2 100 := by decide
  refine ⟨⟨99, by decide, ⟨_, List.mem_cons_self .., demoTag 1 99, by simp, "T", rfl, .inl rfl, rfl⟩, ?_⟩, ?_⟩
  · intro i hi
    simp only [demoIns, List.mem_cons, List.not_mem_nil, or_false] at hi
    rcases hi with rfl | rfl
    · exact ⟨demoTag 1 99, by simp, 99, ⟨"T", rfl, .inl rfl, rfl⟩, by decide, by decide⟩
    · exact ⟨demoTag 2 100, by simp, 100, ⟨"T", rfl, .inl rfl, rfl⟩, by decide, by decide⟩
  · intro i hi t ht j hj u hu T hT hn
    rcases hall i hi t ht with rfl | rfl | rfl <;> exact ⟨_, "T", rfl, .inl rfl, rfl⟩

example : (processBulk demoCfg ⟨false, [0, 0]⟩ demoIns [9, 9]).2.map (fun r => (r.consumed, r.samples)) = [(3, [1, 2, 3]), (4, [20, 30, 40])] := by decide

/-- A tag without a name that has the time of a synchronisation tag takes its place: the synchronisation tags come out two samples apart. -/
theorem other_tag_misaligns :
    let other : Tag := ⟨1, none, some (.u64 100), 0⟩
    let ins : List (In Nat) := [⟨[1, 2, 3, 4], 0, [other, demoTag 3 100]⟩, ⟨[10, 20, 30, 40], 0, [demoTag 3 100]⟩]
    CanSync demoCfg ins ∧ (processBulk demoCfg ⟨false, [0, 0]⟩ ins [9, 9]).2.map (·.tags) =
      [[.input 1 other], [.dropped 0 2, .input 1 (demoTag 3 100)]] := by
  refine ⟨⟨100, by decide, ⟨_, List.mem_cons_self .., demoTag 3 100, by simp, "T", rfl, .inl rfl, rfl⟩, ?_⟩, by decide⟩
  intro i hi
  refine ⟨demoTag 3 100, ?_, 100, ⟨"T", rfl, .inl rfl, rfl⟩, by decide, by decide⟩
  simp only [List.mem_cons, List.not_mem_nil, or_false] at hi
  rcases hi with rfl | rfl <;> simp

/-- With a tolerance of zero the block never aligns its inputs. -/
theorem zero_tolerance {α} {c : Cfg} (h : c.tolerance = 0) {ins : List (In α)} (hne : ins ≠ []) : ¬ CanSync c ins := by
  rintro ⟨T, -, -, h2⟩
  obtain ⟨i, hi⟩ := List.exists_mem_of_ne_nil _ hne
  obtain ⟨t, -, u, -, h1, h3⟩ := h2 i hi
  omega

/-- C82: nothing is published while the inputs are not aligned, or if one of them has no sample before its next synchronisation tag or an output is full; of
every input the last samples are kept, as many as the history holds. -/
theorem waits {α} {c : Cfg} {streams : List (List α × List Tag)} (hs : StreamsOk streams) (hl : ∀ x ∈ streams, x.1.length < 2 ^ 32)
    (hne : streams ≠ []) {calls : List (List (Nat × Nat))} (hc : CallsOk streams.length calls) {call : List (Nat × Nat)}
    (hc' : call.length = streams.length) (h2 : ¬ CanSync c ((run c (Sys.init streams) calls).views call))
    (h1 : ¬ Aligned c (Sys.init streams) calls ∨ (∃ x ∈ call, x.2 = 0) ∨
      ∃ i ∈ (run c (Sys.init streams) calls).views call, i.samples = [] ∨ ∃ t ∈ i.tags, t.index = i.start ∧ ∃ S, SyncTag c t S) :
    ∀ (k : Nat) (p : Port α), (run c (Sys.init streams) calls).ports[k]? = some p → ∃ p' i, (run c (Sys.init streams) (calls ++ [call])).ports[k]? = some p' ∧
      ((run c (Sys.init streams) calls).views call)[k]? = some i ∧ p'.out = p.out ∧ p'.outTags = p.outTags ∧ p'.pos = p.pos + (i.samples.length - c.history) := by
  intro k p hp
  have h := run_ok (c := c) (init_ok hs hl) hne hc
  have hvl : ((run c (Sys.init streams) calls).views call).length = streams.length := by rw [views_length (by rw [h.len, hc']), h.len]
  have hvne : (run c (Sys.init streams) calls).views call ≠ [] := by
    intro he
    rw [he] at hvl
    exact hne (List.length_eq_zero_iff.1 hvl.symm)
  have hsy : (run c (Sys.init streams) calls).st.synced = false ∨ copies c ((run c (Sys.init streams) calls).views call) (call.map (·.2)) = 0 := by
    rcases h1 with h1 | ⟨x, hx, h0⟩ | ⟨i, hi, h0⟩
    · left
      rw [← synced_iff hs hl hne calls hc] at h1
      simpa using h1
    · right
      have := minOf_le (List.mem_map.2 ⟨x, hx, rfl⟩ : x.2 ∈ call.map (·.2))
      unfold copies
      omega
    · right
      have hle := before_le (c := c) (rooms := call.map (·.2)) hi
      obtain ⟨ha, hb, -⟩ := samplesBefore_ok (c := c) (views_ok h call i hi)
      rcases h0 with h0 | ⟨t, ht, he, S, hS⟩
      · rw [h0, List.length_nil] at ha
        omega
      · by_cases hz : 0 < samplesBefore c i
        · exact absurd hS (hb t ht (by omega) S)
        · omega
  obtain ⟨x, hx, hv, hr⟩ := step_at (c := c) h hc' hp
  rw [bulk_skip (views_ok h call) hvne h2 hsy] at hr
  have hr := hr ⟨excess c (p.view x.1), [], []⟩ (by simp only [List.getElem?_map, hv, Option.map_some])
  refine ⟨_, _, by rw [run_snoc]; exact hr, hv, by simp [Port.apply], by simp [Port.apply], ?_⟩
  simp only [Port.apply, excess_eq]

/-- C82: nothing is published before the inputs have a time in common. -/
theorem silent {α} {c : Cfg} {streams : List (List α × List Tag)} (hs : StreamsOk streams) (hl : ∀ x ∈ streams, x.1.length < 2 ^ 32)
    (hne : streams ≠ []) {calls : List (List (Nat × Nat))} (hc : CallsOk streams.length calls)
    (h : ∀ before call after, calls = before ++ call :: after → ¬ CanSync c ((run c (Sys.init streams) before).views call)) :
    ∀ p ∈ (run c (Sys.init streams) calls).ports, p.out = [] ∧ p.outTags = [] := by
  have hrev : ∀ rev : List (List (Nat × Nat)), CallsOk streams.length rev.reverse →
      (∀ before call after, rev.reverse = before ++ call :: after → ¬ CanSync c ((run c (Sys.init streams) before).views call)) →
      ∀ p ∈ (run c (Sys.init streams) rev.reverse).ports, p.out = [] ∧ p.outTags = [] := by
    intro rev
    induction rev with
    | nil =>
      intro _ _ p hp
      obtain ⟨x, -, rfl⟩ := List.mem_map.1 hp
      exact ⟨rfl, rfl⟩
    | cons call rev ih =>
      intro hc h p' hp'
      rw [List.reverse_cons] at hc h hp'
      have hc1 : CallsOk streams.length rev.reverse := fun x hx => hc x (List.mem_append_left _ hx)
      have hc2 := hc call (by simp)
      have hn : ¬ Aligned c (Sys.init streams) rev.reverse := by
        rintro ⟨b, x, a, he, hx, -⟩
        exact h b x (a ++ [call]) (by rw [he]; simp) hx
      have ih := ih hc1 fun b x a he => h b x (a ++ [call]) (by rw [he]; simp)
      obtain ⟨k, hk⟩ := List.mem_iff_getElem?.1 hp'
      have hok := run_ok (c := c) (init_ok hs hl) hne hc1
      have hok' := run_ok (c := c) (init_ok hs hl) hne hc
      have hlt : k < (run c (Sys.init streams) rev.reverse).ports.length := by
        have := (List.getElem?_eq_some_iff.1 hk).1
        have := hok.len
        have := hok'.len
        omega
      have hp := List.getElem?_eq_getElem hlt
      obtain ⟨p'', i, h1, -, h3, h4, -⟩ := waits hs hl hne hc1 hc2 (h rev.reverse call [] (by simp)) (.inl hn) k _ hp
      rw [hk] at h1
      cases h1
      rw [h3, h4]
      exact ih _ (List.mem_of_getElem? hp)
  have := hrev calls.reverse
  simp only [List.reverse_reverse] at this
  exact this hc h

/-- C82: while the inputs are aligned, samples are passed on without loss up to the next synchronisation tag. -/
theorem passes_on {α} {c : Cfg} {streams : List (List α × List Tag)} (hs : StreamsOk streams) (hl : ∀ x ∈ streams, x.1.length < 2 ^ 32)
    (hne : streams ≠ []) {calls : List (List (Nat × Nat))} (hc : CallsOk streams.length calls) {call : List (Nat × Nat)}
    (hc' : call.length = streams.length) (h1 : Aligned c (Sys.init streams) calls) (h2 : ¬ CanSync c ((run c (Sys.init streams) calls).views call))
    (h3 : ∀ i ∈ (run c (Sys.init streams) calls).views call, i.samples ≠ [] ∧ ∀ t ∈ i.tags, t.index = i.start → ∀ S, ¬ SyncTag c t S)
    (h4 : ∀ x ∈ call, 0 < x.2) :
    ∃ q, 0 < q ∧
      (∀ (k : Nat) (p : Port α), (run c (Sys.init streams) calls).ports[k]? = some p → ∃ p' i, (run c (Sys.init streams) (calls ++ [call])).ports[k]? = some p' ∧
        ((run c (Sys.init streams) calls).views call)[k]? = some i ∧ q ≤ i.samples.length ∧ p'.out = p.out ++ i.samples.take q ∧ p'.pos = p.pos + q ∧
        ∀ t ∈ i.tags, t.index < i.start + q → ∀ S, ¬ SyncTag c t S) ∧
      (q ∈ call.map (·.2) ∨ ∃ i ∈ (run c (Sys.init streams) calls).views call, q = i.samples.length ∨ ∃ u ∈ i.tags, u.index = i.start + q ∧ ∃ S, SyncTag c u S) := by
  have h := run_ok (c := c) (init_ok hs hl) hne hc
  have hvl : ((run c (Sys.init streams) calls).views call).length = streams.length := by rw [views_length (by rw [h.len, hc']), h.len]
  have hvne : (run c (Sys.init streams) calls).views call ≠ [] := by
    intro he
    rw [he] at hvl
    exact hne (List.length_eq_zero_iff.1 hvl.symm)
  have hcne : call.map (·.2) ≠ [] := by
    intro he
    have := congrArg List.length he
    rw [List.length_map, hc'] at this
    exact hne (List.length_eq_zero_iff.1 this)
  have hsy := (synced_iff hs hl hne calls hc).2 h1
  have hvo := views_ok h call
  generalize hvd : (run c (Sys.init streams) calls).views call = ins at *
  have hbef : ∀ i ∈ ins, 0 < samplesBefore c i := by
    intro i hi
    obtain ⟨ha, -, hb⟩ := samplesBefore_ok (c := c) (hvo i hi)
    by_cases h0 : 0 < samplesBefore c i
    · exact h0
    · exfalso
      have h0 : samplesBefore c i = 0 := by omega
      rcases hb with hb | ⟨u, hu, hu1, S, hS⟩
      · rw [h0] at hb
        exact (h3 i hi).1 (List.length_eq_zero_iff.1 hb.symm)
      · exact (h3 i hi).2 u hu (by omega) S hS
  have hq : 0 < copies c ins (call.map (·.2)) := by
    obtain ⟨i, hi, he⟩ := List.mem_map.1 (minOf_mem (l := ins.map (samplesBefore c)) (by simpa using hvne))
    obtain ⟨x, hx, he'⟩ := List.mem_map.1 (minOf_mem hcne)
    have := hbef i hi
    have := h4 x hx
    unfold copies
    omega
  refine ⟨copies c ins (call.map (·.2)), hq, ?_, ?_⟩
  · intro k p hp
    obtain ⟨x, hx, hv, hr⟩ := step_at (c := c) h hc' hp
    rw [hvd] at hv hr
    obtain ⟨d, hd, -⟩ := h.each hp
    rw [bulk_copy hvo hvne h2 hsy hq] at hr
    have hr := hr (emit (p.view x.1) d 0 (copies c ins (call.map (·.2)))) (by
      simp only [List.getElem?_map, getElem?_zip hv hd, Option.map_some])
    have hi := List.mem_of_getElem? hv
    obtain ⟨ha, hb, -⟩ := samplesBefore_ok (c := c) (hvo _ hi)
    have hle := before_le (c := c) (rooms := call.map (·.2)) hi
    refine ⟨_, _, by rw [run_snoc]; exact hr, hv, by omega, by simp [Port.apply, emit], by simp [Port.apply, emit], ?_⟩
    intro t ht hlt
    exact hb t ht (by omega)
  · by_cases hlt : minOf (ins.map (samplesBefore c)) < minOf (call.map (·.2))
    · right
      obtain ⟨i, hi, he⟩ := List.mem_map.1 (minOf_mem (l := ins.map (samplesBefore c)) (by simpa using hvne))
      have hce : copies c ins (call.map (·.2)) = samplesBefore c i := by
        unfold copies
        omega
      rw [hce]
      exact ⟨i, hi, (samplesBefore_ok (hvo i hi)).2.2⟩
    · left
      have := minOf_mem hcne
      have hce : copies c ins (call.map (·.2)) = minOf (call.map (·.2)) := by
        unfold copies
        omega
      rw [hce]
      exact this

example : Aligned demoCfg (Sys.init demo) demoCalls ∧ ¬ Aligned demoCfg (Sys.init demo) (demoCalls.take 1) := by
  rw [← synced_iff demo_ok.1 demo_ok.2.1 (by simp [demo]) _ demo_ok.2.2,
    ← synced_iff demo_ok.1 demo_ok.2.1 (by simp [demo]) _ fun x hx => demo_ok.2.2 x (List.mem_of_mem_take hx)]
  decide

/-- C82: the samples with the tags that align the inputs come out at the same place of all outputs, unless the outputs have no room for them yet. -/
theorem same_place_partial {α} {c : Cfg} {streams : List (List α × List Tag)} (hs : StreamsOk streams) (hl : ∀ x ∈ streams, x.1.length < 2 ^ 32)
    (hne : streams ≠ []) {calls : List (List (Nat × Nat))} (hc : CallsOk streams.length calls) {call : List (Nat × Nat)}
    (hc' : call.length = streams.length) (h2 : CanSync c ((run c (Sys.init streams) calls).views call))
    (hcl : Clean c ((run c (Sys.init streams) calls).views call)) :
    ∃ (T n : Nat) (t : Nat → Tag), Earliest c ((run c (Sys.init streams) calls).views call) T ∧
      ((∃ x ∈ call, ∀ p ∈ (run c (Sys.init streams) calls).ports, p.out.length + x.2 ≤ n) ∨
      ∀ (k : Nat) (p' : Port α), (run c (Sys.init streams) (calls ++ [call])).ports[k]? = some p' →
        ∃ S, t k ∈ p'.tags ∧ SyncTag c (t k) S ∧ Near c S T ∧ p'.out[n]? = p'.stream[(t k).index]? ∧ n < p'.out.length ∧ .input n (t k) ∈ p'.outTags) := by
  have h := run_ok (c := c) (init_ok hs hl) hne hc
  have h' := step_ok (c := c) h hne hc'
  have hvl : ((run c (Sys.init streams) calls).views call).length = streams.length := by rw [views_length (by rw [h.len, hc']), h.len]
  have hvne : (run c (Sys.init streams) calls).views call ≠ [] := by
    intro he
    rw [he] at hvl
    exact hne (List.length_eq_zero_iff.1 hvl.symm)
  obtain ⟨L, hL⟩ := h.lock
  obtain ⟨T, m, q, t, hT, hq, hall, hmax, -⟩ := aligned_partial (s := (run c (Sys.init streams) calls).st) (rooms := call.map (·.2)) (views_ok h call) hvne
    (by rw [h.dlen, hvl]) (by rw [List.length_map, hc', hvl]) h2 hcl
  refine ⟨T, L + m, t, hT, ?_⟩
  by_cases hm : m < q
  · right
    intro k p' hk
    rw [run_snoc] at hk
    have hlt : k < (run c (Sys.init streams) calls).ports.length := by
      have := (List.getElem?_eq_some_iff.1 hk).1
      have := h.len
      have := h'.len
      omega
    have hp := List.getElem?_eq_getElem hlt
    obtain ⟨x, hx, hv, hr⟩ := step_at (c := c) h hc' hp
    obtain ⟨r, S, hres, ht, hS, hn, hle, hcon, hsam, hlen, htag, -⟩ := hall k _ hv
    have := hr r hres
    rw [hk] at this
    cases this
    obtain ⟨d, -, hok⟩ := h.each hp
    have hpl := hL _ (List.mem_of_getElem? hp)
    generalize (run c (Sys.init streams) calls).ports[k] = p at *
    obtain ⟨hg, hin⟩ := htag hm
    have htm : t k ∈ p.tags := by
      rw [view_tags hok] at ht
      exact (List.mem_filter.1 ht).1
    have hbound := (view_ok hok x.1).inside _ ht
    refine ⟨S, htm, hS, hn, ?_, ?_, ?_⟩
    · have e : (p.apply x.1 r).out = p.out ++ r.samples := rfl
      have es : (p.view x.1).start = p.pos := rfl
      rw [e, List.getElem?_append_right (by omega), hpl, Nat.add_sub_cancel_left, hg, es]
      have ev : (p.view x.1).samples = (p.stream.drop p.pos).take x.1 := rfl
      have hlt : (t k).index - p.pos < x.1 := by
        have : (p.view x.1).samples.length ≤ x.1 := by rw [ev]; simp [List.length_take]; omega
        omega
      rw [ev, List.getElem?_take_of_lt hlt, List.getElem?_drop]
      congr 1
      omega
    · have e : (p.apply x.1 r).out = p.out ++ r.samples := rfl
      rw [e, List.length_append]
      omega
    · have e : (p.apply x.1 r).outTags = p.outTags ++ r.tags.map (shift p.out.length) := rfl
      rw [e, hpl]
      exact List.mem_append_right _ (List.mem_map.2 ⟨_, hin, rfl⟩)
  · left
    rcases hmax with hmax | ⟨hmax, -⟩
    · obtain ⟨x, hx, he⟩ := List.mem_map.1 hmax
      refine ⟨x, hx, fun p hp => ?_⟩
      rw [hL p hp]
      omega
    · exact absurd hmax hm

/-- The documentation (SyncBlock.hpp:91-102) shows the sample with a tag the other input lacks in the output; it is dropped, on both outputs, although the
inputs are aligned. -/
theorem unmatched_tag_drops :
    (run demoCfg (Sys.init [([1, 2, 3, 4, 5, 6, 7, 8, 9], [demoTag 0 100, demoTag 6 300]),
      ([1, 2, 3, 4, 5, 6, 7, 8, 9], [demoTag 0 100, demoTag 2 200, demoTag 6 300])]) [[(9, 9), (9, 9)], [(9, 9), (9, 9)]]).ports.map (fun p => (p.out, p.outTags)) =
      [([1, 2, 4, 5, 6, 7, 8, 9], [.input 0 (demoTag 0 100), .dropped 2 1, .input 5 (demoTag 6 300)]),
        ([1, 2, 4, 5, 6, 7, 8, 9], [.input 0 (demoTag 0 100), .dropped 2 1, .input 5 (demoTag 6 300)])] := by decide

def wrapCfg : Cfg := ⟨0, "", 2⟩
def wrapStream (n : Nat) : List (List Bool × List Tag) := [(List.replicate n false ++ [true], [demoTag n 100])]

theorem wrap_first (n : Nat) (st : List (List Bool × List Tag)) (h : st = wrapStream n) : (Sys.init st).step wrapCfg [(n, 1)] =
   ⟨⟨false, [n]⟩, [⟨List.replicate n false ++ [true], [demoTag n 100], n, [demoTag n 100], [], []⟩]⟩ := by
  subst h
  have hv : (Sys.init (wrapStream n)).views [(n, 1)] = [⟨List.replicate n false, 0, []⟩] := by
    simp [Sys.init, wrapStream, Sys.views, Port.view, demoTag]
  have hb : processBulk wrapCfg ⟨false, [0]⟩ [(⟨List.replicate n false, 0, []⟩ : In Bool)] [1] = (⟨false, [n]⟩, [⟨n, [], []⟩]) := by
    simp [processBulk, synchronize, findSyncTime, syncTimes, noTime, excess, wrapCfg]
  unfold Sys.step
  rw [hv]
  have e : (Sys.init (wrapStream n)).st = ⟨false, [0]⟩ := rfl
  have e2 : ([(n, 1)] : List (Nat × Nat)).map (·.2) = [1] := rfl
  rw [e, e2, hb]
  simp [Sys.init, wrapStream, Port.apply, Port.view, demoTag]

theorem wrap_second (n : Nat) :
  ((⟨⟨false, [n]⟩, [⟨List.replicate n false ++ [true], [demoTag n 100], n, [demoTag n 100], [], []⟩]⟩ : Sys Bool).step wrapCfg [(1, 1)]).ports.map (fun p => (p.out, p.outTags)) =
   [([true], dropTag n ++ [.input 0 (demoTag n 100)])] := by
  have hv : (⟨⟨false, [n]⟩, [⟨List.replicate n false ++ [true], [demoTag n 100], n, [demoTag n 100], [], []⟩]⟩ : Sys Bool).views [(1, 1)] = [⟨[true], n, [demoTag n 100]⟩] := by
    simp [Sys.views, Port.view, demoTag]
  have hb : (processBulk wrapCfg ⟨false, [n]⟩ [(⟨[true], n, [demoTag n 100]⟩ : In Bool)] [1]) = (⟨true, [0]⟩, [⟨1, [true], dropTag n ++ [.input 0 (demoTag n 100)]⟩]) := by
    simp [processBulk, synchronize, findSyncTime, syncTimes, noTime, wrapCfg, isSyncTag, demoTag, relIndex, getTime, insertSet, within, syncData, preSamples, postSamples, minOf, emit, inputTags]
  unfold Sys.step
  rw [hv]
  have e2 : ([(1, 1)] : List (Nat × Nat)).map (·.2) = [1] := rfl
  dsimp only
  rw [e2, hb]
  have hs : (dropTag n).map (shift 0) = dropTag n := by
    unfold dropTag
    split <;> simp [shift]
  simp [Port.apply, hs, shift]

/-- The number of dropped samples is reported modulo 2 ^ 32: the tag says none are missing. -/
theorem drop_count_wraps :
    (run wrapCfg (Sys.init (wrapStream (2 ^ 32))) [[(2 ^ 32, 1)], [(1, 1)]]).ports.map (fun p => (p.out, p.outTags)) =
      [([true], [.dropped 0 0, .input 0 (demoTag (2 ^ 32) 100)])] := by
  have h1 := wrap_first (2 ^ 32) _ rfl
  have h2 := wrap_second (2 ^ 32)
  simp only [run, List.foldl_cons, List.foldl_nil]
  rw [h1, h2]
  rfl

end Verif.Sync
