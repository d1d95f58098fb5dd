import Verif.Selector.Inv

/-!
Properties of the block that routes inputs to outputs.
-/
namespace Verif.Selector

variable {α : Type}

/-! Examples. -/

/-- A block with these pairs. -/
def exCfg (nIn nOut : Nat) (back sync : Bool) (ps : List (Nat × Nat)) : Cfg :=
  (remap ⟨nIn, nOut, back, sync, [], []⟩ (ps.map (·.1)) (ps.map (·.2))).1

/-- Three streams of samples with tags. -/
def exStreams : List (List Nat × List Tag) :=
  [([10, 11, 12, 13], [⟨1, 7⟩]), ([20, 21, 22, 23], [⟨0, 8⟩, ⟨3, 9⟩]), ([30, 31, 32, 33], [])]

theorem exOk : StreamsOk exStreams := by unfold StreamsOk; decide

/-! The mapping. -/

/-- Maps are taken if and only if they have the same length, no pair occurs twice and all ports exist. -/
theorem map_taken_iff (c : Cfg) (mapIn mapOut : List Nat) :
    (remap c mapIn mapOut).2 = none ↔ mapIn.length = mapOut.length ∧ (mapIn.zip mapOut).Nodup ∧
      ∀ p ∈ mapIn.zip mapOut, p.1 < c.nIn ∧ p.2 < c.nOut :=
  remap_none c mapIn mapOut

example : (remap ⟨3, 2, false, true, [], []⟩ [0, 2, 1] [1, 1, 0]).2 = none ∧ (remap ⟨3, 2, false, true, [], []⟩ [0, 0] [1, 1]).2 = some .duplicate := by
  decide

/-- A mapping that was refused is used all the same: the next call accesses a port that does not exist. -/
theorem refused_map_used :
    ∃ (c0 c : Cfg) (e : Refusal), remap c0 [0, 5] [0, 1] = (c, some e) ∧
      ∀ (ins : List (In Nat)) (rooms : List Nat), ins.length = c.nIn → rooms.length = c.nOut → ∀ sels mon, processBulk c sels ins rooms mon = none := by
  refine ⟨⟨2, 2, false, false, [], []⟩, _, .input, rfl, ?_⟩
  intro ins rooms hi _ sels mon
  unfold processBulk
  rw [if_neg (by decide), if_pos]
  intro h
  have := (h.1 (5, [1]) (by decide)).1
  rw [hi] at this
  revert this
  decide

/-- A pair listed twice is refused, but used twice all the same: the output carries every sample of the input two times. -/
theorem repeated_pair_used :
    ∃ (c0 c : Cfg), remap c0 [0, 0] [0, 0] = (c, some .duplicate) ∧
      (processBulk c [] [⟨[1, 2, 3], 0, []⟩] [10] 0).map (fun r => (r.consumed, r.outs.map (·.samples))) =
        some ([3], [[1, 2, 3, 1, 2, 3]]) :=
  ⟨⟨1, 1, false, false, [], []⟩, _, rfl, by decide⟩

/-- A mapping that was taken is used after the number of ports was made smaller: the next call accesses a port that does not exist. -/
theorem fewer_ports_used :
    ∃ (c0 c : Cfg), remap c0 [0, 1] [0, 1] = (c, none) ∧
      ∀ (ins : List (In Nat)) (rooms : List Nat), ins.length = (resize c 1 2).nIn → rooms.length = (resize c 1 2).nOut → ∀ sels mon,
        processBulk (resize c 1 2) sels ins rooms mon = none := by
  refine ⟨⟨2, 2, false, false, [], []⟩, _, rfl, ?_⟩
  intro ins rooms hi _ sels mon
  unfold processBulk
  rw [if_neg (by decide), if_pos]
  intro h
  have := (h.1 (1, [1]) (by decide)).1
  rw [hi] at this
  revert this
  decide

/-! Routing. -/

/-- In every run nothing outside of the buffers is accessed, and an output carries exactly the samples consumed of the inputs
routed to it, each once, those of an input in order, with their tags. Left out: several inputs kept in step that do not move together with
input 0, see `combined_lost` and `combined_outside`. -/
theorem routes_partial {streams : List (List α × List Tag)} {c : Cfg} {ps : List (Nat × Nat)} (ht : Took c ps) (hps : ps ≠ []) (hz : ZeroLinked c ps)
    (hst : StreamsOk streams) (hin : streams.length = c.nIn) {calls : List Call} (hk : CallsOk c.nIn c.nOut calls) :
    ∃ s, run c (Sys.init streams c.nOut) calls = some s ∧ ∀ o, o < c.nOut → ∃ w tr, s.outs[o]? = some w ∧ Carries streams tr w ∧
      ∀ i, from_ tr i = if i ∈ feeds ps o then List.range (s.taken i) else [] := by
  obtain ⟨s, h1, h2⟩ := run_spec ht.maps hps hz hst hin calls hk
  refine ⟨s, h1, ?_⟩
  intro o ho
  have hlt : o < s.outs.length := by rw [h2.outsLen]; exact ho
  obtain ⟨tr, t1, t2, -⟩ := h2.outs o _ (List.getElem?_eq_getElem hlt)
  refine ⟨_, tr, List.getElem?_eq_getElem hlt, t1, ?_⟩
  intro i
  rw [t2]
  by_cases h : (i, o) ∈ ps
  · rw [if_pos h, if_pos ((mem_feeds _ _ _).2 h)]
  · rw [if_neg h, if_neg fun h' => h ((mem_feeds _ _ _).1 h')]

example : let c := exCfg 3 2 true false [(0, 0), (2, 0), (1, 1)]
    Took c [(0, 0), (2, 0), (1, 1)] ∧ ZeroLinked c [(0, 0), (2, 0), (1, 1)] ∧
      ((run c (Sys.init exStreams 2) [⟨[], [2, 2, 4], [3, 4], 0⟩, ⟨[], [1, 2, 4], [5, 4], 0⟩]).map fun s => (s.outs, s.ins.map (·.pos))) =
        some ([⟨[10, 11, 30, 12, 31, 32, 33], [⟨1, 7⟩]⟩, ⟨[20, 21, 22, 23], [⟨0, 8⟩, ⟨3, 9⟩]⟩], [3, 4, 4]) := by
  refine ⟨⟨⟨3, 2, true, false, [], []⟩, rfl⟩, ?_, by decide⟩
  intro h
  cases h

/-- An output with one input carries what was consumed of it. -/
theorem one_input_partial {streams : List (List α × List Tag)} {c : Cfg} {ps : List (Nat × Nat)} (ht : Took c ps) (hz : ZeroLinked c ps)
    (hst : StreamsOk streams) (hin : streams.length = c.nIn) {calls : List Call} (hk : CallsOk c.nIn c.nOut calls) {o i : Nat} (ho : o < c.nOut)
    (hf : feeds ps o = [i]) {st : List α × List Tag} (hi : streams[i]? = some st) :
    ∃ s w, run c (Sys.init streams c.nOut) calls = some s ∧ s.outs[o]? = some w ∧ w.samples = st.1.take (s.taken i) ∧
      ∀ k, k < s.taken i → valsAt w.tags k = (st.2.filter fun t => t.index == k).map (·.val) := by
  have hps : ps ≠ [] := by rintro rfl; simp [feeds] at hf
  obtain ⟨s, h1, h2⟩ := run_spec ht.maps hps hz hst hin calls hk
  have hlt : o < s.outs.length := by rw [h2.outsLen]; exact ho
  obtain ⟨tr, t1, t2, -⟩ := h2.outs o _ (List.getElem?_eq_getElem hlt)
  have hio : ∀ j, (j, o) ∈ ps ↔ j = i := by intro j; rw [← mem_feeds, hf, List.mem_singleton]
  have hall : ∀ p ∈ tr, p.1 = i := by
    intro p hp
    apply Classical.byContradiction
    intro hne
    have := t2 p.1
    rw [if_neg fun h => hne ((hio _).1 h)] at this
    unfold from_ at this
    have hmem : p.2 ∈ (tr.filter fun q => q.1 == p.1).map (·.2) := List.mem_map.2 ⟨p, List.mem_filter.2 ⟨hp, by simp⟩, rfl⟩
    rw [this] at hmem
    cases hmem
  have htr : tr = (List.range (s.taken i)).map fun k => (i, k) := by
    have h3 := t2 i
    rw [if_pos ((hio i).2 rfl)] at h3
    rw [← h3]
    unfold from_
    rw [List.filter_eq_self.2 (by intro p hp; simpa using hall p hp), List.map_map]
    conv => lhs; rw [← List.map_id tr]
    apply List.map_congr_left
    intro p hp
    exact Prod.ext (hall p hp) rfl
  have hle : s.taken i ≤ st.1.length := by
    unfold Sys.taken
    cases hp : s.ins[i]? with
    | none => exact Nat.zero_le _
    | some p =>
      obtain ⟨st', a1, a2, a3, -⟩ := h2.ports.port i p hp
      rw [hi] at a1
      cases a1
      exact a3
  refine ⟨s, _, h1, List.getElem?_eq_getElem hlt, ?_, ?_⟩
  · have h3 := t1.samples
    rw [htr, List.map_map] at h3
    have h4 : (st.1.take (s.taken i)).map some = (List.range (s.taken i)).map (sampleAt streams ∘ fun k => (i, k)) := by
      apply List.ext_getElem?
      intro k
      rw [List.getElem?_map, List.getElem?_map, List.getElem?_take]
      by_cases hk : k < s.taken i
      · rw [if_pos hk, List.getElem?_range hk, List.getElem?_eq_getElem (show k < st.1.length by omega)]
        simp only [Option.map_some, Function.comp, sampleAt, hi, Option.bind_some]
        rw [List.getElem?_eq_getElem (show k < st.1.length by omega)]
      · rw [if_neg hk, List.getElem?_eq_none (l := List.range _) (by simp; omega)]
        rfl
    rw [← h4] at h3
    exact (List.map_inj_right (by intro x y h; exact Option.some.inj h)).1 h3
  · intro k hk
    rw [t1.tags k (i, k) (by rw [htr, List.getElem?_map, List.getElem?_range hk]; rfl)]
    unfold tagsAt
    rw [hi]

example : feeds [(0, 0), (2, 0), (1, 1)] 1 = [1] := by decide

/-- Inputs kept in step on an output: the same number of samples is consumed of each of them and the output carries one sample of each in turn.
Left out: inputs that do not move together with input 0. -/
theorem in_step_partial {streams : List (List α × List Tag)} {c : Cfg} {ps : List (Nat × Nat)} (ht : Took c ps) (hz : ZeroLinked c ps)
    (hst : StreamsOk streams) (hin : streams.length = c.nIn) {calls : List Call} (hk : CallsOk c.nIn c.nOut calls) (hs : c.sync = true) {o : Nat} (ho : o < c.nOut)
    (h2 : 2 ≤ (feeds ps o).length) :
    ∃ s w n, run c (Sys.init streams c.nOut) calls = some s ∧ s.outs[o]? = some w ∧ (∀ i ∈ feeds ps o, s.taken i = n) ∧
      Carries streams ((List.range n).flatMap fun k => (feeds ps o).map fun i => (i, k)) w := by
  have hps : ps ≠ [] := by rintro rfl; simp [feeds] at h2
  obtain ⟨s, h3, h4⟩ := run_spec ht.maps hps hz hst hin calls hk
  have hlt : o < s.outs.length := by rw [h4.outsLen]; exact ho
  obtain ⟨tr, t1, -, t3⟩ := h4.outs o _ (List.getElem?_eq_getElem hlt)
  obtain ⟨n, n1, n2⟩ := t3 hs h2
  exact ⟨s, _, n, h3, List.getElem?_eq_getElem hlt, n1, n2 ▸ t1⟩

example : let c := exCfg 3 2 true true [(0, 0), (2, 0), (2, 1)]
    Took c [(0, 0), (2, 0), (2, 1)] ∧ ZeroLinked c [(0, 0), (2, 0), (2, 1)] ∧
      ((run c (Sys.init exStreams 2) [⟨[], [2, 2, 4], [3, 4], 0⟩, ⟨[], [4, 2, 4], [5, 4], 0⟩]).map fun s => (s.outs, s.ins.map (·.pos))) =
        some ([⟨[10, 30, 11, 31, 12, 32], [⟨2, 7⟩]⟩, ⟨[30, 31, 32], []⟩], [3, 0, 3]) := by
  refine ⟨⟨⟨3, 2, true, true, [], []⟩, rfl⟩, ?_, by decide⟩
  intro _ o ho i hi
  have hio := (mem_feeds _ _ _).1 hi
  have h00 : (0, 0) ∈ [(0, 0), (2, 0), (2, 1)] := by decide
  simp only [List.mem_cons, Prod.mk.injEq, List.not_mem_nil, or_false] at hio
  rcases hio with ⟨rfl, rfl⟩ | ⟨rfl, rfl⟩ | ⟨rfl, rfl⟩
  · exact .refl
  · exact .step .refl h00 (by decide)
  · exact .step .refl h00 (by decide)

/-- Without keeping inputs in step, what a call writes to an output is first what it consumed of the input with the lowest index, then of
the next, and so on. -/
theorem one_after_another {streams : List (List α × List Tag)} {c : Cfg} {ps : List (Nat × Nat)} (ht : Took c ps) (hps : ps ≠ [])
    (hst : StreamsOk streams) (hin : streams.length = c.nIn) {calls : List Call} (hk : CallsOk c.nIn c.nOut calls) (hs : c.sync = false)
    {k : Call} (hc : k.avail.length = c.nIn ∧ k.rooms.length = c.nOut) :
    ∃ s s', run c (Sys.init streams c.nOut) calls = some s ∧ s.step c k = some s' ∧ ∀ o, o < c.nOut → ∃ w u tr, s.outs[o]? = some w ∧
      s'.outs[o]? = some (w.append u) ∧ Carries streams tr u ∧ (tr.Pairwise fun p q => p.1 < q.1 ∨ p.1 = q.1 ∧ p.2 < q.2) ∧
      ∀ i, from_ tr i = if i ∈ feeds ps o then between (s.taken i) (s'.taken i) else [] := by
  have hz : ZeroLinked c ps := by intro h; rw [hs] at h; cases h
  obtain ⟨s, h1, h2⟩ := run_spec ht.maps hps hz hst hin calls hk
  obtain ⟨s', h3, h4⟩ := step_spec ht.maps hps hz h2.ports hin h2.outsLen hc
  refine ⟨s, s', h1, h3, ?_⟩
  intro o ho
  have hlt : o < s'.outs.length := by rw [h4.outsLen, h2.outsLen]; exact ho
  have hget := List.getElem?_eq_getElem hlt
  obtain ⟨w, u, tr, a1, a2, -, a4, a5, -, a7⟩ := h4.outs o _ hget
  refine ⟨w, u, tr, a1, by rw [hget, a2], a4, a7 hs, ?_⟩
  intro i
  rw [a5]
  by_cases h : (i, o) ∈ ps
  · rw [if_pos h, if_pos ((mem_feeds _ _ _).2 h)]
  · rw [if_neg h, if_neg fun h' => h ((mem_feeds _ _ _).1 h')]

example : (exCfg 3 2 true false [(0, 0), (2, 0), (1, 1)]).sync = false := by decide

/-- A call consumes as many samples as it can: if every input that has to move together with the input has so many samples and all the outputs they are
routed to have the room, at least so many samples are consumed. Without keeping inputs in step, this is about inputs that share no output. -/
theorem takes_most_partial {streams : List (List α × List Tag)} {c : Cfg} {ps : List (Nat × Nat)} (ht : Took c ps) (hz : ZeroLinked c ps)
    (hst : StreamsOk streams) (hin : streams.length = c.nIn) {calls : List Call} (hk : CallsOk c.nIn c.nOut calls)
    {k : Call} (hc : k.avail.length = c.nIn ∧ k.rooms.length = c.nOut) {i o : Nat} (hi : (i, o) ∈ ps)
    (hs : c.sync = false → ∀ q, (i, q) ∈ ps → feeds ps q = [i]) :
    ∃ s s', run c (Sys.init streams c.nOut) calls = some s ∧ s.step c k = some s' ∧
      (∀ j, s'.taken j ≤ s.taken j + s.there k j) ∧
      ∀ N, (∀ j, Linked ps i j → N ≤ s.there k j ∧ ((s.sels ++ k.sels).getLast? = some j → N ≤ k.mon) ∧
        ∀ q, (j, q) ∈ ps → N * (feeds ps q).length ≤ k.room q) → s.taken i + N ≤ s'.taken i := by
  have hps : ps ≠ [] := List.ne_nil_of_mem hi
  obtain ⟨s, h1, h2⟩ := run_spec ht.maps hps hz hst hin calls hk
  obtain ⟨s', h3, h4⟩ := step_spec ht.maps hps hz h2.ports hin h2.outsLen hc
  exact ⟨s, s', h1, h3, fun j => (h4.up j).2, fun N hN => h4.most i o hi N hs hN⟩

example : ((Sys.init exStreams 2).step (exCfg 3 2 true true [(0, 0), (2, 0), (2, 1)]) ⟨[], [2, 2, 4], [5, 4], 0⟩).map (fun s => s.ins.map (·.pos)) =
    some [2, 0, 2] := by decide

/-- Without keeping inputs in step, an input gets no further as long as one with a lower index fills the output they share. -/
theorem starves (n : Nat) :
    ∃ (c : Cfg) (streams : List (List Nat × List Tag)) (s : Sys Nat), Took c [(0, 0), (1, 0)] ∧ c.sync = false ∧
      run c (Sys.init streams 1) (List.replicate n ⟨[], [1, 1], [1], 0⟩) = some s ∧ s.taken 0 = n ∧ s.taken 1 = 0 ∧ 0 < s.there ⟨[], [1, 1], [1], 0⟩ 1 := by
  have hT : Took (exCfg 2 1 false false [(0, 0), (1, 0)]) [(0, 0), (1, 0)] := ⟨⟨2, 1, false, false, [], []⟩, rfl⟩
  refine ⟨exCfg 2 1 false false [(0, 0), (1, 0)], [(List.replicate n 5, []), ([6], [])], ⟨[⟨List.replicate n 5, [], n, []⟩, ⟨[6], [], 0, []⟩],
    [⟨List.replicate n 5, []⟩], ⟨[], []⟩, []⟩, hT, rfl, ?_, rfl, rfl, Nat.one_pos⟩
  have key : ∀ m l, m ≤ n → l + m = n → run (exCfg 2 1 false false [(0, 0), (1, 0)])
      ⟨[⟨List.replicate n 5, [], l, []⟩, ⟨[6], [], 0, []⟩], [⟨List.replicate l 5, []⟩], ⟨[], []⟩, []⟩ (List.replicate m ⟨[], [1, 1], [1], 0⟩) =
      some ⟨[⟨List.replicate n 5, [], n, []⟩, ⟨[6], [], 0, []⟩], [⟨List.replicate n 5, []⟩], ⟨[], []⟩, []⟩ := by
    intro m
    induction m with
    | zero => intro l _ hl; have : l = n := by omega
              subst this; rfl
    | succ m ih =>
      intro l hm hl
      unfold run at ih ⊢
      rw [List.replicate_succ, List.foldlM_cons]
      have hstep : Sys.step (exCfg 2 1 false false [(0, 0), (1, 0)])
          ⟨[⟨List.replicate n 5, [], l, []⟩, ⟨[6], [], 0, []⟩], [⟨List.replicate l 5, []⟩], ⟨[], []⟩, []⟩ ⟨[], [1, 1], [1], 0⟩ =
          some ⟨[⟨List.replicate n 5, [], l + 1, []⟩, ⟨[6], [], 0, []⟩], [⟨List.replicate (l + 1) 5, []⟩], ⟨[], []⟩, []⟩ := by
        have hd : (List.replicate n 5).drop l = 5 :: List.replicate m 5 := by
          rw [List.drop_replicate]
          have : n - l = m + 1 := by omega
          rw [this, List.replicate_succ]
        unfold Sys.step Sys.views
        simp only [List.zip_cons_cons, List.zip_nil_right, List.map_cons, List.map_nil, Port.view, hd, List.take_succ_cons, List.take_zero]
        rw [show (List.replicate (l + 1) 5) = List.replicate l 5 ++ [5] from List.replicate_succ']
        rfl
      rw [hstep]
      exact ih (l + 1) (by omega) (by omega)
  exact key n 0 (Nat.le_refl n) (by omega)

/-- Samples of an input without route wait if there is back pressure and are dropped if there is none, unless the input is selected for
the monitor. -/
theorem unrouted_partial {streams : List (List α × List Tag)} {c : Cfg} {ps : List (Nat × Nat)} (ht : Took c ps) (hps : ps ≠ []) (hz : ZeroLinked c ps)
    (hst : StreamsOk streams) (hin : streams.length = c.nIn) {calls : List Call} (hk : CallsOk c.nIn c.nOut calls)
    {k : Call} (hc : k.avail.length = c.nIn ∧ k.rooms.length = c.nOut) {i : Nat} (hi : i < c.nIn) (hno : ∀ o, i ∉ feeds ps o) :
    ∃ s s', run c (Sys.init streams c.nOut) calls = some s ∧ s.step c k = some s' ∧
      ((s.sels ++ k.sels).getLast? ≠ some i → s'.taken i = if c.back then s.taken i else s.taken i + s.there k i) := by
  obtain ⟨s, h1, h2⟩ := run_spec ht.maps hps hz hst hin calls hk
  obtain ⟨s', h3, h4⟩ := step_spec ht.maps hps hz h2.ports hin h2.outsLen hc
  refine ⟨s, s', h1, h3, ?_⟩
  intro hse
  rw [h4.unmapped i (fun o ho => hno o ((mem_feeds _ _ _).2 ho)) (by omega), if_neg hse]
  cases c.back <;> simp

example : ((Sys.init exStreams 2).step (exCfg 3 2 false true [(0, 0), (2, 0), (2, 1)]) ⟨[], [2, 3, 4], [5, 4], 0⟩).map (fun s => s.ins.map (·.pos)) =
    some [2, 3, 2] := by decide

/-- Without any route nothing is written, and the inputs wait if there is back pressure and are dropped if there is none. -/
theorem no_route (c : Cfg) (ht : Took c []) (sels : List Nat) (ins : List (In α)) (rooms : List Nat) (mon : Nat) :
    ∃ r, processBulk c sels ins rooms mon = some r ∧ (∀ w ∈ r.outs, w = ⟨[], []⟩) ∧ r.mon = ⟨[], []⟩ ∧
      r.consumed = ins.map fun x => if c.back then 0 else x.samples.length := by
  have h : c.inOut = [] := by
    have := ht.maps.inOut
    match hm : c.inOut with
    | [] => rfl
    | e :: m =>
      rw [hm] at this
      have := (this.mem e).1 (by simp)
      simp only [valsOf, List.filter_nil, List.map_nil] at this
      exact absurd this.1 this.2
  unfold processBulk
  rw [if_pos h]
  exact ⟨_, rfl, by simp, rfl, rfl⟩

example : Took (exCfg 3 2 false true []) [] := ⟨⟨3, 2, false, true, [], []⟩, rfl⟩

/-! Combined inputs that do not move together with input 0. -/

/-- Samples are lost: outputs 0 and 1 are fed by input 0 and by inputs 1 and 2. Input 0 has one sample, the others have two. All of them are consumed, but only
one of each is written. -/
theorem combined_lost :
    ∃ (c : Cfg) (streams : List (List Nat × List Tag)) (k : Call) (s : Sys Nat) (w : Out Nat), Took c [(0, 0), (1, 1), (2, 1)] ∧ c.sync = true ∧
      (Sys.init streams 2).step c k = some s ∧ s.taken 1 = 2 ∧ s.taken 2 = 2 ∧ s.outs[1]? = some w ∧ w.samples = [20, 30] := by
  refine ⟨exCfg 3 2 true true [(0, 0), (1, 1), (2, 1)], [([10], []), ([20, 21], []), ([30, 31], [])], ⟨[], [1, 2, 2], [8, 8], 8⟩, _, _,
    ⟨⟨3, 2, true, true, [], []⟩, rfl⟩, rfl, rfl, rfl, rfl, rfl, rfl⟩

/-- Memory outside of the buffers is accessed: input 0 has no route, inputs 1 and 2 share an output. -/
theorem combined_outside :
    ∃ (c : Cfg), Took c [(1, 0), (2, 0)] ∧ c.sync = true ∧ ∀ (streams : List (List Nat × List Tag)), streams.length = 3 → ∀ k : Call, k.avail.length = 3 →
      k.rooms.length = 1 → (Sys.init streams 1).step c k = none := by
  refine ⟨exCfg 3 1 true true [(1, 0), (2, 0)], ⟨⟨3, 1, true, true, [], []⟩, rfl⟩, rfl, ?_⟩
  intro streams hs k ha hr
  have hm : Maps (exCfg 3 1 true true [(1, 0), (2, 0)]) [(1, 0), (2, 0)] := Took.maps ⟨⟨3, 1, true, true, [], []⟩, rfl⟩
  have hvl : ((Sys.init streams 1).views k).length = 3 := by
    simp only [Sys.views, Sys.init, List.length_map, List.length_zip, hs, ha]
    rfl
  unfold Sys.step
  generalize hv : (Sys.init streams 1).views k = ins at hvl
  have hn : processBulk (exCfg 3 1 true true [(1, 0), (2, 0)]) ((Sys.init streams 1).sels ++ k.sels) ins k.rooms k.mon = none := by
    generalize (Sys.init streams 1).sels ++ k.sels = sels
    unfold processBulk
    rw [if_neg (by decide)]
    split
    · rfl
    · dsimp only
      have hb : ((exCfg 3 1 true true [(1, 0), (2, 0)]).sync && (exCfg 3 1 true true [(1, 0), (2, 0)]).outIn.any fun e => decide (e.2.length > 1)) = true := by decide
      rw [hb, if_pos rfl]
      have hsb : syncBranch (exCfg 3 1 true true [(1, 0), (2, 0)]) sels.getLast? ins k.rooms k.mon = none := by
        have hout : (exCfg 3 1 true true [(1, 0), (2, 0)]).outIn = [(0, [1, 2])] := by decide
        unfold syncBranch
        rw [hout]
        have hr0 : ∀ e ∈ ([(0, [1, 2])] : Map), ∀ i ∈ e.2, i < ins.length := by
          rw [hvl]; decide
        obtain ⟨f1, f2⟩ := firstCounts_spec sels.getLast? ins k.rooms k.mon [(0, [1, 2])] hr0
        have hset : Set [(0, [1, 2])] (firstCounts [(0, [1, 2])] sels.getLast? ins k.rooms k.mon) := by
          intro e he i hi
          refine ⟨by rw [f1]; exact hr0 e he i hi, ?_⟩
          cases hn : Counts.at (firstCounts [(0, [1, 2])] sels.getLast? ins k.rooms k.mon) i with
          | some k => exact ⟨k, rfl⟩
          | none =>
            exfalso
            have := (f2 ((k.rooms[e.1]?).getD 0 / e.2.length + 1) i).1 (by rw [hn]; exact fits_none _) e he hi
            have := ((fits_allowed _ _ _ _ _ _ _).1 this).2.1
            omega
        obtain ⟨n, s1, s2, -⟩ := settle_spec (rounds (firstCounts [(0, [1, 2])] sels.getLast? ins k.rooms k.mon)) _ hset (by unfold rounds weight; omega)
        have h0 : n.at 0 = none := by
          rw [s2.same 0 (by decide)]
          exact fits_all fun N => (f2 N 0).2 (by
            intro e he hi
            simp only [List.mem_cons, List.not_mem_nil, or_false] at he
            subst he
            simp at hi)
        simp only [s1, List.foldl_cons, List.foldl_nil, Option.bind_some]
        unfold writeOne
        simp only [h0]
        split <;> rfl
      rw [hsb]
  rw [hn]
  rfl

/-! The monitor. -/

/-- In a call at which values arrived at the select input, the last of them decides: the monitor carries exactly what the call consumes of that input, with tags, and at most
what there is room for. In a call at which no value arrived, or which names no input, the monitor carries nothing. -/
theorem monitor_partial {streams : List (List α × List Tag)} {c : Cfg} {ps : List (Nat × Nat)} (ht : Took c ps) (hps : ps ≠ []) (hz : ZeroLinked c ps)
    (hst : StreamsOk streams) (hin : streams.length = c.nIn) {calls : List Call} (hk : CallsOk c.nIn c.nOut calls)
    {k : Call} (hc : k.avail.length = c.nIn ∧ k.rooms.length = c.nOut) :
    ∃ s s', run c (Sys.init streams c.nOut) calls = some s ∧ s.step c k = some s' ∧
      (∀ i, k.sels.getLast? = some i → i < c.nIn → ∃ u, s'.mon = s.mon.append u ∧ u.samples.length ≤ k.mon ∧
        Carries streams ((between (s.taken i) (s'.taken i)).map fun a => (i, a)) u ∧
        ((∀ o, i ∉ feeds ps o) → s'.taken i = s.taken i + min (s.there k i) k.mon)) ∧
      ((∀ i, k.sels.getLast? = some i → ¬ i < c.nIn) → s'.mon = s.mon) := by
  obtain ⟨s, h1, h2⟩ := run_spec ht.maps hps hz hst hin calls hk
  obtain ⟨s', h3, h4⟩ := step_spec ht.maps hps hz h2.ports hin h2.outsLen hc
  have hsel : s.sels = [] := by
    rcases List.eq_nil_or_concat calls with rfl | ⟨l, a, rfl⟩
    · cases h1; rfl
    · unfold run at h1
      rw [List.concat_eq_append, List.foldlM_append] at h1
      have hk' : CallsOk c.nIn c.nOut l := fun x hx => hk x (by simp [hx])
      obtain ⟨sl, l1, l2⟩ := run_spec ht.maps hps hz hst hin l hk'
      unfold run at l1
      rw [l1] at h1
      obtain ⟨sl', l3, l4⟩ := step_spec ht.maps hps hz l2.ports hin l2.outsLen (hk a (by simp))
      simp only [List.foldlM_cons, List.foldlM_nil, l3, Option.bind_eq_bind, Option.bind_some, Option.pure_def, Option.some.injEq] at h1
      rw [← h1]
      exact l4.sels
  have e : s.sels ++ k.sels = k.sels := by rw [hsel]; rfl
  refine ⟨s, s', h1, h3, ?_, ?_⟩
  · intro i hse hi
    obtain ⟨u, u1, u2, u3⟩ := h4.monSel i (by rw [e]; exact hse) (by omega)
    refine ⟨u, u1, u2, u3, ?_⟩
    intro hno
    rw [h4.unmapped i (fun o ho => hno o ((mem_feeds _ _ _).2 ho)) (by omega), e, if_pos hse]
  · intro hn
    exact h4.monNone (by intro i; rw [e, hin]; exact hn i)

example : let c := exCfg 3 2 true true [(0, 0), (2, 0), (2, 1)]
    (run c (Sys.init exStreams 2) [⟨[0, 1], [2, 3, 4], [8, 8], 2⟩, ⟨[0], [2, 2, 4], [8, 4], 1⟩]).map (fun s => (s.mon, s.ins.map (·.pos))) =
      some (⟨[20, 21, 12], [⟨0, 8⟩]⟩, [3, 2, 3]) := by decide

/-- The selection does not last: after a call without a value at the select input, samples of the input selected before are routed but not monitored. -/
theorem selection_lapses :
    ∃ (c : Cfg) (streams : List (List Nat × List Tag)) (k1 k2 : Call) (s1 s2 : Sys Nat), Took c [(0, 0)] ∧ k1.sels = [0] ∧ k2.sels = [] ∧ 0 < k2.mon ∧
      (Sys.init streams 1).step c k1 = some s1 ∧ s1.step c k2 = some s2 ∧ s1.mon.samples = [10] ∧ s2.taken 0 = 2 ∧ s2.mon = s1.mon := by
  exact ⟨exCfg 1 1 true true [(0, 0)], [([10, 11], [])], ⟨[0], [1], [8], 8⟩, ⟨[], [1], [8], 8⟩, _, _, ⟨⟨1, 1, true, true, [], []⟩, rfl⟩, rfl, rfl, by decide, rfl, rfl,
    rfl, rfl, rfl⟩

/-- Without any route the selection is ignored. -/
theorem monitor_needs_route (c : Cfg) (ht : Took c []) (s : Sys α) (k : Call) : ∃ s', s.step c k = some s' ∧ s'.mon = s.mon ∧ s'.sels = s.sels ++ k.sels := by
  have h : c.inOut = [] := by
    have := ht.maps.inOut
    match hm : c.inOut with
    | [] => rfl
    | e :: m =>
      rw [hm] at this
      have := (this.mem e).1 (by simp)
      simp only [valsOf, List.filter_nil, List.map_nil] at this
      exact absurd this.1 this.2
  unfold Sys.step processBulk
  rw [if_pos h]
  refine ⟨_, rfl, ?_, rfl⟩
  exact Out.append_empty s.mon

/-- Tags of samples dropped while there was no route are published later, before the first sample of the output. -/
theorem stale_tag :
    ∃ (c c' : Cfg) (streams : List (List Nat × List Tag)) (k : Call) (s1 s2 : Sys Nat), Took c [] ∧ remap c [0] [0] = (c', none) ∧
      (Sys.init streams 1).step c k = some s1 ∧ s1.step c' k = some s2 ∧ s2.outs = [⟨[12, 13], [⟨-1, 7⟩]⟩] := by
  exact ⟨exCfg 1 1 false true [], _, [([10, 11, 12, 13], [⟨1, 7⟩])], ⟨[], [2], [8], 8⟩, _, _, ⟨⟨1, 1, false, true, [], []⟩, rfl⟩, rfl, rfl, rfl, rfl⟩

end Verif.Selector
