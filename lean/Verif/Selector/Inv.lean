import Verif.Selector.Run

/-!
What holds after every call of a run.
-/
namespace Verif.Selector

variable {α : Type}

theorem takeWhile_lt {l : List Tag} (h : l.Pairwise fun a b => a.index ≤ b.index) (N : Nat) :
    (l.takeWhile fun t => decide (t.index < N)) = l.filter fun t => decide (t.index < N) := by
  induction l with
  | nil => rfl
  | cons t l ih =>
    have h := List.pairwise_cons.1 h
    rw [List.takeWhile_cons, List.filter_cons]
    by_cases ht : t.index < N
    · simp only [ht, decide_true, if_true, ih h.2]
    · simp only [ht, decide_false, Bool.false_eq_true, if_false]
      symm
      rw [List.filter_eq_nil_iff]
      intro u hu
      have := h.1 u hu
      simp only [decide_eq_true_eq]
      omega

theorem drop_takeWhile {l : List Tag} (h : l.Pairwise fun a b => a.index ≤ b.index) (N : Nat) :
    l.drop (l.takeWhile fun t => decide (t.index < N)).length = l.filter fun t => decide (N ≤ t.index) := by
  induction l with
  | nil => rfl
  | cons t l ih =>
    have h := List.pairwise_cons.1 h
    rw [List.takeWhile_cons, List.filter_cons]
    by_cases ht : t.index < N
    · have : ¬ N ≤ t.index := by omega
      simp only [ht, this, decide_true, decide_false, if_true, List.length_cons, List.drop_succ_cons, ih h.2, Bool.false_eq_true, if_false]
    · have h1 : N ≤ t.index := by omega
      simp only [ht, h1, decide_true, decide_false, if_true, Bool.false_eq_true, if_false, List.length_nil, List.drop_zero]
      symm
      congr 1
      rw [List.filter_eq_self]
      intro u hu
      have := h.1 u hu
      simp only [decide_eq_true_eq]
      omega

theorem filter_cut (l : List Tag) (a b : Nat) (h : a ≤ b) :
    (l.filter fun t => decide (a ≤ t.index)).filter (fun t => decide (b ≤ t.index)) = l.filter fun t => decide (b ≤ t.index) := by
  rw [List.filter_filter]
  apply List.filter_congr
  intro t _
  rw [Bool.eq_iff_iff]
  simp only [Bool.and_eq_true, decide_eq_true_eq]
  omega

/-- The inputs are what is left of the streams. -/
structure PortsOk (streams : List (List α × List Tag)) (ins : List (Port α)) : Prop where
  len : ins.length = streams.length
  port : ∀ (i : Nat) (p : Port α), ins[i]? = some p → ∃ st, streams[i]? = some st ∧ p.stream = st.1 ∧ p.pos ≤ st.1.length ∧
    (st.2.Pairwise fun a b => a.index ≤ b.index) ∧ p.left = st.2.filter fun t => decide (p.pos ≤ t.index)

theorem PortsOk.init {streams : List (List α × List Tag)} (h : StreamsOk streams) (nOut : Nat) : PortsOk streams (Sys.init streams nOut).ins := by
  refine ⟨by simp [Sys.init], ?_⟩
  intro i p hp
  simp only [Sys.init, List.getElem?_map] at hp
  cases hst : streams[i]? with
  | none => rw [hst] at hp; cases hp
  | some st =>
    rw [hst] at hp
    cases hp
    refine ⟨st, rfl, rfl, Nat.zero_le _, h st (List.mem_of_getElem? hst), ?_⟩
    show st.2 = _
    rw [List.filter_eq_self.2]
    intro t _
    simp

theorem views_get {s : Sys α} {k : Call} {i : Nat} {x : In α} (h : (s.views k)[i]? = some x) :
    ∃ p n, s.ins[i]? = some p ∧ k.avail[i]? = some n ∧ x = p.view n := by
  unfold Sys.views at h
  rw [List.getElem?_map] at h
  cases hz : (s.ins.zip k.avail)[i]? with
  | none => rw [hz] at h; cases h
  | some y =>
    rw [hz] at h
    cases h
    have := List.getElem?_zip_eq_some.1 hz
    exact ⟨y.1, y.2, this.1, this.2, rfl⟩

theorem views_of {s : Sys α} {k : Call} {i : Nat} {p : Port α} {n : Nat} (hp : s.ins[i]? = some p) (hn : k.avail[i]? = some n) :
    (s.views k)[i]? = some (p.view n) := by
  unfold Sys.views
  rw [List.getElem?_map, (List.getElem?_zip_eq_some (z := (p, n))).2 ⟨hp, hn⟩]
  rfl

theorem view_tags {streams : List (List α × List Tag)} {ins : List (Port α)} (h : PortsOk streams ins) {i : Nat} {p : Port α} (hp : ins[i]? = some p) (n : Nat) :
    ∃ st, streams[i]? = some st ∧ (p.view n).tags = st.2.filter (fun t => decide ((p.view n).start ≤ t.index ∧ t.index < (p.view n).start + (p.view n).samples.length)) := by
  obtain ⟨st, h1, h2, h3, h4, h5⟩ := h.port i p hp
  refine ⟨st, h1, ?_⟩
  show p.left.takeWhile _ = _
  rw [h5, takeWhile_lt (h4.filter _), List.filter_filter]
  apply List.filter_congr
  intro t _
  rw [Bool.eq_iff_iff]
  simp only [Bool.and_eq_true, decide_eq_true_eq]
  exact ⟨fun ⟨a, b⟩ => ⟨b, a⟩, fun ⟨a, b⟩ => ⟨b, a⟩⟩

theorem views_srcs {streams : List (List α × List Tag)} {s : Sys α} (h : PortsOk streams s.ins) (k : Call) : Srcs streams (s.views k) := by
  intro i x hx
  obtain ⟨p, n, hp, hn, rfl⟩ := views_get hx
  obtain ⟨st, h1, h2, h3, h4, h5⟩ := h.port i p hp
  obtain ⟨st', h1', h6⟩ := view_tags h hp n
  rw [h1] at h1'
  cases h1'
  refine ⟨st, n, h1, ?_, h6, h4⟩
  show (p.stream.drop p.pos).take n = _
  rw [h2]
  rfl

theorem view_len {p : Port α} {n : Nat} : (p.view n).samples.length = min n (p.stream.length - p.pos) := by
  simp [Port.view]

theorem apply_ok {streams : List (List α × List Tag)} {ins : List (Port α)} (h : PortsOk streams ins) {i : Nat} {p : Port α} (hp : ins[i]? = some p) (n k : Nat)
    (hk : k ≤ (p.view n).samples.length) :
    ∃ st, streams[i]? = some st ∧ (p.apply n k k).stream = st.1 ∧ (p.apply n k k).pos ≤ st.1.length ∧
      (st.2.Pairwise fun a b => a.index ≤ b.index) ∧ (p.apply n k k).left = st.2.filter fun t => decide ((p.apply n k k).pos ≤ t.index) := by
  obtain ⟨st, h1, h2, h3, h4, h5⟩ := h.port i p hp
  refine ⟨st, h1, h2, ?_, h4, ?_⟩
  · rw [view_len, h2] at hk
    show p.pos + k ≤ _
    omega
  · show p.left.drop ((p.view n).tags.takeWhile fun t => decide (t.index < p.pos + k)).length = st.2.filter fun t => decide (p.pos + k ≤ t.index)
    have hs : p.left.Pairwise fun a b => a.index ≤ b.index := by rw [h5]; exact h4.filter _
    have e : ((p.view n).tags.takeWhile fun t => decide (t.index < p.pos + k)) = p.left.takeWhile fun t => decide (t.index < p.pos + k) := by
      show ((p.left.takeWhile fun t => decide (t.index < p.pos + (p.view n).samples.length)).takeWhile fun t => decide (t.index < p.pos + k)) = _
      rw [takeWhile_lt hs, takeWhile_lt (hs.filter _), takeWhile_lt hs, List.filter_filter]
      apply List.filter_congr
      intro t _
      rw [Bool.eq_iff_iff]
      simp only [Bool.and_eq_true, decide_eq_true_eq]
      omega
    rw [e]
    rw [drop_takeWhile hs, h5, filter_cut _ _ _ (by omega)]

/-- What one call does to the block with its ports. -/
structure StepDone (streams : List (List α × List Tag)) (c : Cfg) (ps : List (Nat × Nat)) (s : Sys α) (k : Call) (s' : Sys α) : Prop where
  ports : PortsOk streams s'.ins
  outsLen : s'.outs.length = s.outs.length
  sels : s'.sels = []
  up : ∀ i, s.taken i ≤ s'.taken i ∧ s'.taken i ≤ s.taken i + s.there k i
  unmapped : ∀ i, (∀ o, (i, o) ∉ ps) → i < streams.length →
    s'.taken i = s.taken i + if (s.sels ++ k.sels).getLast? = some i then min (s.there k i) k.mon else if c.back then 0 else s.there k i
  outs : ∀ (o : Nat) (w' : Out α), s'.outs[o]? = some w' → ∃ w u tr, s.outs[o]? = some w ∧ w' = w.append u ∧ u.samples.length ≤ k.room o ∧ Carries streams tr u ∧
    (∀ i, from_ tr i = if (i, o) ∈ ps then between (s.taken i) (s'.taken i) else []) ∧
    (c.sync = true → 2 ≤ (feeds ps o).length → ∃ n, (∀ i ∈ feeds ps o, s'.taken i = s.taken i + n) ∧
      tr = (List.range n).flatMap fun a => (feeds ps o).map fun i => (i, s.taken i + a)) ∧
    (c.sync = false → tr.Pairwise fun p q => p.1 < q.1 ∨ p.1 = q.1 ∧ p.2 < q.2)
  most : ∀ i o, (i, o) ∈ ps → ∀ N, (c.sync = false → ∀ q, (i, q) ∈ ps → feeds ps q = [i]) →
    (∀ j, Linked ps i j → N ≤ s.there k j ∧ ((s.sels ++ k.sels).getLast? = some j → N ≤ k.mon) ∧
      ∀ q, (j, q) ∈ ps → N * (feeds ps q).length ≤ k.room q) → s.taken i + N ≤ s'.taken i
  monSel : ∀ i, (s.sels ++ k.sels).getLast? = some i → i < streams.length →
    ∃ u, s'.mon = s.mon.append u ∧ u.samples.length ≤ k.mon ∧ Carries streams ((between (s.taken i) (s'.taken i)).map fun a => (i, a)) u
  monNone : (∀ i, (s.sels ++ k.sels).getLast? = some i → ¬ i < streams.length) → s'.mon = s.mon

theorem step_spec {streams : List (List α × List Tag)} {c : Cfg} {ps : List (Nat × Nat)} (hm : Maps c ps) (hps : ps ≠ []) (hz : ZeroLinked c ps)
    {s : Sys α} (hp : PortsOk streams s.ins) (hin : streams.length = c.nIn) (hout : s.outs.length = c.nOut) {k : Call}
    (hk : k.avail.length = c.nIn ∧ k.rooms.length = c.nOut) :
    ∃ s', s.step c k = some s' ∧ StepDone streams c ps s k s' := by
  have hvl : (s.views k).length = c.nIn := by
    simp only [Sys.views, List.length_map, List.length_zip, hp.len]
    omega
  obtain ⟨r, r1, r2⟩ := call_spec hm hps hz (s.sels ++ k.sels) (views_srcs hp k) hvl hk.2 k.mon
  unfold Sys.step
  rw [r1]
  refine ⟨_, rfl, ?_⟩
  dsimp only
  -- facts about one input
  have hget : ∀ i, i < streams.length → ∃ (p : Port α) (n m : Nat), s.ins[i]? = some p ∧ k.avail[i]? = some n ∧ r.consumed[i]? = some m ∧ m ≤ (p.view n).samples.length := by
    intro i hi
    have h1 : i < s.ins.length := by rw [hp.len]; exact hi
    have h2 : i < k.avail.length := by omega
    have h3 : i < r.consumed.length := by rw [r2.consumedLen, hvl]; omega
    have e1 := List.getElem?_eq_getElem h1
    have e2 := List.getElem?_eq_getElem h2
    have e3 := List.getElem?_eq_getElem h3
    exact ⟨_, _, _, e1, e2, e3, r2.le i _ _ e3 (views_of e1 e2)⟩
  have hzip : ∀ (i : Nat) (p : Port α) (n m : Nat), s.ins[i]? = some p → k.avail[i]? = some n → r.consumed[i]? = some m →
      (((s.ins.zip k.avail).zip (r.consumed.zip r.tagsUntil)).map fun x => x.1.1.apply x.1.2 x.2.1 x.2.2)[i]? = some (p.apply n m m) := by
    intro i p n m e1 e2 e3
    rw [List.getElem?_map, r2.tagsUntil, (List.getElem?_zip_eq_some (z := ((p, n), (m, m)))).2
      ⟨(List.getElem?_zip_eq_some (z := (p, n))).2 ⟨e1, e2⟩, (List.getElem?_zip_eq_some (z := (m, m))).2 ⟨e3, e3⟩⟩]
    rfl
  have hlen : ((((s.ins.zip k.avail).zip (r.consumed.zip r.tagsUntil)).map fun x => x.1.1.apply x.1.2 x.2.1 x.2.2)).length = streams.length := by
    simp only [List.length_map, List.length_zip, r2.tagsUntil, r2.consumedLen, hvl, hp.len]
    omega
  generalize hins' : (((s.ins.zip k.avail).zip (r.consumed.zip r.tagsUntil)).map fun x => x.1.1.apply x.1.2 x.2.1 x.2.2) = ins' at hzip hlen ⊢
  -- how far the inputs get
  have htake : ∀ i, i < streams.length → ∃ m, r.consumed[i]? = some m ∧ m ≤ s.there k i ∧
      (⟨ins', (s.outs.zip r.outs).map fun x => x.1.append x.2, s.mon.append r.mon, if r.selTaken then [] else s.sels ++ k.sels⟩ : Sys α).taken i = s.taken i + m ∧
      startAt (s.views k) i = s.taken i ∧ ∃ x, (s.views k)[i]? = some x ∧ x.samples.length = s.there k i := by
    intro i hi
    obtain ⟨p, n, m, e1, e2, e3, e4⟩ := hget i hi
    have hth : s.there k i = (p.view n).samples.length := by
      unfold Sys.there
      rw [e1, e2, view_len]
    refine ⟨m, e3, by rw [hth]; exact e4, ?_, ?_, p.view n, views_of e1 e2, hth.symm⟩
    · unfold Sys.taken
      simp only [e1, hzip i p n m e1 e2 e3]
      rfl
    · unfold startAt Sys.taken
      rw [views_of e1 e2, e1]
      rfl
  have hbeyond : ∀ i, ¬ i < streams.length →
      (⟨ins', (s.outs.zip r.outs).map fun x => x.1.append x.2, s.mon.append r.mon, if r.selTaken then [] else s.sels ++ k.sels⟩ : Sys α).taken i = 0 ∧ s.taken i = 0 := by
    intro i hi
    unfold Sys.taken
    simp only
    rw [List.getElem?_eq_none (by rw [hlen]; omega), List.getElem?_eq_none (by rw [hp.len]; omega)]
    exact ⟨rfl, rfl⟩
  have hbetween : ∀ a m, between a (a + m) = (List.range m).map (a + ·) := by
    intro a m
    unfold between
    rw [Nat.add_sub_cancel_left]
  have hps_in : ∀ i o, (i, o) ∈ ps → i < streams.length := by
    intro i o h
    have := (hm.proper.2 _ h).1
    simp only at this
    omega
  refine ⟨?_, ?_, ?_, ?_, ?_, ?_, ?_, ?_, ?_⟩
  · refine ⟨hlen, ?_⟩
    intro i p' hp'
    have hi : i < streams.length := by
      rw [← hlen]; exact (List.getElem?_eq_some_iff.1 hp').1
    obtain ⟨p, n, m, e1, e2, e3, e4⟩ := hget i hi
    simp only at hp'
    rw [hzip i p n m e1 e2 e3] at hp'
    cases hp'
    exact apply_ok hp e1 n m e4
  · simp only [List.length_map, List.length_zip, r2.outsLen, hk.2, hout]
    omega
  · simp only [r2.selTaken, if_true]
  · intro i
    by_cases hi : i < streams.length
    · obtain ⟨m, e1, e2, e3, -⟩ := htake i hi
      rw [e3]
      omega
    · obtain ⟨e1, e2⟩ := hbeyond i hi
      rw [e1, e2]
      omega
  · intro i hmp hi
    obtain ⟨m, e1, e2, e3, e4, x, e5, e6⟩ := htake i hi
    rw [e3, r2.unmapped i m x hmp e1 e5, e6]
  · intro o w' hw'
    simp only [List.getElem?_map] at hw'
    cases hzo : (s.outs.zip r.outs)[o]? with
    | none => rw [hzo] at hw'; cases hw'
    | some y =>
      rw [hzo] at hw'
      cases hw'
      have hy := List.getElem?_zip_eq_some.1 hzo
      obtain ⟨tr, t1, t2, t3, t4, t5⟩ := r2.outs o y.2 hy.2
      refine ⟨y.1, y.2, tr, hy.1, rfl, t2, t1, ?_, ?_, t5⟩
      · intro i
        rw [t3]
        by_cases hio : (i, o) ∈ ps
        · rw [if_pos hio, if_pos hio]
          obtain ⟨m, e1, e2, e3, e4, -⟩ := htake i (hps_in i o hio)
          rw [e3, e1, e4, hbetween]
          rfl
        · rw [if_neg hio, if_neg hio]
      · intro hc h2
        obtain ⟨n, n1, n2⟩ := t4 hc h2
        refine ⟨n, ?_, ?_⟩
        · intro i hi
          obtain ⟨m, e1, e2, e3, e4, -⟩ := htake i (hps_in i o ((mem_feeds _ _ _).1 hi))
          rw [n1 i hi] at e1
          cases e1
          exact e3
        · rw [n2]
          unfold traceS
          congr 1
          funext a
          apply List.map_congr_left
          intro i hi
          obtain ⟨m, e1, e2, e3, e4, -⟩ := htake i (hps_in i o ((mem_feeds _ _ _).1 hi))
          rw [e4]
  · intro i o hio N hN1 hN
    obtain ⟨m, e1, e2, e3, e4, -⟩ := htake i (hps_in i o hio)
    rw [e3]
    have := r2.most i o hio N hN1 (by
      intro j hj
      obtain ⟨a1, a2, a3⟩ := hN j hj
      refine ⟨?_, a2, a3⟩
      intro x hx
      have hjl : j < streams.length := by
        have := (List.getElem?_eq_some_iff.1 hx).1
        omega
      obtain ⟨_, _, _, _, _, x', e5, e6⟩ := htake j hjl
      rw [hx] at e5
      cases e5
      omega)
    rw [e1] at this
    simp only [Option.getD_some] at this
    omega
  · intro i hse hi
    obtain ⟨n, n1, n2, n3⟩ := r2.monSel i hse (by rw [hvl]; omega)
    obtain ⟨m, e1, e2, e3, e4, -⟩ := htake i hi
    rw [n1] at e1
    cases e1
    refine ⟨r.mon, rfl, ?_, ?_⟩
    · rw [n3.length]
      simpa using n2
    · rw [e3, hbetween, List.map_map]
      rw [e4] at n3
      exact n3
  · intro hn
    show s.mon.append r.mon = s.mon
    rw [r2.monNone (by intro i hse; rw [hvl, ← hin]; exact hn i hse), Out.append_empty]

/-- What holds after every call. -/
structure Inv (streams : List (List α × List Tag)) (c : Cfg) (ps : List (Nat × Nat)) (s : Sys α) : Prop where
  ports : PortsOk streams s.ins
  outsLen : s.outs.length = c.nOut
  outs : ∀ (o : Nat) (w : Out α), s.outs[o]? = some w → ∃ tr, Carries streams tr w ∧
    (∀ i, from_ tr i = if (i, o) ∈ ps then List.range (s.taken i) else []) ∧
    (c.sync = true → 2 ≤ (feeds ps o).length → ∃ n, (∀ i ∈ feeds ps o, s.taken i = n) ∧
      tr = (List.range n).flatMap fun a => (feeds ps o).map fun i => (i, a))

theorem Inv.init {streams : List (List α × List Tag)} (h : StreamsOk streams) (c : Cfg) (ps : List (Nat × Nat)) : Inv streams c ps (Sys.init streams c.nOut) := by
  have h0 : ∀ i, (Sys.init streams c.nOut).taken i = 0 := by
    intro i
    unfold Sys.taken Sys.init
    simp only [List.getElem?_map]
    cases streams[i]? <;> rfl
  refine ⟨PortsOk.init h _, by simp [Sys.init], ?_⟩
  intro o w hw
  have hwe : w = Out.empty := by
    simp only [Sys.init] at hw
    rw [List.getElem?_replicate] at hw
    split at hw
    · cases hw; rfl
    · cases hw
  subst hwe
  refine ⟨[], Carries.empty _, ?_, ?_⟩
  · intro i
    rw [h0]
    simp [from_]
  · intro _ _
    exact ⟨0, fun i _ => h0 i, rfl⟩

theorem range_between (a b : Nat) (h : a ≤ b) : List.range a ++ between a b = List.range b := by
  unfold between
  obtain ⟨m, rfl⟩ : ∃ m, b = a + m := ⟨b - a, by omega⟩
  rw [Nat.add_sub_cancel_left, List.range_add]

theorem Inv.step {streams : List (List α × List Tag)} {c : Cfg} {ps : List (Nat × Nat)} {s s' : Sys α} {k : Call} (h : Inv streams c ps s)
    (hs : StepDone streams c ps s k s') : Inv streams c ps s' := by
  refine ⟨hs.ports, hs.outsLen.trans h.outsLen, ?_⟩
  intro o w' hw'
  obtain ⟨w, u, tr', a1, a2, a3, a4, a5, a6, -⟩ := hs.outs o w' hw'
  obtain ⟨tr, b1, b2, b3⟩ := h.outs o w a1
  refine ⟨tr ++ tr', by rw [a2]; exact b1.append a4, ?_, ?_⟩
  · intro i
    rw [from_append, b2, a5]
    by_cases hio : (i, o) ∈ ps
    · rw [if_pos hio, if_pos hio, if_pos hio, range_between _ _ (hs.up i).1]
    · rw [if_neg hio, if_neg hio, if_neg hio]; rfl
  · intro hc h2
    obtain ⟨n, n1, n2⟩ := b3 hc h2
    obtain ⟨m, m1, m2⟩ := a6 hc h2
    refine ⟨n + m, ?_, ?_⟩
    · intro i hi
      rw [m1 i hi, n1 i hi]
    · rw [List.range_add, List.flatMap_append, ← n2, m2, List.flatMap_map]
      congr 2
      funext a
      apply List.map_congr_left
      intro i hi
      rw [n1 i hi]

theorem run_spec {streams : List (List α × List Tag)} {c : Cfg} {ps : List (Nat × Nat)} (hm : Maps c ps) (hps : ps ≠ []) (hz : ZeroLinked c ps)
    (hst : StreamsOk streams) (hin : streams.length = c.nIn) (calls : List Call) (hk : CallsOk c.nIn c.nOut calls) :
    ∃ s, run c (Sys.init streams c.nOut) calls = some s ∧ Inv streams c ps s := by
  have key : ∀ (calls : List Call), CallsOk c.nIn c.nOut calls → ∀ s : Sys α, Inv streams c ps s → ∃ s', run c s calls = some s' ∧ Inv streams c ps s' := by
    intro calls
    induction calls with
    | nil => intro _ s h; exact ⟨s, rfl, h⟩
    | cons k calls ih =>
      intro hk s h
      obtain ⟨s1, e1, e2⟩ := step_spec hm hps hz h.ports hin h.outsLen (hk k (by simp))
      obtain ⟨s', e3, e4⟩ := ih (fun k' h' => hk k' (by simp [h'])) s1 (h.step e2)
      refine ⟨s', ?_, e4⟩
      unfold run at e3 ⊢
      rw [List.foldlM_cons, e1]
      exact e3
  exact key calls hk _ (Inv.init hst c ps)

end Verif.Selector
