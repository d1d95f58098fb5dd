import Verif.Schmitt.BlockLemmas

/-!
# Properties of the Schmitt trigger and the trigger block

* C101 the detector reports exactly the changes of a comparator with hysteresis
* C102 the block passes samples and tags through, however it is called
* C103 an edge tag is published at every edge, with its time, however the block is called
* C104 thresholds and time base follow the settings
-/

namespace Verif.Schmitt

open Spec

variable {τ : Type}

/-! ## C101 -/

/-- **C101.** Without interpolation, and with interpolation between two samples, the reported
edges are exactly those of a comparator with hysteresis, for every signal and every positive
threshold. -/
theorem edges_exact (m : Method) (hm : m = .plain ∨ m = .basic) (c : Cfg) (hc : 0 < c.threshold)
    (xs : List Int) (es : List (Option Edge)) (t : Trig)
    (h : runTrig m c Trig.init xs = some (es, t)) :
    es = edges (c.offset - c.threshold) (c.offset + c.threshold) xs := by
  have := (run_edges m hm c (by unfold Cfg.lower Cfg.upper; omega) xs [] Trig.init es t rfl h).1
  rw [List.nil_append, show edges c.lower c.upper [] = [] from rfl, List.nil_append] at this
  exact this.symm

example : (runTrig .plain { threshold := 2, offset := 1 } Trig.init [0, 2, 3, 1, 4, -1, -2, 5]).map (·.1) =
    some [none, none, some .rising, none, none, some .falling, none, some .rising] := by decide

/-- **C101.** Without interpolation the detector is defined on every signal of up to 2³¹
samples. -/
theorem plain_total (c : Cfg) (xs : List Int) (h : xs.length ≤ 2 ^ 31) :
    ∃ es t, runTrig .plain c Trig.init xs = some (es, t) :=
  plain_defined c xs Trig.init 0 (by decide) (by decide) (by decide)
    (by have : (2 : Nat) ^ 31 = 2147483648 := by decide
        omega)

theorem long_quiet (N : Nat) (hN : N = 2 ^ 31) (t : Trig) (h0 : t.idx = 0) (hl : t.last = true) :
    runTrig .plain { threshold := 1, offset := 0 } t (List.replicate N 0 ++ [0]) = none := by
  have h31 : (2 : Nat) ^ 31 = 2147483648 := by decide
  rw [runTrig_append, quiet_idx { threshold := 1, offset := 0 } 0 (by decide) (by decide) N t
    (by omega) (by omega)]
  simp only [Option.bind_some, runTrig, step, stepPlain, hl]
  rw [if_neg (by simp), if_neg (by decide)]
  unfold nextIdx toInt32
  rw [if_neg (by omega), if_neg (by omega)]
  rfl

/-- **C101, disagreement.** The counter that tells how long ago the last edge was is decremented
with every sample and never stops: 2³¹ + 1 quiet samples after an edge overflow it. -/
theorem not_always_defined : ¬ ∀ (c : Cfg) (xs : List Int), 0 < c.threshold →
    ∃ r, runTrig .plain c Trig.init xs = some r := by
  intro h
  obtain ⟨N, hN⟩ : ∃ N : Nat, N = 2 ^ 31 := ⟨_, rfl⟩
  obtain ⟨r, hr⟩ := h { threshold := 1, offset := 0 } ([1] ++ (List.replicate N 0 ++ [0])) (by decide)
  rw [runTrig_append] at hr
  have h1 : runTrig .plain { threshold := 1, offset := 0 } Trig.init [1] =
    some ([some .rising], { Trig.init with idx := 0, edge := some .rising, last := true, loc := (0, 1) }) := rfl
  rw [h1] at hr
  simp only [Option.bind_some] at hr
  rw [long_quiet N hN _ rfl rfl] at hr
  cases hr

/-- **C101.** With every method reported edges alternate, the first one rising. -/
theorem edges_alternate (m : Method) (c : Cfg) (xs : List Int) (es : List (Option Edge)) (t : Trig)
    (h : runTrig m c Trig.init xs = some (es, t)) : Alternate true (es.filterMap id) :=
  run_alternate m c xs Trig.init es t h

example : (runTrig (.zone (regress 0)) { threshold := 2, offset := 0 } Trig.init [-3, 0, 3, 3, 1, -2]).map (·.1) =
    some [none, none, some .rising, none, none, some .falling] := by decide

/-- **C101.** With interpolation between two samples, an edge is placed on the whole sample next to where the
line from the sample before to this one meets the offset; places count from this sample. -/
theorem basic_placed (c : Cfg) (pre : List Int) (y1 y2 : Int) (hy : y1 ≠ y2) (es : List (Option Edge)) (e : Edge) (t : Trig)
    (h : runTrig .basic c Trig.init (pre ++ [y1, y2]) = some (es ++ [some e], t)) :
    (2 * (t.idx * (y2 - y1) - (c.offset - y2))).natAbs ≤ (y2 - y1).natAbs := by
  have hx : pre ++ [y1, y2] = (pre ++ [y1]) ++ [y2] := by simp
  rw [hx, runTrig_append] at h
  cases h1 : runTrig .basic c Trig.init (pre ++ [y1]) with
  | none => rw [h1] at h; cases h
  | some r =>
    obtain ⟨es1, t1⟩ := r
    have hh : t1.hist.headD 0 = y1 := by
      rw [runTrig_append] at h1
      cases h0 : runTrig .basic c Trig.init pre with
      | none => rw [h0] at h1; cases h1
      | some r0 =>
        obtain ⟨es0, t0⟩ := r0
        rw [h0] at h1
        simp only [Option.bind_some, runTrig, step, stepBasic] at h1
        have hk : ((y1 :: t0.hist).take nHistory).headD 0 = y1 := rfl
        split at h1
        · cases h1
        · rename_i e1 t' hs
          have : t1 = t' := by simp at h1; exact h1.2.symm
          subst this
          split at hs
          · obtain ⟨i, _, hi⟩ := Option.map_eq_some_iff.1 hs
            injection hi with _ hi; rw [← hi]; exact hk
          · split at hs
            · obtain ⟨i, _, hi⟩ := Option.map_eq_some_iff.1 hs
              injection hi with _ hi; rw [← hi]; exact hk
            · obtain ⟨i, _, hi⟩ := Option.map_eq_some_iff.1 hs
              injection hi with _ hi; rw [← hi]; exact hk
    rw [h1] at h
    simp only [Option.bind_some, runTrig, step, stepBasic, hh] at h
    have key : ∀ i, toInt32 (roundDiv (basicPos c.offset y1 y2).1 (basicPos c.offset y1 y2).2) = some i →
        (2 * (i * (y2 - y1) - (c.offset - y2))).natAbs ≤ (y2 - y1).natAbs := by
      intro i hi
      rw [toInt32_eq hi]
      unfold basicPos frac
      rw [if_neg hy]
      split
      · rename_i hp
        have := roundDiv_near (c.offset - y2) (y2 - y1) hp
        simp only
        omega
      · have := roundDiv_near (-(c.offset - y2)) (-(y2 - y1)) (by omega)
        simp only
        generalize roundDiv (-(c.offset - y2)) (-(y2 - y1)) = q at this ⊢
        have e' : q * -(y2 - y1) = -(q * (y2 - y1)) := by grind
        omega
    split at h
    · cases h
    · rename_i e1 t' hs
      simp only [Option.map_some, Option.some.injEq, Prod.mk.injEq] at h
      obtain ⟨ha, hb⟩ := h
      subst hb
      have he : e1 = some e := by
        have := congrArg List.getLast? ha
        simpa using this
      split at hs
      · obtain ⟨i, hi, hj⟩ := Option.map_eq_some_iff.1 hs
        injection hj with _ hj; rw [← hj]; exact key i hi
      · split at hs
        · obtain ⟨i, hi, hj⟩ := Option.map_eq_some_iff.1 hs
          injection hj with _ hj; rw [← hj]; exact key i hi
        · obtain ⟨i, hi, hj⟩ := Option.map_eq_some_iff.1 hs
          injection hj with hj _; rw [← hj] at he; cases he

example : (runTrig .basic { threshold := 1, offset := 0 } Trig.init [-9, 3]).map (·.1) = some [none, some .rising] := by decide

/-- **C101.** With regression, an edge is placed on the whole sample next to where the line meets the offset,
and counting starts afresh: the next line is laid through samples after this edge only. -/
theorem zone_placed (l : Locator) (hl : ∀ h a p, l h a = some p → 0 < p.2) (c : Cfg) (t t' : Trig) (x : Int) (e : Edge)
    (h : step (.zone l) c t x = some (some e, t')) :
    t'.acc = 0 ∧ ∃ a p, l ((x :: t.hist).take nHistory) a = some p ∧ (2 * (t'.idx * p.2 - p.1)).natAbs ≤ p.2.natAbs := by
  simp only [step, stepZone] at h
  split at h
  · simp at h
  · split at h
    · split at h
      · cases h
      · rename_i p hp
        obtain ⟨i, hi, hj⟩ := Option.map_eq_some_iff.1 h
        injection hj with _ hj
        rw [← hj]
        refine ⟨rfl, _, p, hp, ?_⟩
        have := roundDiv_near p.1 p.2 (hl _ _ _ hp)
        rw [toInt32_eq hi]
        simp only
        omega
    · split at h <;> simp at h

example : ∀ o h a p, regress o h a = some p → 0 < p.2 := by
  intro o h a p hp
  unfold regress at hp
  simp only at hp
  split at hp
  · cases hp
  · rename_i hne
    injection hp with hp
    rw [← hp]
    unfold frac
    split
    · assumption
    · rename_i hnp
      simp only
      have : ((min (max a 2) h.length : Nat) : Int) * ((min (max a 2) h.length : Nat) * (sums (h.take (min (max a 2) h.length))).2 - ((min (max a 2) h.length : Nat) * ((min (max a 2) h.length : Nat) - 1) / 2 : Int) * (sums (h.take (min (max a 2) h.length))).1) ≠ 0 := by
        refine Int.mul_ne_zero ?_ hne
        intro h0
        apply hne
        rw [h0]; simp
      omega
/-- **C101.** Without interpolation `lastEdgeIdx` is minus the number of samples since the last
edge. -/
theorem last_edge_distance (c : Cfg) (xs : List Int) (pre : List (Option Edge)) (e : Edge) (k : Nat)
    (t : Trig)
    (h : runTrig .plain c Trig.init xs = some (pre ++ some e :: List.replicate k none, t)) :
    t.idx = -(k : Int) := by
  have hlen := runTrig_length _ _ _ _ _ _ h
  have hx : xs = xs.take (pre.length + 1) ++ xs.drop (pre.length + 1) := (List.take_append_drop _ _).symm
  rw [hx, runTrig_append] at h
  cases h1 : runTrig .plain c Trig.init (xs.take (pre.length + 1)) with
  | none => rw [h1] at h; cases h
  | some r =>
    obtain ⟨es1, t1⟩ := r
    rw [h1] at h
    simp only [Option.bind_some] at h
    cases h2 : runTrig .plain c t1 (xs.drop (pre.length + 1)) with
    | none => rw [h2] at h; cases h
    | some q =>
      obtain ⟨es2, t2⟩ := q
      rw [h2] at h
      simp only [Option.map_some] at h
      injection h with h
      injection h with h3 h4
      subst h4
      have l1 := runTrig_length _ _ _ _ _ _ h1
      simp only [List.length_append, List.length_cons, List.length_replicate] at hlen
      rw [List.length_take] at l1
      rw [show pre ++ some e :: List.replicate k none = (pre ++ [some e]) ++ List.replicate k none by simp] at h3
      obtain ⟨h5, h6⟩ := List.append_inj h3 (by simp; omega)
      have i2 := plain_quiet c _ t1 k t2 (by rw [h2, h6])
      -- the index right after the edge
      have hx1 : xs.take (pre.length + 1) = xs.take pre.length ++ [xs[pre.length]'(by omega)] := by
        rw [List.take_add_one, List.getElem?_eq_getElem (by omega)]; rfl
      rw [hx1, runTrig_append] at h1
      cases h7 : runTrig .plain c Trig.init (xs.take pre.length) with
      | none => rw [h7] at h1; cases h1
      | some u =>
        obtain ⟨es3, t3⟩ := u
        rw [h7] at h1
        simp only [Option.bind_some, runTrig] at h1
        cases h8 : step .plain c t3 (xs[pre.length]'(by omega)) with
        | none => rw [h8] at h1; cases h1
        | some v =>
          obtain ⟨e4, t4⟩ := v
          rw [h8] at h1
          simp only [Option.map_some] at h1
          injection h1 with h1
          injection h1 with h9 h10
          subst h10
          rw [h5] at h9
          have l3 := runTrig_length _ _ _ _ _ _ h7
          rw [List.length_take] at l3
          obtain ⟨_, h11⟩ := List.append_inj h9 (by omega)
          injection h11 with h12
          have := (plain_idx c t3 _ e4 t4 h8).1 (by rw [h12]; simp)
          rw [this] at i2
          rw [i2]; simp

example : ∃ t, runTrig .plain { threshold := 2, offset := 1 } Trig.init [0, 3, 1, 2] =
    some ([none] ++ some .rising :: List.replicate 2 none, t) ∧ t.idx = -2 := ⟨_, rfl, rfl⟩

/-- **C101, the part that holds of the regression methods.** They report exactly the edges of the
signal from its first sample at or below the lower threshold on (from its beginning, if the zeros
the history is filled with are already there), whatever locates the edge. -/
theorem zone_edges_partial (l : Locator) (c : Cfg) (hc : 0 < c.threshold)
    (xs : List Int) (es : List (Option Edge)) (t : Trig)
    (h : runTrig (.zone l) c Trig.init xs = some (es, t)) :
    es = if c.offset - c.threshold < 0 then
        (xs.takeWhile (fun x => decide (c.offset - c.threshold < x))).map (fun _ => none) ++
          edges (c.offset - c.threshold) (c.offset + c.threshold)
            (xs.dropWhile (fun x => decide (c.offset - c.threshold < x)))
      else edges (c.offset - c.threshold) (c.offset + c.threshold) xs := by
  have hlu : c.lower < c.upper := by unfold Cfg.lower Cfg.upper; omega
  by_cases h0 : c.offset - c.threshold < 0
  · rw [if_pos h0]
    exact zone_unarmed l c hlu xs Trig.init es t rfl rfl h0 h
  · rw [if_neg h0]
    have ha : Armed c Trig.init [] :=
      ⟨rfl, fun _ _ => (by show (0 : Int) ≤ c.lower; unfold Cfg.lower; omega), fun _ h => (by cases h)⟩
    have := zone_run l c hlu xs [] Trig.init es t ha h
    rw [List.nil_append, show edges c.lower c.upper [] = [] from rfl, List.nil_append] at this
    exact this.symm

example : (runTrig (.zone (regress 0)) { threshold := 2, offset := 0 } Trig.init [1, 3, -3, 0, 3]).map (·.1) =
    some [none, none, none, none, some .rising] := by decide

/-- **C101, disagreement.** A signal that starts between the thresholds and rises has an edge that
the regression method does not report. -/
theorem not_zone_edges : ¬ ∀ (c : Cfg) (xs : List Int) (es : List (Option Edge)) (t : Trig),
    0 < c.threshold → runTrig (.zone (regress c.offset)) c Trig.init xs = some (es, t) →
    es = edges (c.offset - c.threshold) (c.offset + c.threshold) xs := by
  intro h
  have := h { threshold := 1, offset := 0 } [0, 2] [none, none] _ (by decide) rfl
  exact absurd this (by decide)

/-- **C101, disagreement.** The regression line can be level although the thresholds were
crossed; the place of the edge is then the cast of an infinity. -/
theorem level_regression : runTrig (.zone (regress 0)) { threshold := 4, offset := 0 } Trig.init
    [-5, 3, 0, -3, 4] = none := by decide

/-! ## C102 -/

/-- **C102.** With every method and for every sequence of calls: what comes out is the consumed
part of the input, and the input's tags at the consumed samples are forwarded once each, in order
and at their positions (or not at all, if forwarding is off). -/
theorem passes_through (b : Block) (xs : List Int) (tagsAt : Nat → List τ) (now : Nat)
    (cs : List Call) (s : St τ) (h : run b xs tagsAt (St.start now) cs = some s) :
    s.pos ≤ xs.length ∧ s.out = xs.take s.pos ∧
    forwarded s.tags =
      if b.forward then (List.range s.pos).flatMap fun p => (tagsAt p).map fun t => (p, t) else [] := by
  have := run_moved b xs tagsAt cs _ s (start_moved b xs tagsAt now) h
  exact ⟨this.le, this.out, this.fwd⟩

theorem run_drains (b : Block) (xs : List Int) (tagsAt : Nat → List τ) (room : Nat) (hr : 0 < room) :
    ∀ (k : Nat) (s s' : St τ), s.pos ≤ xs.length →
      run b xs tagsAt s (List.replicate k { avail := xs.length, room := room, eos := true }) = some s' →
      min xs.length (s.pos + k) ≤ s'.pos := by
  intro k
  induction k with
  | zero =>
    intro s s' _ h
    simp only [List.replicate_zero, run] at h
    cases h; omega
  | succ k ih =>
    intro s s' hle h
    simp only [List.replicate_succ, run] at h
    cases hc : call b xs tagsAt s { avail := xs.length, room := room, eos := true } with
    | none => rw [hc] at h; cases h
    | some s1 =>
      rw [hc] at h
      rcases call_cases b xs tagsAt s _ s1 hc with ⟨h1, h2⟩ | ⟨j, h0, h1, h2, _, _⟩
      · unfold nProcess at h2
        simp at h2
        have := ih s1 s' (by rw [h1]; exact hle) h
        rw [h1] at this
        omega
      · have := nProcess_le (xs.length - s.pos) { avail := xs.length, room := room, eos := true }
        have := ih s1 s' (by omega) h
        omega

/-- **C102.** Once the end of the stream is in sight, as many calls as there are samples bring
out everything. -/
theorem drains (b : Block) (xs : List Int) (tagsAt : Nat → List τ) (now room k : Nat)
    (hr : 0 < room) (hk : xs.length ≤ k) (cs : List Call) (s s' : St τ)
    (h : run b xs tagsAt (St.start now) cs = some s)
    (h' : run b xs tagsAt s (List.replicate k { avail := xs.length, room := room, eos := true }) = some s') :
    s'.out = xs := by
  have hm := run_moved b xs tagsAt cs _ s (start_moved b xs tagsAt now) h
  have hm' := run_moved b xs tagsAt _ s s' hm h'
  have := run_drains b xs tagsAt room hr k s s' hm.le h'
  rw [hm'.out]
  exact List.take_of_length_le (by omega)

/-- **C102.** Until then the last 32 samples are held back. -/
theorem holds_back (b : Block) (xs : List Int) (tagsAt : Nat → List τ) : ∀ (cs : List Call)
    (s s' : St τ), (∀ c ∈ cs, c.eos = false) → s.pos ≤ xs.length - 32 →
    run b xs tagsAt s cs = some s' → s'.pos ≤ xs.length - 32 := by
  intro cs
  induction cs with
  | nil => intro s s' _ hp h; simp only [run] at h; cases h; exact hp
  | cons c cs ih =>
    intro s s' he hp h
    simp only [run] at h
    cases hc : call b xs tagsAt s c with
    | none => rw [hc] at h; cases h
    | some s1 =>
      rw [hc] at h
      refine ih s1 s' (fun c hc => he c (List.mem_cons_of_mem _ hc)) ?_ h
      rcases call_cases b xs tagsAt s c s1 hc with ⟨h1, _⟩ | ⟨j, h0, h1, h2, _, _⟩
      · rw [h1]; exact hp
      · have e := he c (List.mem_cons_self ..)
        unfold nProcess nHistory at h1
        simp only [e, Bool.false_eq_true, if_false, and_true] at h1
        split at h1
        · omega
        · omega

/-- A block for the examples. -/
def exBlock (m : Method) (period : Nat) : Block :=
  { cfg := { threshold := 5, offset := 0 }, method := m, forward := true, nameR := "up", nameF := "down",
    period := period }

/-- Tags of the examples: one at position 1. -/
def exTags (p : Nat) : List Nat := if p = 1 then [7] else []

/-- What the examples show of a state. -/
def show' (s : St Nat) : Nat × List Int × List (Nat × OutTag Nat) := (s.pos, s.out, s.tags)

example : (run (exBlock .plain 10) [0, 6, 1, -5, 0] exTags (St.start 100)
      [{ avail := 1, room := 5, eos := true }, { avail := 9, room := 9, eos := true },
       { avail := 9, room := 1, eos := true }, { avail := 9, room := 9, eos := true },
       { avail := 9, room := 9, eos := true }]).map show' =
    some (5, [0, 6, 1, -5, 0],
      [(1, .fwd 7), (1, .edge "up" 120 (0, 1)), (3, .edge "down" 140 (0, 1))]) := by decide

/-! ## C103 -/

/-- **C103.** Without interpolation, for every signal, every positive threshold and every sequence
of calls: the published tags are, position by position, the input's tags followed by the tag of
the edge there, whose time is the start time plus one period per sample. -/
theorem edge_tags (b : Block) (hb : b.method = .plain) (hc : 0 < b.cfg.threshold)
    (xs : List Int) (tagsAt : Nat → List τ) (now : Nat) (hn : now < 2 ^ 64) (cs : List Call) (s : St τ)
    (h : run b xs tagsAt (St.start now) cs = some s) :
    s.tags = (List.range s.pos).flatMap
      (tagsAtPos (b.cfg.offset - b.cfg.threshold) (b.cfg.offset + b.cfg.threshold) b.forward
        b.nameR b.nameF now b.period tagsAt xs) := by
  have h64 : (2 : Nat) ^ 64 = two64 := by decide
  have hs : Plain b xs tagsAt now (St.start now) := by
    refine ⟨Nat.zero_le _, rfl, by rw [← h64]; exact hn, ?_, rfl⟩
    show now = (now + 0 * b.period) % two64
    rw [Nat.zero_mul, Nat.add_zero, Nat.mod_eq_of_lt (by omega)]
  exact (run_plain b hb (by unfold Cfg.lower Cfg.upper; omega) xs tagsAt now cs _ s hs h).tags

/-- **C103.** So two runs over the same input that got equally far published the same, however
the calls cut the input. -/
theorem calls_do_not_matter (b : Block) (hb : b.method = .plain) (hc : 0 < b.cfg.threshold)
    (xs : List Int) (tagsAt : Nat → List τ) (now : Nat) (hn : now < 2 ^ 64) (cs cs' : List Call)
    (s s' : St τ) (h : run b xs tagsAt (St.start now) cs = some s)
    (h' : run b xs tagsAt (St.start now) cs' = some s') (hp : s.pos = s'.pos) :
    s.out = s'.out ∧ s.tags = s'.tags := by
  refine ⟨?_, ?_⟩
  · rw [(passes_through b xs tagsAt now cs s h).2.1, (passes_through b xs tagsAt now cs' s' h').2.1, hp]
  · rw [edge_tags b hb hc xs tagsAt now hn cs s h, edge_tags b hb hc xs tagsAt now hn cs' s' h', hp]

theorem run_defined (b : Block) (hb : b.method = .plain) (hc : b.cfg.lower < b.cfg.upper)
    (xs : List Int) (tagsAt : Nat → List τ) (start : Nat) (s : St τ)
    (hp : Plain b xs tagsAt start s) (hi : -(s.pos : Int) ≤ s.trig.idx) (hi1 : s.trig.idx ≤ 1)
    (hx : xs.length ≤ 2147483648) (c : Call) :
    ∃ s', call b xs tagsAt s c = some s' ∧ -(s'.pos : Int) ≤ s'.trig.idx ∧ s'.trig.idx ≤ 1 := by
  unfold call
  have hle := nProcess_le (xs.length - s.pos) c
  generalize nProcess (xs.length - s.pos) c = n at hle ⊢
  have hpl := hp.le
  by_cases h0 : n = 0
  · simp only [if_pos h0]; exact ⟨s, rfl, hi, hi1⟩
  · simp only [if_neg h0]
    have key : ∀ (ys : List Int) (i : Nat) (t : Trig) (now k : Nat), -(k : Int) ≤ t.idx → t.idx ≤ 1 →
        k + ys.length ≤ 2147483648 → i + ys.length ≤ n →
        ∃ t' now' r, scan b n i ys t now = some (t', now', r) ∧ t'.idx ≤ 1 ∧
          (∀ nm p, r = some (nm, p) → t'.idx = 0) ∧ (r = none → -((k + ys.length : Nat) : Int) ≤ t'.idx) := by
      intro ys
      induction ys with
      | nil => intro i t now k h1 h2 h3 _; exact ⟨t, now, none, rfl, h2, fun _ _ h => (by cases h), fun _ => h1⟩
      | cons y ys ih =>
        intro i t now k h1 h2 h3 h4
        rw [List.length_cons] at h3 h4
        obtain ⟨e, t1, hs, h5, h6⟩ := plain_idx_range b.cfg t y k h1 h2 (by omega) (by omega)
        simp only [scan, hb, hs]
        rw [hit_plain b n i e t1 (by omega) (plain_idx b.cfg t y e t1 hs).1]
        cases hn : nameOf b e with
        | some nm =>
          simp only [Option.map_some]
          have : t1.idx = 0 := (plain_idx b.cfg t y e t1 hs).1 (by intro h0; rw [h0] at hn; cases hn)
          exact ⟨t1, _, _, rfl, h6, fun _ _ _ => this, fun h => (by cases h)⟩
        | none =>
          simp only [Option.map_none]
          obtain ⟨t', now', r, a1, a2, a3, a4⟩ := ih (i + 1) t1 ((now + b.period) % two64) (k + 1)
            (by omega) h6 (by omega) (by omega)
          exact ⟨t', now', r, a1, a2, a3, fun h => (by have := a4 h; rw [List.length_cons]; omega)⟩
    have hlen : ((xs.drop s.pos).take n).length = n := by
      rw [List.length_take, List.length_drop]; omega
    obtain ⟨t', now', r, a1, a2, a3, a4⟩ := key ((xs.drop s.pos).take n) 0 s.trig s.now s.pos hi hi1
      (by omega) (by omega)
    rw [a1]
    cases r with
    | none =>
      refine ⟨_, rfl, ?_, a2⟩
      have := a4 rfl
      rw [hlen] at this
      exact this
    | some q =>
      obtain ⟨nm, p⟩ := q
      have hxx : xs = xs.take s.pos ++ ((xs.drop s.pos).take n ++ (xs.drop s.pos).drop n) := by
        rw [List.take_append_drop, List.take_append_drop]
      obtain ⟨hlt, hcase⟩ := scan_plain b hb hc n xs _ _ _ 0 _ _ _ _ _ hxx (by omega) hp.last hp.lt a1
      rcases hcase with ⟨h1, _⟩ | ⟨name, k, _, _, _, _, _, h6, _⟩
      · cases h1
      · simp only
        rw [h6, edgeTime_zero _ _ hlt]
        refine ⟨_, rfl, ?_, a2⟩
        show -((s.pos + (p + 1) : Nat) : Int) ≤ t'.idx
        rw [a3 nm p rfl]; omega

/-- **C103.** Without interpolation no call is undefined on a signal of up to 2³¹ samples. -/
theorem plain_run_defined (b : Block) (hb : b.method = .plain) (hc : 0 < b.cfg.threshold)
    (xs : List Int) (hx : xs.length ≤ 2 ^ 31) (tagsAt : Nat → List τ) (now : Nat) (hn : now < 2 ^ 64)
    (cs : List Call) : ∃ s, run b xs tagsAt (St.start now) cs = some s := by
  have h64 : (2 : Nat) ^ 64 = two64 := by decide
  have h31 : (2 : Nat) ^ 31 = 2147483648 := by decide
  have hlu : b.cfg.lower < b.cfg.upper := by unfold Cfg.lower Cfg.upper; omega
  have key : ∀ (cs : List Call) (s : St τ), Plain b xs tagsAt now s → -(s.pos : Int) ≤ s.trig.idx →
      s.trig.idx ≤ 1 → ∃ s', run b xs tagsAt s cs = some s' := by
    intro cs
    induction cs with
    | nil => intro s _ _ _; exact ⟨s, rfl⟩
    | cons c cs ih =>
      intro s hp hi hi1
      obtain ⟨s1, h1, h2, h3⟩ := run_defined b hb hlu xs tagsAt now s hp hi hi1 (by omega) c
      simp only [run, h1]
      exact ih s1 (call_plain b hb hlu xs tagsAt now s c s1 hp h1) h2 h3
  refine key cs _ ⟨Nat.zero_le _, rfl, by rw [← h64]; exact hn, ?_, rfl⟩ (by decide : (0 : Int) ≤ 1) (by decide : (1 : Int) ≤ 1)
  show now = (now + 0 * b.period) % two64
  rw [Nat.zero_mul, Nat.add_zero, Nat.mod_eq_of_lt (by omega)]

example : ∃ s, run (exBlock .plain 10) [0, 6, 1, -5, 0] exTags (St.start 100)
    [{ avail := 9, room := 9, eos := true }] = some s ∧ s.pos = 2 := ⟨_, rfl, rfl⟩

/-- **C103, disagreement.** With interpolation an edge whose place lies before the samples of the
call that detects it gets no tag: whether an edge is published depends on how the input was cut.
Both runs have passed on the whole input. -/
theorem not_calls_do_not_matter : ¬ ∀ (b : Block) (xs : List Int) (tagsAt : Nat → List Nat)
    (now : Nat) (cs cs' : List Call) (s s' : St Nat), 0 < b.cfg.threshold →
    run b xs tagsAt (St.start now) cs = some s → run b xs tagsAt (St.start now) cs' = some s' →
    s.pos = s'.pos → named s.tags = named s'.tags := by
  intro h
  obtain ⟨s, h1, h2, h3⟩ : ∃ s, run (exBlock .basic 1) [-2, 5, 1] exTags (St.start 0)
      [{ avail := 3, room := 3, eos := true }, { avail := 3, room := 3, eos := true }] = some s ∧
      s.pos = 3 ∧ named s.tags = [(0, "up")] := ⟨_, rfl, rfl, by decide⟩
  obtain ⟨s', h4, h5, h6⟩ : ∃ s, run (exBlock .basic 1) [-2, 5, 1] exTags (St.start 0)
      [{ avail := 1, room := 3, eos := true }, { avail := 3, room := 3, eos := true }] = some s ∧
      s.pos = 3 ∧ named s.tags = [] := ⟨_, rfl, rfl, by decide⟩
  have := h (exBlock .basic 1) [-2, 5, 1] exTags 0 _ _ s s' (by decide) h1 h4 (by rw [h2, h5])
  rw [h3, h6] at this
  cases this

/-- **C103, disagreement.** With interpolation the samples after the place of the edge are given to
the detector again, and the clock counts them twice: the tag at position 2 here carries time 5
although only 4 periods have passed at the sample that completes the edge (position 3). -/
theorem counted_twice : (run (exBlock .basic 1) [-2, 5, 2, -5] exTags (St.start 0)
      [{ avail := 4, room := 4, eos := true }, { avail := 4, room := 4, eos := true }]).map
      (fun s => s.tags) =
    some [(0, .edge "up" 2 (-5, 7)), (1, .fwd 7), (2, .edge "down" 5 (-5, 7))] := by decide

/-- **C103, disagreement.** The time of an interpolated edge is computed by casting its negative
distance to an unsigned number: undefined as soon as the edge lies a tick or more before the
sample. -/
theorem time_undefined : run (exBlock .basic (periodOf 1000)) [-2, 5, 2] exTags (St.start 0)
      [{ avail := 3, room := 3, eos := true }] = none := by decide

/-! ## C104 -/

/-- **C104, the part that holds.** If offset or threshold was set, the detector works with
offset ± threshold, a setting not given counting as offset 0 and threshold 1. -/
theorem thresholds_partial (u : User) (h : u.offset ≠ none ∨ u.threshold ≠ none) :
    u.cfg.lower = u.offset.getD 0 - u.threshold.getD 1 ∧
    u.cfg.upper = u.offset.getD 0 + u.threshold.getD 1 := by
  have : u.offset.isSome ∨ u.threshold.isSome := by
    rcases h with h | h
    · exact Or.inl (Option.isSome_iff_ne_none.2 h)
    · exact Or.inr (Option.isSome_iff_ne_none.2 h)
  unfold User.cfg
  rw [if_pos this]
  exact ⟨rfl, rfl⟩

example : (User.mk (some 3) none).cfg.upper = 4 := by decide

/-- **C104, disagreement.** A block whose offset and threshold were left at their defaults 0 and 1
uses thresholds 1 and 1: it reports a falling edge at a sample of 0. -/
theorem not_default_thresholds : ¬ ∀ (u : User) (xs : List Int) (es : List (Option Edge)) (t : Trig),
    runTrig .plain u.cfg Trig.init xs = some (es, t) →
    es = edges (u.offset.getD 0 - u.threshold.getD 1) (u.offset.getD 0 + u.threshold.getD 1) xs := by
  intro h
  have := h { offset := none, threshold := none } [2, 0] [some .rising, some .falling] _ rfl
  exact absurd this (by decide)

/-- **C104, the part that holds.** The times of two edges `k` samples apart differ by `k` times the
period derived from the sample rate (as long as the clock does not wrap). -/
theorem times_apart_partial (b : Block) (hb : b.method = .plain) (hc : 0 < b.cfg.threshold)
    (rate : Nat) (hr : b.period = periodOf rate)
    (xs : List Int) (tagsAt : Nat → List τ) (now : Nat) (cs : List Call) (s : St τ)
    (h : run b xs tagsAt (St.start now) cs = some s)
    (hn : now + (xs.length + 1) * b.period < 2 ^ 64)
    (p k : Nat) (n1 n2 : String) (t1 t2 : Nat) (o1 o2 : Int × Int)
    (h1 : (p, OutTag.edge n1 t1 o1) ∈ s.tags) (h2 : (p + k, OutTag.edge n2 t2 o2) ∈ s.tags) :
    t2 = t1 + k * (1000000 / rate) := by
  have hle := (passes_through b xs tagsAt now cs s h).1
  have ht := edge_tags b hb hc xs tagsAt now (by omega) cs s h
  have key : ∀ (q : Nat) (nm : String) (t : Nat) (o : Int × Int), (q, OutTag.edge nm t o) ∈ s.tags →
      q < xs.length ∧ t = now + (q + 1) * b.period := by
    intro q nm t o hm
    rw [ht] at hm
    obtain ⟨r, hr, hm⟩ := List.mem_flatMap.1 hm
    have hr' := List.mem_range.1 hr
    have hlt : now + (r + 1) * b.period < 2 ^ 64 := by
      have := Nat.mul_le_mul_right b.period (show r + 1 ≤ xs.length + 1 by omega)
      omega
    unfold tagsAtPos at hm
    rw [Nat.mod_eq_of_lt hlt] at hm
    rcases List.mem_append.1 hm with hm | hm
    · cases hf : b.forward
      · rw [hf] at hm; cases hm
      · rw [hf] at hm
        simp at hm
    · cases he : edgeAt (b.cfg.offset - b.cfg.threshold) (b.cfg.offset + b.cfg.threshold) xs r with
      | none => rw [he] at hm; cases hm
      | some e =>
        rw [he] at hm
        cases e
        · dsimp only at hm
          by_cases q0 : b.nameR = ""
          · rw [if_pos q0] at hm; cases hm
          · rw [if_neg q0] at hm
            have := List.mem_singleton.1 hm
            cases this
            exact ⟨by omega, rfl⟩
        · dsimp only at hm
          by_cases q0 : b.nameF = ""
          · rw [if_pos q0] at hm; cases hm
          · rw [if_neg q0] at hm
            have := List.mem_singleton.1 hm
            cases this
            exact ⟨by omega, rfl⟩
  have a := (key _ _ _ _ h1).2
  have c := (key _ _ _ _ h2).2
  rw [hr] at a c
  unfold periodOf at a c
  rw [c, a, show p + k + 1 = p + 1 + k by omega, Nat.add_mul (p + 1) k]
  omega

/-- **C104, disagreement.** Trigger times are nanoseconds, but two edges one second apart get times
a thousandth of that apart. -/
theorem not_nanoseconds : ¬ ∀ (b : Block) (rate : Nat) (xs : List Int) (now : Nat) (cs : List Call)
    (s : St Nat) (p : Nat) (n1 n2 : String) (t1 t2 : Nat) (o1 o2 : Int × Int),
    b.method = .plain → 0 < b.cfg.threshold → 0 < rate → b.period = periodOf rate →
    run b xs exTags (St.start now) cs = some s →
    (p, OutTag.edge n1 t1 o1) ∈ s.tags → (p + rate, OutTag.edge n2 t2 o2) ∈ s.tags →
    t2 = t1 + 1000000000 := by
  intro h
  have := h (exBlock .plain (periodOf 2)) 2 [0, 6, 1, -5, 0] 0
    (List.replicate 3 { avail := 9, room := 9, eos := true }) _ 1 "up" "down" 1000000 2000000 (0, 1) (0, 1)
    rfl (by decide) (by decide) rfl rfl (by decide) (by decide)
  exact absurd this (by decide)

/-- **C104, disagreement.** Above a million samples per second the clock stands still. -/
theorem clock_stands (rate : Nat) (h : 1000000 < rate) : periodOf rate = 0 :=
  Nat.div_eq_of_lt h

example : periodOf 2000000 = 0 := clock_stands _ (by decide)

end Verif.Schmitt
