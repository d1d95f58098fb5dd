import Verif.Work.Lemmas
/-!
# C30, C32, C34: how many samples one `work` call processes, and what it reports

A port is *counted* when it is synchronous and connected. A call's chunk is `l.res.inp` input samples starting `l.skip` samples after
the read position, giving `l.res.out` output samples.
-/
namespace Verif.Work

/-! ## C30 -/

/-- With positive chunk sizes nothing in the computation is undefined (no division by zero, no `std::clamp` with a crossed range). -/
theorem sample_limits_defined (c : Cfg) (hi : 0 < c.ics) (ho : 0 < c.ocs) (counter : Nat) (a : Agg) (req : Nat) :
    (sampleLimits c counter a req).isSome := by
  unfold sampleLimits
  obtain ⟨r, hr⟩ := resampling_defined c hi ho (min a.minIn a.nextEos)
    (min (min (min (min a.maxIn c.chunkLimit) (a.availIn - skipBefore c counter (min (min a.availIn (if c.forwardTags then inf else a.nextTag)) a.nextEos)))
      (if c.ics ≤ (if a.minIn ≤ (if c.forwardTags then inf else a.nextTag) - skipBefore c counter (min (min a.availIn (if c.forwardTags then inf else a.nextTag)) a.nextEos)
        then (if c.forwardTags then inf else a.nextTag) - skipBefore c counter (min (min a.availIn (if c.forwardTags then inf else a.nextTag)) a.nextEos) else inf)
        then (if a.minIn ≤ (if c.forwardTags then inf else a.nextTag) - skipBefore c counter (min (min a.availIn (if c.forwardTags then inf else a.nextTag)) a.nextEos)
        then (if c.forwardTags then inf else a.nextTag) - skipBefore c counter (min (min a.availIn (if c.forwardTags then inf else a.nextTag)) a.nextEos) else inf) else c.ics))
      (a.nextEos - skipBefore c counter (min (min a.availIn (if c.forwardTags then inf else a.nextTag)) a.nextEos)))
    a.minOut (min a.maxOut a.availOut) req
  dsimp only
  rw [hr]
  simp only [bind, Option.bind_some, cdiv_pos hi, pure, Option.isSome_some]

/-- **C30, ratio**: a resampling block is offered `k * input_chunk_size` input samples for `k * output_chunk_size` output samples,
one `k` for both; a block without resampling as many in as out. -/
theorem chunk_ratio {c : Cfg} {counter : Nat} {ins : List InPort} {outs : List OutPort} {req : Nat} {l : Limits}
    (h : sampleLimits c counter (aggregate ins outs) req = some l) :
    if c.resampling then ∃ k, l.res.inp = k * c.ics ∧ l.res.out = k * c.ocs else l.res.inp = l.res.out := by
  obtain ⟨n, _, _, _, _, _, hs⟩ := (limits_spec h).res
  cases hr : c.resampling with
  | true => exact hs.ratio hr
  | false => exact hs.same hr

/-- **C30, bounds**: what is skipped and processed is available on every counted input, what is produced has space on every counted
output, and no port's maximum is exceeded. -/
theorem chunk_within_ports {c : Cfg} {counter : Nat} {ins : List InPort} {outs : List OutPort} {req : Nat} {l : Limits}
    (h : sampleLimits c counter (aggregate ins outs) req = some l) :
    (∀ p ∈ ins, p.connected = true → p.sync = true → l.skip + l.res.inp ≤ p.available ∧ l.res.inp ≤ p.maxSamples) ∧
    (∀ p ∈ outs, p.connected = true → p.sync = true → l.res.out ≤ p.available ∧ l.res.out ≤ p.maxSamples) ∧
    l.res.inp ≤ c.chunkLimit := by
  have hl := limits_spec h
  obtain ⟨n, h1, h2, h3, h4, _, hs⟩ := hl.res
  have hk := skip_le c counter (min (min (aggregate ins outs).availIn (if c.forwardTags then inf else (aggregate ins outs).nextTag)) (aggregate ins outs).nextEos)
  rw [← hl.skip] at hk
  have hi := hs.inLe
  have ho := hs.outLe
  refine ⟨fun p hp hc hy => ?_, fun p hp hc hy => ?_, by omega⟩
  · have a1 : (aggregate ins outs).availIn ≤ p.available := avail_le hp hc hy
    have a2 : (aggregate ins outs).maxIn ≤ p.maxSamples := max_le hp hy
    omega
  · have a1 : (aggregate ins outs).availOut ≤ p.available := availOut_le hp hc hy
    have a2 : (aggregate ins outs).maxOut ≤ p.maxSamples := maxOut_le hp hy
    omega

/-- **C30, minimum**: unless an insufficiency is reported (and then the chunk is empty) every counted port's minimum is met; inputs
only as long as the end of the stream is not ahead of the minimum, in which case the block is told to stop. -/
theorem chunk_meets_minimum {c : Cfg} {counter : Nat} {ins : List InPort} {outs : List OutPort} {req : Nat} {l : Limits}
    (h : sampleLimits c counter (aggregate ins outs) req = some l) :
    (l.res.status = .ok ∧ (∀ p ∈ outs, p.connected = true → p.sync = true → p.minSamples ≤ l.res.out) ∧
      (l.eos = false → ∀ p ∈ ins, p.connected = true → p.sync = true → p.minSamples ≤ l.res.inp)) ∨
    ((l.res.status = .insufficientIn ∨ l.res.status = .insufficientOut) ∧ l.res.inp = 0 ∧ l.res.out = 0) := by
  have hl := limits_spec h
  obtain ⟨n, _, _, _, _, _, hs⟩ := hl.res
  by_cases hok : l.res.status = .ok
  · left
    obtain ⟨h1, h2⟩ := hs.ok hok
    refine ⟨hok, fun p hp hc hy => ?_, fun he p hp hc hy => ?_⟩
    · have : p.minSamples ≤ (aggregate ins outs).minOut := minOut_ge hp hc hy
      omega
    · have : p.minSamples ≤ (aggregate ins outs).minIn := min_ge hp hc hy
      have := hl.eos he
      omega
  · right
    obtain ⟨h1, h2⟩ := hs.bad hok
    rcases hs.kind with h | h | h
    · exact absurd h hok
    · exact ⟨Or.inl h, h1, h2⟩
    · exact ⟨Or.inr h, h1, h2⟩

/-- An insufficiency is only reported when no number of chunks fits between the minima and the maxima (with an active stride: when
one chunk does not fit). -/
theorem insufficient_means_no_chunk_fits {c : Cfg} (hi : 0 < c.ics) (ho : 0 < c.ocs) {minIn maxIn minOut maxOut req : Nat} {r : Res}
    (h : computeResampling c minIn maxIn minOut maxOut req = some r) (hb : r.status ≠ .ok) (hres : c.resampling = true) :
    ¬∃ k, (c.strideActive = true → c.ics = 1 ∧ c.ocs = 1 ∨ k ≤ 1) ∧ minIn ≤ k * c.ics ∧ k * c.ics ≤ maxIn ∧ minOut ≤ k * c.ocs ∧ k * c.ocs ≤ maxOut := by
  rintro ⟨k, hk, h1, h2, h3, h4⟩
  unfold computeResampling at h
  dsimp only at h
  generalize (if req = 0 then inf else req) = rq at h
  split at h
  · next hc =>
    rw [hres] at hc
    simp only [Bool.not_true, Bool.false_or, Bool.and_eq_true, decide_eq_true_eq] at hc
    rw [hc.1] at h1 h2
    rw [hc.2] at h3 h4
    unfold resampleOneToOne at h
    dsimp only at h
    rw [if_neg (by omega), if_neg (by omega)] at h
    simp only [Option.map_eq_some_iff] at h
    obtain ⟨x, _, rfl⟩ := h
    exact hb rfl
  · next hc =>
    rw [hres] at hc
    simp only [Bool.not_true, Bool.false_or, Bool.and_eq_true, decide_eq_true_eq] at hc
    simp only [bind, Option.bind_eq_some_iff] at h
    obtain ⟨n, hn, h⟩ := h
    obtain ⟨_, _, _, hbest⟩ := nChunks_spec hn
    have hkn := hbest hi ho k h2 h4 (fun hs => by rcases hk hs with h | h; exact absurd h hc; exact h)
    have := Nat.mul_le_mul_right c.ics hkn
    have := Nat.mul_le_mul_right c.ocs hkn
    rw [if_neg (by omega), if_neg (by omega)] at h
    split at h
    · simp only [Option.bind_eq_some_iff] at h
      obtain ⟨rr, _, x, _, y, _, h⟩ := h
      split at h <;> cases h <;> exact hb rfl
    · cases h; exact hb rfl

/-- A decimator by 3 producing 2 samples each, two inputs with 10 and 7 samples (minimum 4), 5 slots of output: 6 in, 4 out. -/
example : sampleLimits { ics := 3, ocs := 2 } 0 (aggregate [{ available := 10, minSamples := 4 }, { available := 7 }] [{ available := 5 }]) 0
    = some ⟨⟨6, 4, .ok⟩, 0, 0, false⟩ := by decide +kernel
/-- With one slot of output: refused. -/
example : sampleLimits { ics := 3, ocs := 2 } 0 (aggregate [{ available := 10 }] [{ available := 1 }]) 0
    = some ⟨⟨0, 0, .insufficientIn⟩, 0, 0, false⟩ := by decide +kernel

/-- **C30, the wrong culprit**: the call above has ten samples of input and lacks output space, but reports insufficient *input*. -/
theorem insufficient_output_reported_as_input :
    (sampleLimits { ics := 3, ocs := 2 } 0 (aggregate [{ available := 10 }] [{ available := 1 }]) 0).map (·.res) = some ⟨0, 0, .insufficientIn⟩ := by
  decide +kernel

/-- The requested amount is not a bound: asking for 4 with a minimum output of 4 (two chunks of 3 needed) processes all 30 samples. -/
theorem requested_work_can_be_exceeded :
    computeResampling { ics := 3, ocs := 2 } 1 30 4 100 4 = some ⟨30, 20, .ok⟩ := by decide

/-- A request for `n` samples is respected whenever one chunk and the minima of the inputs are within it and outputs need no more than one chunk's worth. -/
theorem requested_work_respected {c : Cfg} (hi : 0 < c.ics) {minIn maxIn minOut maxOut req : Nat} {r : Res}
    (h : computeResampling c minIn maxIn minOut maxOut req = some r) (hres : c.resampling = true) (hr : 0 < req) (h1 : minIn ≤ c.ics) (h2 : c.ics ≤ req)
    (h3 : minOut ≤ c.ocs) (h4 : c.ics = 1 → c.ocs = 1 → minOut ≤ req) (ho : c.ocs ≤ maxOut) : r.inp ≤ req := by
  unfold computeResampling at h
  dsimp only at h
  rw [if_neg (by omega : ¬req = 0)] at h
  split at h
  · next hc =>
    rw [hres] at hc
    simp only [Bool.not_true, Bool.false_or, Bool.and_eq_true, decide_eq_true_eq] at hc
    unfold resampleOneToOne at h
    dsimp only at h
    split at h
    · cases h; exact Nat.zero_le _
    · split at h
      · cases h; exact Nat.zero_le _
      · simp only [Option.map_eq_some_iff] at h
        obtain ⟨x, hx, rfl⟩ := h
        have := clamp_some hx
        have := h4 hc.1 hc.2
        dsimp only; omega
  · simp only [bind, Option.bind_eq_some_iff] at h
    obtain ⟨n, hn, h⟩ := h
    split at h
    · cases h; exact Nat.zero_le _
    · split at h
      · cases h; exact Nat.zero_le _
      · split at h
        · simp only [Option.bind_eq_some_iff] at h
          obtain ⟨rr, hrr, x, hx, y, hy, h⟩ := h
          have hcl := clamp_some hrr
          obtain ⟨_, rfl⟩ := cdiv_some hx
          obtain ⟨hop, rfl⟩ := cdiv_some hy
          split at h
          · cases h
            have := mul_le_of_le_div (Nat.min_le_left (rr / c.ics) (maxOut / c.ocs))
            dsimp only
            omega
          · next hbad =>
            exfalso
            apply hbad
            have a1 : 1 ≤ rr / c.ics := le_div_of_mul_le hi (by omega)
            have a2 : 1 ≤ maxOut / c.ocs := le_div_of_mul_le hop (by omega)
            have a3 : 1 ≤ min (rr / c.ics) (maxOut / c.ocs) := by omega
            have b1 := Nat.mul_le_mul_right c.ics a3
            have b2 := Nat.mul_le_mul_right c.ocs a3
            omega
        · cases h
          dsimp only; omega
example : computeResampling { ics := 3, ocs := 2 } 1 30 2 100 7 = some ⟨6, 4, .ok⟩ := by decide

/-! ## C32 -/

theorem find_first {l : List (Nat × Bool)} (hs : l.Pairwise (fun x y => x.1 ≤ y.1)) {f : Nat × Bool → Bool} {t : Nat × Bool} (ht : t ∈ l) (hf : f t = true) :
    ∃ x, l.find? f = some x ∧ x.1 ≤ t.1 := by
  induction l with
  | nil => cases ht
  | cons y l ih =>
    rw [List.pairwise_cons] at hs
    by_cases hy : f y = true
    · refine ⟨y, by simp [List.find?, hy], ?_⟩
      cases ht with
      | head => exact Nat.le_refl _
      | tail _ ht => exact hs.1 t ht
    · cases ht with
      | head => exact absurd hf hy
      | tail _ ht =>
        obtain ⟨x, hx, hle⟩ := ih hs.2 ht
        exact ⟨x, by simp [List.find?, hy, hx], hle⟩

/-- **C32, end of stream**: no call skips or processes samples at or behind an end-of-stream tag of a counted input. -/
theorem chunk_ends_before_eos {c : Cfg} {counter : Nat} {ins : List InPort} {outs : List OutPort} {req : Nat} {l : Limits}
    (h : sampleLimits c counter (aggregate ins outs) req = some l) {p : InPort} (hp : p ∈ ins) (hc : p.connected = true) (hy : p.sync = true)
    (hsorted : p.tags.Pairwise (fun x y => x.1 ≤ y.1)) {i : Nat} (ht : (i, true) ∈ p.tags) (hi : p.pos ≤ i) :
    p.pos + l.skip + l.res.inp ≤ i := by
  have hl := limits_spec h
  obtain ⟨n, _, _, _, h4, _, hs⟩ := hl.res
  have hk := skip_le c counter (min (min (aggregate ins outs).availIn (if c.forwardTags then inf else (aggregate ins outs).nextTag)) (aggregate ins outs).nextEos)
  rw [← hl.skip] at hk
  have hin := hs.inLe
  have hle : (aggregate ins outs).nextEos ≤ (untilEos p).getD inf := nextEos_le hp hc hy
  obtain ⟨x, hx, hxi⟩ := find_first (f := fun t => decide (p.pos ≤ t.1) && t.2) hsorted ht (by simp [hi])
  have hv : (untilEos p).getD inf = x.1 - p.pos := by
    unfold untilEos toNextTag
    rw [hc, hx]
    rfl
  omega

/-- **C32, tags**: with the default (not forward-propagating) policy, as long as the port minima and one chunk fit before the next tag,
no tag of a counted input lies inside the processed samples other than on their first one. If one chunk does not fit, at most one chunk
is processed. -/
theorem chunk_ends_before_tag_partial {c : Cfg} {counter : Nat} {ins : List InPort} {outs : List OutPort} {req : Nat} {l : Limits}
    (h : sampleLimits c counter (aggregate ins outs) req = some l) (hf : c.forwardTags = false)
    (hmin : (aggregate ins outs).minIn ≤ (aggregate ins outs).nextTag - l.skip) :
    l.res.inp ≤ c.ics ∨ ∀ p ∈ ins, p.connected = true → p.sync = true → p.tags.Pairwise (fun x y => x.1 ≤ y.1) →
      ∀ t ∈ p.tags, p.pos + l.skip < t.1 → p.pos + l.skip + l.res.inp ≤ t.1 := by
  have hl := limits_spec h
  obtain ⟨n, _, _, _, _, h5, hs⟩ := hl.res
  have hk := skip_le c counter (min (min (aggregate ins outs).availIn (if c.forwardTags then inf else (aggregate ins outs).nextTag)) (aggregate ins outs).nextEos)
  rw [← hl.skip, hf] at hk
  simp only [Bool.false_eq_true, if_false] at hk
  have hn := h5 hf hmin
  have hin := hs.inLe
  by_cases hics : c.ics ≤ (aggregate ins outs).nextTag - l.skip
  · right
    intro p hp hc hy hsorted t ht hi
    have hle : (aggregate ins outs).nextTag ≤ (untilNextTag p).getD inf := nextTag_le hp hc hy
    obtain ⟨x, hx, hxi⟩ := find_first (f := fun t => decide (p.pos + 1 ≤ t.1)) hsorted ht (by simp; omega)
    have hv : (untilNextTag p).getD inf = x.1 - p.pos := by
      unfold untilNextTag toNextTag
      rw [hc, hx]
      rfl
    omega
  · left; omega

/-- Tags on samples 0, 4 and 9 of ten available: four samples are processed. -/
example : sampleLimits {} 0 (aggregate [{ available := 10, tags := [(0, false), (4, false), (9, false)] }] [{ available := 50 }]) 0
    = some ⟨⟨4, 4, .ok⟩, 0, 0, false⟩ := by decide +kernel
/-- End of stream on sample 7: seven. -/
example : (sampleLimits { forwardTags := true } 0 (aggregate [{ available := 10, tags := [(0, false), (4, false), (7, true)] }] [{ available := 50 }]) 0).map (·.res.inp)
    = some 7 := by decide +kernel

/-- **C32 fails** when the port minimum reaches behind the next tag: a minimum of 5 only forces the tag on sample 4 to be crossed, but
the limit is dropped altogether and the call crosses the tags on samples 20, 40 and 60 as well. -/
theorem minimum_drops_tag_limit :
    (sampleLimits {} 0 (aggregate [{ available := 100, minSamples := 5, tags := [(4, false), (20, false), (40, false), (60, false)] }] [{ available := 200 }]) 0).map (·.res)
    = some ⟨100, 100, .ok⟩ := by decide +kernel

/-! ## C34 -/

/-- Every outcome of a call, spelled out. -/
theorem work_cases {c : Cfg} {src : Bool} {counter : Nat} {a : Agg} {req : Nat} {u : User} {st : Bool} {w : Work}
    (h : work c src counter a req u st = some w) : ∃ l, sampleLimits c counter a req = some l ∧ w.skip = l.skip ∧
      ((w.chunk = none ∧ w.consumed = 0 ∧ w.published = 0 ∧ w.performed = 0 ∧ w.counter = l.counter ∧ (w.status = .done ∧ l.eos = true ∨ w.status = l.res.status ∧ l.eos = false)) ∨
       (∃ userIn, userIn = u.consume.filter (fun k => decide (k ≤ max l.res.inp (a.availIn - l.skip))) ∧ l.eos = false ∧
        (l.res.inp ≠ 0 ∨ l.res.out ≠ 0) ∧ u.publish.getD 0 ≤ l.res.out ∧ w.chunk = some (l.skip, l.res.inp) ∧
        w.status = (if st then .done else u.status) ∧
        w.published = u.publish.getD (sanitise u.status (min l.res.inp (userIn.getD l.res.inp), u.publish.getD l.res.out)).2 ∧
        w.performed = performedWork w.status (if st then 0 else (sanitise u.status (min l.res.inp (userIn.getD l.res.inp), u.publish.getD l.res.out)).1)
          (sanitise u.status (min l.res.inp (userIn.getD l.res.inp), u.publish.getD l.res.out)).2 src ∧
        (w.consumed, w.counter) = (fun sc : Nat × Nat => (userIn.getD (if 0 < sc.1 then sc.1 else
            if st then 0 else (sanitise u.status (min l.res.inp (userIn.getD l.res.inp), u.publish.getD l.res.out)).1), sc.2))
          (if (if st then 0 else (sanitise u.status (min l.res.inp (userIn.getD l.res.inp), u.publish.getD l.res.out)).1) = 0 then (0, l.counter)
            else strideConsume c l.counter l.res.inp))) := by
  unfold work at h
  simp only [bind, Option.bind_eq_some_iff] at h
  obtain ⟨l, hl, h⟩ := h
  refine ⟨l, hl, ?_⟩
  split at h
  · next he =>
    simp only [pure, Option.some.injEq] at h; subst h
    exact ⟨rfl, Or.inl ⟨rfl, rfl, rfl, rfl, rfl, Or.inl ⟨rfl, he⟩⟩⟩
  · next he =>
    split at h
    · simp only [pure, Option.some.injEq] at h; subst h
      exact ⟨rfl, Or.inl ⟨rfl, rfl, rfl, rfl, rfl, Or.inr ⟨rfl, by simpa using he⟩⟩⟩
    · next hne =>
      split at h
      · cases h
      · next hp =>
        simp only [pure, Option.some.injEq] at h
        subst h
        exact ⟨rfl, Or.inr ⟨_, rfl, by simpa using he, by omega, by omega, rfl, rfl, rfl, rfl, rfl⟩⟩

/-- **C34, progress**: a call reporting a non-zero amount ran the processing function, reports OK, consumed input (a source: published
output), and the amount is what was processed: the offered chunk, or less if the processing function said so. -/
theorem reported_progress_is_real {c : Cfg} {src : Bool} {counter : Nat} {a : Agg} {req : Nat} {u : User} {st : Bool} {w : Work}
    (h : work c src counter a req u st = some w) (hp : 0 < w.performed) :
    w.status = .ok ∧ u.status = .ok ∧ (∃ start n, w.chunk = some (start, n) ∧ (src = false → w.performed ≤ n ∧ (u.consume = none → w.performed = n))) ∧
    (if src then w.performed = w.published else 0 < w.consumed) := by
  obtain ⟨l, hl, _, h⟩ := work_cases h
  rcases h with ⟨_, _, _, hz, _⟩ | ⟨ui, hui, _, _, hpl, hch, hs, hpub, hperf, hc⟩
  · omega
  · have hst : w.status = .ok := by
      cases hw : w.status <;> rw [hw] at hperf <;> simp only [performedWork] at hperf <;> first | omega | rfl
    have hstp : st = false := by
      cases st with
      | false => rfl
      | true => rw [if_pos rfl] at hs; rw [hs] at hst; cases hst
    subst hstp
    simp only [Bool.false_eq_true, if_false] at hs hperf hc
    have hu : u.status = .ok := by rw [← hs]; exact hst
    rw [hst] at hperf
    rw [hu] at hpub hperf hc
    simp only [sanitise, performedWork] at hpub hperf hc
    have hcons := congrArg Prod.fst hc
    dsimp only at hcons
    refine ⟨hst, hu, ⟨_, _, hch, fun hsrc => ?_⟩, ?_⟩
    · subst hsrc
      simp only [Bool.false_eq_true, if_false] at hperf
      refine ⟨by omega, fun hn => ?_⟩
      rw [hn] at hui
      simp only [Option.filter_none] at hui
      rw [hperf, hui]
      simp
    · cases src with
      | true =>
        rw [if_pos rfl]
        rw [if_pos rfl] at hperf
        rw [hperf, hpub]
        cases u.publish <;> rfl
      | false =>
        simp only [Bool.false_eq_true, if_false] at hperf ⊢
        cases hx : ui with
        | none =>
          rw [hx] at hcons hperf
          simp only [Option.getD_none, Nat.min_self] at hcons hperf
          rw [hcons]
          generalize (if l.res.inp = 0 then (0, l.counter) else strideConsume c l.counter l.res.inp) = sc
          by_cases hsc : 0 < sc.1
          · rw [if_pos hsc]; exact hsc
          · rw [if_neg hsc]; omega
        | some k =>
          rw [hx] at hcons hperf
          simp only [Option.getD_some] at hcons hperf
          omega

/-- **C34, failures**: a call in which the processing function ran and returned anything but OK is not reported as OK and reports no
progress; unless the function itself asked for it, such a failure (other than DONE) consumes and publishes nothing. -/
theorem failure_is_reported {c : Cfg} {src : Bool} {counter : Nat} {a : Agg} {req : Nat} {u : User} {st : Bool} {w : Work}
    (h : work c src counter a req u st = some w) (hran : w.chunk.isSome) (hu : u.status ≠ .ok) :
    w.status ≠ .ok ∧ w.performed = 0 ∧ (u.status ≠ .done → u.consume = none → u.publish = none → w.consumed = 0 ∧ w.published = 0) := by
  obtain ⟨l, hl, _, h⟩ := work_cases h
  rcases h with ⟨hn, _⟩ | ⟨ui, hui, _, _, hpl, hch, hs, hpub, hperf, hc⟩
  · rw [hn] at hran; cases hran
  · have hw : w.status ≠ .ok := by
      rw [hs]; split
      · exact fun h => by cases h
      · exact hu
    refine ⟨hw, ?_, fun hd hcn hpn => ?_⟩
    · rw [hperf]
      cases hx : w.status <;> simp only [performedWork]
      exact absurd hx hw
    · rw [hcn] at hui
      simp only [Option.filter_none] at hui
      rw [hpn] at hpub hc
      subst hui
      have hsan : ∀ n, sanitise u.status n = (0, 0) := by
        intro n
        cases hx : u.status <;> simp only [sanitise]
        · exact absurd hx hd
        · exact absurd hx hu
      simp only [hsan, Option.getD_none, ite_self, if_true] at hpub hc
      have hcons := congrArg Prod.fst hc
      exact ⟨by simpa using hcons, by simpa using hpub⟩

/-- **C34, no chunk**: without a chunk nothing was consumed, published or reported, and the status says why: DONE at the end of the
stream, otherwise the status of the sample limits. -/
theorem no_chunk_no_progress {c : Cfg} {src : Bool} {counter : Nat} {a : Agg} {req : Nat} {u : User} {st : Bool} {w : Work}
    (h : work c src counter a req u st = some w) (hn : w.chunk = none) : w.consumed = 0 ∧ w.published = 0 ∧ w.performed = 0 := by
  obtain ⟨l, hl, _, h⟩ := work_cases h
  rcases h with ⟨_, h1, h2, h3, _⟩ | ⟨ui, _, _, _, _, hch, _⟩
  · exact ⟨h1, h2, h3⟩
  · rw [hn] at hch; cases hch

/-- A running call: 6 samples in, 4 out, reported 6. -/
example : work { ics := 3, ocs := 2 } false 0 (aggregate [{ available := 7 }] [{ available := 50 }]) 0 ⟨.ok, none, none⟩ false
    = some ⟨0, some (0, 6), 6, 4, 6, .ok, 0, false⟩ := by decide +kernel
/-- A failing call. -/
example : work { ics := 3, ocs := 2 } false 0 (aggregate [{ available := 7 }] [{ available := 50 }]) 0 ⟨.error, none, none⟩ false
    = some ⟨0, some (0, 6), 0, 0, 0, .error, 0, false⟩ := by decide +kernel

/-- **C34 fails for DONE**: the last call of a block consumes and publishes but reports zero. -/
theorem done_hides_progress :
    work {} false 0 (aggregate [{ available := 7 }] [{ available := 50 }]) 0 ⟨.done, none, none⟩ false
    = some ⟨0, some (0, 7), 7, 7, 0, .done, 0, true⟩ := by decide +kernel

/-- **C34 fails for a failing call that asked to consume**: the request is still carried out. -/
theorem error_still_consumes :
    work {} false 0 (aggregate [{ available := 7 }] [{ available := 50 }]) 0 ⟨.error, some 3, some 2⟩ false
    = some ⟨0, some (0, 7), 3, 2, 0, .error, 0, false⟩ := by decide +kernel

/-- **A processing function may consume more than it was shown**: limited by a tag to 4 samples it consumes 9 of the 10 available. -/
theorem consume_beyond_chunk :
    work {} false 0 (aggregate [{ available := 10, tags := [(4, false)] }] [{ available := 50 }]) 0 ⟨.ok, some 9, none⟩ false
    = some ⟨0, some (0, 4), 9, 4, 4, .ok, 0, false⟩ := by decide +kernel

/-- **A call may do nothing and report OK** (optional or zero-minimum ports with no data). -/
theorem idle_ok :
    work {} false 0 (aggregate [{ available := 0, minSamples := 0 }] [{ available := 5, minSamples := 0 }]) 0 ⟨.ok, none, none⟩ false
    = some ⟨0, none, 0, 0, 0, .ok, 0, false⟩ := by decide +kernel

/-- **Stopping while processing**: outputs are published although their inputs stay unread. -/
theorem stopping_publishes_without_consuming :
    work {} false 0 (aggregate [{ available := 7 }] [{ available := 50 }]) 0 ⟨.ok, none, none⟩ true
    = some ⟨0, some (0, 7), 0, 7, 0, .done, 0, true⟩ := by decide +kernel

end Verif.Work
