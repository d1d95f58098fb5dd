import Verif.Work.Props
/-!
# C31: with a stride, the k-th processed chunk starts at sample k * stride
-/
namespace Verif.Work

/-- A sequence of `work` calls of a block whose processing function returns OK: what each call saw, and the amount requested. The
result lists the stream positions and lengths of the processed chunks, with the final read position and stride counter. -/
def runStride (c : Cfg) : Nat → Nat → List (Agg × Nat) → Option (List (Nat × Nat) × Nat × Nat)
  | pos, counter, [] => some ([], pos, counter)
  | pos, counter, (a, req) :: calls =>
    match work c false counter a req ⟨.ok, none, none⟩ false with
    | none => none
    | some w => (runStride c (pos + w.skip + w.consumed) w.counter calls).map fun r =>
        ((w.chunk.map fun ch => (pos + ch.1, ch.2)).toList ++ r.1, r.2)

/-- No call sees a tag (which is not its first sample) inside the samples still to be skipped. -/
def GapFree (c : Cfg) : Nat → List (Agg × Nat) → Prop
  | _, [] => True
  | counter, (a, req) :: calls => counter ≤ (if c.forwardTags then inf else a.nextTag) ∧
    ∀ w, work c false counter a req ⟨.ok, none, none⟩ false = some w → GapFree c w.counter calls

/-- one call. -/
theorem stride_call {c : Cfg} (hs : c.strideActive = true) (hi : 0 < c.ics) {counter : Nat} {a : Agg} {req : Nat} {w : Work}
    (h : work c false counter a req ⟨.ok, none, none⟩ false = some w) (hmin : 0 < a.minIn)
    (hg : counter ≤ (if c.forwardTags then inf else a.nextTag)) :
    (w.chunk = none ∧ w.consumed = 0 ∧ w.skip + w.counter = counter) ∨
    (∃ n, w.chunk = some (counter, n) ∧ w.skip = counter ∧ w.consumed + w.counter = c.stride) := by
  obtain ⟨l, hl, hsk, h⟩ := work_cases h
  have hsp := limits_spec hl
  have hk := skip_le c counter (min (min a.availIn (if c.forwardTags then inf else a.nextTag)) a.nextEos)
  rw [← hsp.skip] at hk
  have hcnt := hsp.cnt
  rcases h with ⟨h1, h2, _, _, h5, _⟩ | ⟨ui, hui, he, hne, _, hch, _, _, _, hc⟩
  · left; exact ⟨h1, h2, by omega⟩
  · right
    obtain ⟨n, _, _, h3, h4, _, hr⟩ := hsp.res
    have heos := hsp.eos he
    have hin := hr.inLe
    have hst : l.res.status = .ok := by
      apply Classical.byContradiction
      intro hb
      have := hr.bad hb
      omega
    have hok := hr.ok hst
    have hskip : l.skip = counter := by
      have h0 := hsp.skip
      unfold skipBefore at h0
      rw [hs] at h0
      by_cases hc0 : 0 < counter
      · simp only [hc0, decide_true, Bool.and_true, if_true] at h0
        generalize (if c.forwardTags then inf else a.nextTag) = tg at h0 hg
        omega
      · omega
    simp only [Option.filter_none] at hui
    subst hui
    simp only [sanitise, Option.getD_none, Nat.min_self, Bool.false_eq_true, if_false] at hc
    have hpos : l.res.inp ≠ 0 := by omega
    rw [if_neg hpos] at hc
    have hlc : l.counter = 0 := by omega
    unfold strideConsume at hc
    rw [hs, hlc] at hc
    simp only [decide_true, Bool.and_true, Bool.true_and] at hc
    rw [if_pos (decide_eq_true (by omega : 0 < l.res.inp))] at hc
    have hs1 : c.stride ≠ 0 := by
      unfold Cfg.strideActive at hs
      simp at hs
      exact hs.1.2
    have c1 := congrArg Prod.fst hc
    have c2 := congrArg Prod.snd hc
    dsimp only at c1 c2
    rw [if_pos (by omega)] at c1
    exact ⟨l.res.inp, by rw [hch, hskip], by omega, by omega⟩

theorem stride_run {c : Cfg} (hs : c.strideActive = true) (hi : 0 < c.ics) (calls : List (Agg × Nat)) : ∀ (pos counter k : Nat)
    (r : List (Nat × Nat) × Nat × Nat), pos + counter = k * c.stride → (∀ x ∈ calls, 0 < x.1.minIn) → GapFree c counter calls →
    runStride c pos counter calls = some r → ∀ i s, r.1[i]? = some s → s.1 = (k + i) * c.stride := by
  induction calls with
  | nil =>
    intro pos counter k r _ _ _ h i s hi
    simp only [runStride, Option.some.injEq] at h
    subst h
    simp at hi
  | cons x calls ih =>
    obtain ⟨a, req⟩ := x
    intro pos counter k r hk hm hg h i s hi'
    simp only [GapFree] at hg
    simp only [runStride] at h
    split at h
    · cases h
    · next w hw =>
      simp only [Option.map_eq_some_iff] at h
      obtain ⟨r', hr', rfl⟩ := h
      have hm' : ∀ x ∈ calls, 0 < x.1.minIn := fun x hx => hm x (List.mem_cons_of_mem _ hx)
      have hm0 : 0 < a.minIn := hm (a, req) (List.mem_cons_self ..)
      rcases stride_call hs hi hw hm0 hg.1 with ⟨h1, h2, h3⟩ | ⟨n, h1, h2, h3⟩
      · rw [h1] at hi'
        simp only [Option.map_none, Option.toList_none, List.nil_append] at hi'
        exact ih (pos + w.skip + w.consumed) w.counter k r' (by omega) hm' (hg.2 w hw) hr' i s hi'
      · rw [h1] at hi'
        simp only [Option.map_some, Option.toList_some, List.cons_append, List.nil_append] at hi'
        cases i with
        | zero =>
          simp only [List.getElem?_cons_zero, Option.some.injEq] at hi'
          subst hi'
          dsimp only
          omega
        | succ i =>
          simp only [List.getElem?_cons_succ] at hi'
          have := ih (pos + w.skip + w.consumed) w.counter (k + 1) r' (by rw [Nat.add_mul]; omega) hm' (hg.2 w hw) hr' i s hi'
          rw [this, show k + 1 + i = k + (i + 1) from by omega]

/-- **C31**: started at position 0, the k-th processed chunk starts at `k * stride`, whatever each call finds available — as long as
no tag (other than on a first sample) lies in the samples skipped between two chunks. -/
theorem chunk_starts_on_stride_partial {c : Cfg} (hs : c.strideActive = true) (hi : 0 < c.ics) {calls : List (Agg × Nat)} (hm : ∀ x ∈ calls, 0 < x.1.minIn)
    (hg : GapFree c 0 calls) {r : List (Nat × Nat) × Nat × Nat} (h : runStride c 0 0 calls = some r) {k : Nat} {s : Nat × Nat} (hk : r.1[k]? = some s) :
    s.1 = k * c.stride := by
  have := stride_run hs hi calls 0 0 0 r (by omega) hm hg h k s hk
  rwa [Nat.zero_add] at this

/-- Blocks forwarding their tags are never held up by one. -/
theorem gapFree_forward {c : Cfg} (hf : c.forwardTags = true) (calls : List (Agg × Nat)) : ∀ (counter : Nat), counter ≤ inf →
    (∀ x ∈ calls, ∀ n w, n ≤ inf → work c false n x.1 x.2 ⟨.ok, none, none⟩ false = some w → w.counter ≤ inf) → GapFree c counter calls := by
  induction calls with
  | nil => intro _ _ _; trivial
  | cons x calls ih =>
    obtain ⟨a, req⟩ := x
    intro counter hc hb
    exact ⟨by rw [hf]; exact hc, fun w hw => ih w.counter (hb (a, req) (List.mem_cons_self ..) counter w hc hw) fun x hx n w hn hw => hb x (List.mem_cons_of_mem _ hx) n w hn hw⟩

theorem strideConsume_counter (c : Cfg) (counter n : Nat) : (strideConsume c counter n).2 ≤ max counter c.stride := by
  unfold strideConsume
  split
  · show c.stride - min c.stride n ≤ _; omega
  · show counter ≤ _; omega

theorem counter_bound {c : Cfg} {n : Nat} {a : Agg} {req : Nat} {w : Work} (h : work c false n a req ⟨.ok, none, none⟩ false = some w) : w.counter ≤ max n c.stride := by
  obtain ⟨l, hl, _, h⟩ := work_cases h
  have hcnt := (limits_spec hl).cnt
  rcases h with ⟨_, _, _, _, h5, _⟩ | ⟨ui, _, _, _, _, _, _, _, _, hc⟩
  · omega
  · have c2 := congrArg Prod.snd hc
    dsimp only at c2
    rw [c2]
    have hb := strideConsume_counter c l.counter l.res.inp
    by_cases hz : (if false = true then 0 else (sanitise Status.ok (min l.res.inp (ui.getD l.res.inp), (none : Option Nat).getD l.res.out)).1) = 0
    · rw [if_pos hz]; show l.counter ≤ _; omega
    · rw [if_neg hz]; omega

/-- **C31** in full for blocks with `ForwardTagPropagation`: any availability, any tags. -/
theorem chunk_starts_on_stride_forwarding {c : Cfg} (hs : c.strideActive = true) (hi : 0 < c.ics) (hf : c.forwardTags = true) (hb : c.stride ≤ inf)
    {calls : List (Agg × Nat)} (hm : ∀ x ∈ calls, 0 < x.1.minIn) {r : List (Nat × Nat) × Nat × Nat} (h : runStride c 0 0 calls = some r) {k : Nat} {s : Nat × Nat}
    (hk : r.1[k]? = some s) : s.1 = k * c.stride :=
  chunk_starts_on_stride_partial hs hi hm (gapFree_forward hf calls 0 (Nat.zero_le _) fun x _ n w hn hw => by have := counter_bound hw; omega) h hk

/-- Stride 5, chunks of 2, four calls seeing 3, 2, 100 and 93 samples: chunks at 0, 5 and 10. -/
example : (runStride { ics := 2, ocs := 2, stride := 5 } 0 0 ([3, 2, 100, 94].map fun n => (aggregate [{ available := n }] [{ available := 50 }], 0))).map (·.1)
    = some [(0, 2), (5, 2), (10, 2)] := by decide +kernel
example : GapFree { ics := 2, ocs := 2, stride := 5 } 0 ([3, 2, 100, 94].map fun n => (aggregate [{ available := n }] [{ available := 50 }], 0)) := by
  refine ⟨by decide, fun w hw => ?_⟩
  have e := counter_bound hw
  refine ⟨Nat.le_trans e (by decide), fun w hw => ?_⟩
  have e := Nat.le_trans (counter_bound hw) (Nat.max_le.2 ⟨e, by decide⟩)
  refine ⟨Nat.le_trans e (by decide), fun w hw => ?_⟩
  have e := Nat.le_trans (counter_bound hw) (Nat.max_le.2 ⟨e, by decide⟩)
  exact ⟨Nat.le_trans e (by decide), fun w hw => trivial⟩

/-- **C31 fails with a tag in the gap**: stride 5, chunks of 2, a tag on sample 3 (between the chunks at 0 and 5): the second chunk is
taken at the tag, and every later one is off the grid. -/
theorem tag_in_gap_breaks_stride :
    (runStride { ics := 2, ocs := 2, stride := 5 } 0 0
      [(aggregate [{ available := 100, tags := [(3, false)] }] [{ available := 50 }], 0),
       (aggregate [{ available := 98, pos := 2, tags := [(3, false)] }] [{ available := 50 }], 0),
       (aggregate [{ available := 95, pos := 5 }] [{ available := 50 }], 0)]).map (·.1)
    = some [(0, 2), (3, 2), (7, 2)] := by decide +kernel

/-- **Stride with chunk size 1** is not "one sample every `stride`": each call processes all it can see, advancing by the stride, so
the same ten samples give 10 + 7 output samples if offered at once and 3 if they trickle in. -/
theorem stride_of_single_samples_depends_on_availability :
    (runStride { stride := 3 } 0 0 [(aggregate [{ available := 10 }] [{ available := 50 }], 0), (aggregate [{ available := 7, pos := 3 }] [{ available := 50 }], 0)]).map (·.1)
      = some [(0, 10), (3, 7)] ∧
    (runStride { stride := 3 } 0 0 [(aggregate [{ available := 1 }] [{ available := 50 }], 0), (aggregate [{ available := 3, pos := 1 }] [{ available := 50 }], 0)]).map (·.1)
      = some [(0, 1), (3, 1)] := by decide +kernel

/-- Without a stride, chunks follow each other without gap or overlap. -/
theorem chunks_contiguous {c : Cfg} (hs : c.strideActive = false) (calls : List (Agg × Nat)) : ∀ (pos counter : Nat) (r : List (Nat × Nat) × Nat × Nat),
    runStride c pos counter calls = some r → (∀ s, r.1[0]? = some s → s.1 = pos) ∧ ∀ i s t, r.1[i]? = some s → r.1[i + 1]? = some t → t.1 = s.1 + s.2 := by
  induction calls with
  | nil =>
    intro pos counter r h
    simp only [runStride, Option.some.injEq] at h
    subst h
    exact ⟨fun s h => by simp at h, fun i s t h => by simp at h⟩
  | cons x calls ih =>
    obtain ⟨a, req⟩ := x
    intro pos counter r h
    simp only [runStride] at h
    split at h
    · cases h
    · next w hw =>
      simp only [Option.map_eq_some_iff] at h
      obtain ⟨r', hr', rfl⟩ := h
      have hi := ih _ _ r' hr'
      obtain ⟨l, hl, hsk, hcs⟩ := work_cases hw
      have h0 : w.skip = 0 := by
        rw [hsk, (limits_spec hl).skip]; unfold skipBefore; rw [hs]; rfl
      rcases hcs with ⟨h1, h2, _⟩ | ⟨ui, hui, _, _, _, hch, _, _, _, hc⟩
      · rw [h1]
        simp only [Option.map_none, Option.toList_none, List.nil_append]
        rw [h0, h2] at hi
        exact hi
      · simp only [Option.filter_none] at hui
        subst hui
        simp only [sanitise, Option.getD_none, Nat.min_self, Bool.false_eq_true, if_false] at hc
        have c1 := congrArg Prod.fst hc
        dsimp only at c1
        have hcons : w.consumed = l.res.inp := by
          rw [c1]
          unfold strideConsume
          rw [hs]
          simp only [Bool.false_and, Bool.false_eq_true, if_false]
          split <;> simp
        rw [hch]
        simp only [Option.map_some, Option.toList_some, List.cons_append, List.nil_append]
        rw [hsk] at h0
        refine ⟨fun s h => ?_, fun i s t h1 h2 => ?_⟩
        · simp only [List.getElem?_cons_zero, Option.some.injEq] at h
          subst h; dsimp only; omega
        · rw [List.getElem?_cons_succ] at h2
          cases i with
          | zero =>
            simp only [List.getElem?_cons_zero, Option.some.injEq] at h1
            subst h1
            have := hi.1 t h2
            dsimp only
            rw [hsk] at this
            omega
          | succ i =>
            rw [List.getElem?_cons_succ] at h1
            exact hi.2 i s t h1 h2
example : (runStride { ics := 3, ocs := 1 } 0 0 ([7, 1, 9].map fun n => (aggregate [{ available := n }] [{ available := 50 }], 0))).map (·.1)
    = some [(0, 6), (6, 9)] := by decide +kernel

end Verif.Work
