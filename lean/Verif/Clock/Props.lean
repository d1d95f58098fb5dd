import Verif.Clock.Lemmas
import Verif.Clock.Timing
/-! # Properties of the clock source (C115, C116) and of wall-clock timing (C117, C118) -/
namespace Verif.Clock
open Spec

/-- Samples and microseconds for the examples: one sample per microsecond. -/
def perMicro (ns : Int) : Nat := (ns / 1000).toNat

/-! ## C115: how many samples -/

/-- However the clock asks, the source never publishes more than was asked for or more than its maximum, says DONE
exactly when it published that, and otherwise publishes at least a sample whenever it is asked for some. -/
theorem counts (c : Cfg) (h0 : 0 < c.max) (hm : c.max < 2 ^ 32) (ks : List Nat) (os : List Out) (s : Source)
    (hr : Source.start.run c ks = some (os, s)) (k : Nat) (o : Out) (s' : Source) (hc : s.call c k = some (o, s')) :
    total os + o.samples ≤ c.max ∧ o.samples ≤ k ∧ (o.status = .done ↔ total os = c.max) ∧
    (o.status = .waiting ↔ total os < c.max ∧ k % 2 ^ 32 = 0) ∧ (o.status = .ok → 0 < o.samples) ∧
    (o.status ≠ .ok → o.samples = 0 ∧ o.tag = none) := by
  obtain ⟨h1, h2, _⟩ := run_count h0 hm ks (Nat.zero_le _) hr
  have h1 : s.n = total os := by rw [h1]; exact Nat.zero_add _
  obtain ⟨a, b, d, e, f, g, i⟩ := call_count h0 hm h2 hc
  rw [h1] at a e f
  exact ⟨by omega, d, e, f, g, fun h => ⟨(i h).1, (i h).2.1⟩⟩

example : (Source.start.run ⟨5, [], [], [], 0, false, perMicro⟩ [0, 2, 9, 3]).map (·.1) =
    some [⟨.waiting, 0, none⟩, ⟨.ok, 2, none⟩, ⟨.ok, 3, none⟩, ⟨.done, 0, none⟩] := by decide

/-- Asked often enough, it publishes exactly its maximum. -/
theorem ends (c : Cfg) (h0 : 0 < c.max) (hm : c.max < 2 ^ 32) (ks : List Nat) (hk : c.max ≤ (ks.filter (· % 2 ^ 32 != 0)).length)
    (os : List Out) (s : Source) (hr : Source.start.run c ks = some (os, s)) : total os = c.max := by
  obtain ⟨h1, h2, h3⟩ := run_count h0 hm ks (Nat.zero_le _) hr
  have h1 : s.n = total os := by rw [h1]; exact Nat.zero_add _
  have h4 : (ks.filter (· % w32 != 0)).length = (ks.filter (· % 2 ^ 32 != 0)).length := rfl
  have h5 : Source.start.n = 0 := rfl
  omega

example : ((Source.start.run ⟨3, [1], [], [], 0, false, perMicro⟩ [0, 1, 1, 7]).map fun r => total r.1) = some 3 := by decide

/-- No call is undefined, unless a text is to be held and there is none. -/
theorem defined_partial (c : Cfg) (h : HasText c) (ks : List Nat) : Source.start.run c ks ≠ none := by
  obtain ⟨os, s, e⟩ := run_defined h ks .start
  rw [e]; exact nofun

example : HasText ⟨5, [], [1000], [], 0, false, perMicro⟩ := .inr (.inl rfl)

/-- In that case the last of an empty list of texts is read. -/
theorem nothing_to_hold : Source.start.run ⟨5, [], [1000], [], 0, true, perMicro⟩ [4] = none := by decide

/-- Without a maximum the source goes on for ever, with what is asked for. -/
theorem unlimited (c : Cfg) (h0 : c.max = 0) (h1 : c.tags = []) (h2 : c.times = []) (s : Source) (k : Nat) (hk : 0 < k) (hk2 : k < 2 ^ 32 - 1) :
    ∃ s', s.call c k = some (⟨.ok, k, none⟩, s') := by
  have hw : w32 = 4294967296 := by decide
  have hk3 : min (w32 - 1) (k % w32) = k := by rw [Nat.mod_eq_of_lt (by omega)]; omega
  unfold Source.call
  rw [h0]
  simp only [Nat.lt_irrefl, decide_false, Bool.false_and, Bool.false_eq_true, if_false, hk3]
  rw [if_neg (by omega)]
  unfold Source.produce
  have e1 : (s.rewind c).toTag c = w32 - 1 := by unfold Source.toTag; rw [h1]; rfl
  have e2 : (s.rewind c).toTime c = w32 - 1 := by unfold Source.toTime; rw [h2]; rfl
  simp only [e1, e2, Nat.lt_irrefl, if_false, h2, List.length_nil, Nat.not_lt_zero, decide_false, Bool.false_and, Bool.false_eq_true]
  exact ⟨_, rfl⟩

example : (Source.start.call ⟨0, [], [], [], 0, false, perMicro⟩ 77).map (·.1) = some ⟨.ok, 77, none⟩ := by decide

/-! ## C116: tags -/

/-- With tags in order and no two at the same sample, each comes out once, with its own text, at its own sample: all
those before the samples published so far, none of those after. -/
theorem tags_placed_partial (c : Cfg) (h0 : 0 < c.max) (hm : c.max < 2 ^ 32) (ho : Ordered c) (ks : List Nat) (os : List Out) (s : Source)
    (hr : Source.start.run c ks = some (os, s)) : ∃ j m,
    tagsOf (placed 0 os) = (List.range j).map (fun i => (c.tags[i]?.getD 0, i)) ∧
    timesOf (placed 0 os) = (List.range m).map (fun k => ((timeAt c k).getD 0, timeLabel c k)) ∧
    (∀ i p, c.tags[i]? = some p → (i < j → p ≤ total os) ∧ (j ≤ i → total os ≤ p)) ∧
    (∀ k p, timeAt c k = some p → (k < m → p ≤ total os) ∧ (m ≤ k → total os ≤ p)) ∧
    (∀ i < j, (c.tags[i]?).isSome) ∧ (∀ k < m, (timeAt c k).isSome) := by
  obtain ⟨j, m, hi, ht, hm2, hT, hM, _⟩ := run_inv ho h0 hm ks (start_inv c) hr
  rw [Nat.zero_add, Nat.zero_add, Nat.zero_add] at hi
  simp only [Nat.zero_add] at hT hM
  refine ⟨j, m, by rw [List.range_eq_range']; exact ht, by rw [List.range_eq_range']; exact hm2, fun i p hp => ⟨fun h => ?_, fun h => ?_⟩,
    fun k p hp => ⟨fun h => ?_, fun h => ?_⟩, fun i h => ?_, fun k h => ?_⟩
  · obtain ⟨q, a, b⟩ := hT i (Nat.zero_le _) h
    rw [hp] at a; injection a with a; omega
  · obtain ⟨d, rfl⟩ := Nat.exists_eq_add_of_le h
    exact ascending (f := fun i => c.tags[i]?) ho.tags
      (fun k h => List.getElem?_eq_none (by have := List.getElem?_eq_none_iff.1 h; omega)) hi.tagLe d p hp
  · obtain ⟨q, a, b⟩ := hM k (Nat.zero_le _) h
    rw [hp] at a; injection a with a; omega
  · obtain ⟨d, rfl⟩ := Nat.exists_eq_add_of_le h
    exact ascending ho.times timeAt_none hi.timeLe d p hp
  · obtain ⟨q, a, _⟩ := hT i (Nat.zero_le _) h
    rw [a]; rfl
  · obtain ⟨q, a, _⟩ := hM k (Nat.zero_le _) h
    rw [a]; rfl

/-- The configuration of the next examples: tags at samples 2 and 5, by time at 3 and 7 microseconds, every 10. -/
def both : Cfg := ⟨30, [2, 5], [3000, 7000], ["a"], 10000, false, perMicro⟩

theorem both_at (k : Nat) : timeAt both k = some (k / 2 * 10 + if k % 2 = 0 then 3 else 7) := by
  have h : k % 2 = 0 ∨ k % 2 = 1 := by omega
  have e : both.times.length = 2 := rfl
  have hl : both.times.getLast?.getD 0 ≤ both.period := by decide
  unfold timeAt
  rw [e]
  rcases h with h | h
  · rw [h]
    simp only [show both.times[0]? = some 3000 from rfl]
    rw [if_pos (.inr hl)]
    show some (((((k / 2) * (10000 / 1000 * 1000) + 3000 : Nat) : Int) / 1000).toNat) = _
    simp only [if_true]; congr 1; omega
  · rw [h]
    simp only [show both.times[1]? = some 7000 from rfl]
    rw [if_pos (.inr hl)]
    show some (((((k / 2) * (10000 / 1000 * 1000) + 7000 : Nat) : Int) / 1000).toNat) = _
    simp only [Nat.one_ne_zero, if_false]; congr 1; omega

example : Ordered both where
  tags := by
    intro i p q h1 h2
    match i with
    | 0 => cases h1; cases h2; decide
    | 1 => cases h2
    | i + 2 => cases h1
  small := by decide
  times := by
    intro k p q h1 h2
    rw [both_at] at h1 h2
    injection h1 with h1; injection h2 with h2
    split at h1 <;> split at h2 <;> omega
  apart := by
    intro k p h1
    rw [both_at] at h1
    injection h1 with h1
    simp only [both, List.mem_cons, List.not_mem_nil, or_false, not_or]
    split at h1 <;> omega

example : (Source.start.run both [4, 4, 4, 4, 4, 4, 4]).map (fun r => placed 0 r.1) =
    some [(2, .tag 0), (3, .time "a"), (5, .tag 1), (7, .time ""), (13, .time "a"), (17, .time "")] := by decide

/-- Where two are due at the same sample, or one is due that is passed already, it and all later ones are lost. -/
theorem passed_blocks (c : Cfg) (h0 : 0 < c.max) (hm : c.max < 2 ^ 32) (ks ks' : List Nat) (os os' : List Out) (s s' : Source)
    (hr : Source.start.run c ks = some (os, s)) (i : Nat) (hi : c.tags[s.nextTag]? = some i) (hp : i < total os)
    (hr' : s.run c ks' = some (os', s')) : tagsOf (placed (total os) os') = [] := by
  obtain ⟨h1, h2, _⟩ := run_count h0 hm ks (Nat.zero_le _) hr
  have h1 : s.n = total os := by rw [h1]; exact Nat.zero_add _
  exact run_passed h0 hm ks' h2 hi (by omega) hr'

example : (Source.start.run ⟨9, [0, 0, 5], [], [], 0, false, perMicro⟩ [1]).map (·.2) = some ⟨1, 0, false, 0, 1⟩ := by decide

/-- Two tags for sample 0 of which the second never comes out, nor any after it. -/
theorem second_lost (k : Nat) (hk : 0 < k) (hk2 : k < 2 ^ 32) (ks : List Nat) (os : List Out) (s : Source)
    (hr : Source.start.run ⟨9, [0, 0, 5], [], [], 0, false, perMicro⟩ (k :: ks) = some (os, s)) : tagsOf (placed 0 os) = [(0, 0)] := by
  obtain ⟨o, s1, os2, hc, hr2, he⟩ := run_cons hr
  subst he
  have hw : w32 = 4294967296 := by decide
  have hcall : Source.start.call ⟨9, [0, 0, 5], [], [], 0, false, perMicro⟩ k = some (⟨.ok, 1, some (0, .tag 0)⟩, ⟨1, 0, false, 0, 1⟩) := by
    unfold Source.call
    have hk3 : k % w32 = k := Nat.mod_eq_of_lt (by omega)
    simp only [hk3, Source.start, Nat.sub_zero, show (0 : Nat) < 9 by decide, decide_true, Bool.true_and, show ¬ 9 ≤ 0 by decide, decide_false,
      Bool.false_eq_true, if_false, if_true]
    rw [if_neg (by omega)]
    unfold Source.produce
    rw [if_pos (by decide)]
    simp only [Source.rewind, if_true, List.getElem?_cons_zero]
    rw [if_pos (by show (0 % w32 + w32 - 0) % w32 ≤ _; simp)]
    rfl
  rw [hcall] at hc
  injection hc with hc; injection hc with h1 h2; subst h1 h2
  have := run_passed (c := ⟨9, [0, 0, 5], [], [], 0, false, perMicro⟩) (by decide) (by show 9 < w32; omega) ks (N := 0 + 1) (i := 0)
    (by decide) rfl (by decide) hr2
  rw [placed]
  have hsplit : ∀ a b, tagsOf (a ++ b) = tagsOf a ++ tagsOf b := fun a b => List.filterMap_append
  rw [hsplit, this]; rfl

example : (Source.start.run ⟨9, [0, 0, 5], [], [], 0, false, perMicro⟩ [3, 3, 3, 3]).map (fun r => placed 0 r.1) = some [(0, .tag 0)] := by decide

/-- A tag and one by time, both at sample 0: the tag is lost, and those after it. -/
theorem both_at_start_lost : (Source.start.run ⟨9, [0, 5], [0, 8000], ["a"], 0, false, perMicro⟩ [3, 3, 3, 3, 3]).map
    (fun r => (total r.1, tagsOf (placed 0 r.1))) = some (9, []) := by decide

/-- A tag for the sample after the last one comes out although that sample never does. -/
theorem tag_after_end : (Source.start.run ⟨4, [4], [], [], 0, false, perMicro⟩ [3, 1, 1]).map (fun r => (total r.1, placed 0 r.1)) =
    some (4, [(4, .tag 0)]) := by decide

/-- Tags by time that are closer than the samples come late, a sample later each. -/
theorem close_times_late : (Source.start.run ⟨9, [], [1000, 1100, 1200], ["a", "b", "c"], 0, false, perMicro⟩ [9, 9, 9, 9]).map
    (fun r => placed 0 r.1) = some [(1, .time "a"), (1, .time "b"), (2, .time "c")] := by decide

/-- With the default period of 0, a single tag at time 0 comes out at every sample, although the period is not
greater than its time. -/
theorem zero_period_repeats (n : Nat) (h : n < 2 ^ 32 - 1) (s : Source) (hs : s.n = n) (hb : s.begun = true) (ht : s.nextTime = 1) (hf : s.first = 0)
    (k : Nat) (hk : 0 < k) (hk2 : k < 2 ^ 32 - 1) :
    s.call ⟨0, [], [0], ["a"], 0, false, fun _ => 0⟩ k = some (⟨.ok, 1, some (0, .time "a")⟩, { s with n := n + 1 }) := by
  have hw : w32 = 4294967296 := by decide
  obtain ⟨sn, sf, sb, st, sg⟩ := s
  simp only at hs hb ht hf
  subst hs hb ht hf
  have hk3 : min (w32 - 1) (k % w32) = k := by rw [Nat.mod_eq_of_lt (by omega)]; omega
  unfold Source.call
  simp only [Nat.lt_irrefl, decide_false, Bool.false_and, Bool.false_eq_true, if_false, hk3]
  rw [if_neg (by omega)]
  have hre : (⟨sn, 0, true, 1, sg⟩ : Source).rewind ⟨0, [], [0], ["a"], 0, false, fun _ => 0⟩ = ⟨sn, 0, true, 0, sg⟩ := rfl
  have e1 : (⟨sn, 0, true, 0, sg⟩ : Source).toTag ⟨0, [], [0], ["a"], 0, false, fun _ => 0⟩ = w32 - 1 := rfl
  have e2 : (⟨sn, 0, true, 0, sg⟩ : Source).toTime ⟨0, [], [0], ["a"], 0, false, fun _ => 0⟩ = 0 := by
    show 0 - sn = 0; omega
  unfold Source.produce
  simp only [hre, e1, e2]
  rw [if_neg (by omega)]
  have hl : label ⟨0, [], [0], ["a"], 0, false, fun _ => 0⟩ 0 = some "a" := rfl
  simp only [List.length_cons, List.length_nil, Nat.zero_le, decide_true, Bool.and_true, hl]
  rw [if_pos (by decide)]
  unfold Source.publish
  have : (sn + Nat.max 0 1) % w32 = sn + 1 := Nat.mod_eq_of_lt (by show sn + 1 < w32; omega)
  simp only [this]
  rfl

example : (Source.start.run ⟨4, [], [0], ["a"], 0, false, fun _ => 0⟩ [4, 4, 4, 4]).map (fun r => placed 0 r.1) =
    some [(0, .time "a"), (1, .time "a"), (2, .time "a"), (3, .time "a")] := by decide

/-- The part of a period below a microsecond is dropped: the second round comes early. -/
theorem period_truncated : timeAt ⟨9, [], [0], ["a"], 1999, false, fun t => (t / 500).toNat⟩ 1 = some 2 := by decide

/-! ## C117: keeping the rate -/

/-- With the clock going forward the samples published never run ahead of the time passed, but for a tick per call. -/
theorem never_ahead_partial (c : Rate) (hT : 0 < c.ticks) (hr : 0 < c.rate) (t0 : Int) (l : List (Int × Nat)) (hf : Forward t0 l) (N : Nat) (s : Sync)
    (h : Sync.run c ⟨t0, t0⟩ false l = some (N, s)) :
    (N : Rat) / c.rate * c.ticks ≤ (final_ t0 l : Rat) - t0 + (l.length : Rat) := by
  obtain ⟨_, a, _, d⟩ := run_time hT hr l (Int.le_refl _) hf h
  have : (s.last : Rat) ≤ (final_ t0 l : Rat) := by exact_mod_cast a
  simp only at d
  grind

/-- It does not fall behind either: after a call that was limited neither by the chunk size nor by the room, less
than a sample is missing. -/
theorem keeps_up (c : Rate) (hT : 0 < c.ticks) (hr : 0 < c.rate) (t0 : Int) (l : List (Int × Nat)) (hf : Forward t0 l) (N : Nat) (s : Sync)
    (h : Sync.run c ⟨t0, t0⟩ false l = some (N, s)) (now : Int) (room n : Nat) (s' : Sync) (hn : final_ t0 l ≤ now)
    (hs : s.samples c now room false = some (n, s')) (h1 : n < c.chunk) (h2 : n < room) :
    (now : Rat) - t0 < ((N : Rat) + n + 1) / c.rate * c.ticks := by
  obtain ⟨_, a, b, _⟩ := run_time hT hr l (Int.le_refl _) hf h
  obtain ⟨_, _, _, _, g, _⟩ := samples_step hT hr (Int.le_trans a hn) hs
  have g := g h1 h2
  simp only at b
  have hmul : ((N : Rat) + n + 1) / c.rate * c.ticks = (N : Rat) / c.rate * c.ticks + ((n : Rat) + 1) / c.rate * c.ticks := by
    simp only [Rat.div_def, Rat.add_mul]; grind
  rw [hmul]
  grind

/-- Where a sample takes a whole number of ticks, the number of samples is exact: never more than the time passed
holds, and after a call that was not limited exactly that. -/
theorem exact_rate (c : Rate) (p : Nat) (hp : 0 < p) (hT : 0 < c.ticks) (hr : c.rate * p = c.ticks) (t0 : Int) (l : List (Int × Nat)) (hf : Forward t0 l)
    (N : Nat) (s : Sync) (h : Sync.run c ⟨t0, t0⟩ false l = some (N, s)) :
    s.last = t0 + (N : Int) * p ∧ (N : Int) * p ≤ final_ t0 l - t0 ∧
    ∀ (now : Int) (room n : Nat) (s' : Sync), final_ t0 l ≤ now → s.samples c now room false = some (n, s') → n < c.chunk → n < room →
      ((N + n : Nat) : Int) = (now - t0) / p := by
  have hpR : (0 : Rat) < (p : Rat) := by exact_mod_cast hp
  have hTR : (0 : Rat) < (c.ticks : Rat) := by exact_mod_cast hT
  have hrp : 0 < c.rate := by
    have : c.rate = c.ticks / p := by grind
    rw [this, Rat.div_def]
    exact Rat.mul_pos hTR (Rat.inv_pos.2 hpR)
  have hper : ∀ x : Rat, x / c.rate * c.ticks = x * p := by
    intro x
    have := Rat.ne_of_gt hrp
    rw [← hr]; grind
  have key : ∀ (l : List (Int × Nat)) (s s' : Sync) (t : Int) (N : Nat), s.last ≤ t → Forward t l → s.run c false l = some (N, s') →
      s'.last = s.last + (N : Int) * p := by
    intro l
    induction l with
    | nil =>
      intro s s' t N _ _ h
      injection h with h; injection h with h1 h2; subst h1 h2
      simp
    | cons x l ih =>
      obtain ⟨now, room⟩ := x
      intro s s' t N hle hf h
      obtain ⟨n, s1, N2, hs, hrun, hN⟩ := run_step h
      have hnow := Int.le_trans hle hf.1
      obtain ⟨_, _, _, g1, _, _, g2⟩ := samples_step hT hrp hnow hs
      have g2 := g2 rfl
      rw [hper] at g1 g2
      have hc : (n : Rat) * p = (((n : Int) * p : Int) : Rat) := by rw [Rat.intCast_mul]; rfl
      rw [hc, Rat.floor_intCast] at g2
      have hle1 : s1.last ≤ now := by
        rw [hc] at g1
        have : (((n : Int) * p : Int) : Rat) ≤ ((now - s.last : Int) : Rat) := by rw [Rat.intCast_sub]; exact g1
        have : (n : Int) * p ≤ now - s.last := by exact_mod_cast this
        omega
      rw [ih s1 s' now N2 hle1 hf.2 hrun, g2, hN, Int.natCast_add, Int.add_mul]; omega
  have hl := key l _ _ _ _ (Int.le_refl _) hf h
  simp only at hl
  obtain ⟨_, a, _⟩ := run_time hT hrp l (Int.le_refl _) hf h
  simp only at a
  refine ⟨hl, by omega, fun now room n s' hn hs h1 h2 => ?_⟩
  obtain ⟨_, _, _, g1, g2, _⟩ := samples_step hT hrp (Int.le_trans a hn) hs
  have g2 := g2 h1 h2
  rw [hper] at g1 g2
  have g1' : (n : Int) * p ≤ now - s.last := by
    have : (((n : Int) * p : Int) : Rat) ≤ ((now - s.last : Int) : Rat) := by rw [Rat.intCast_sub, Rat.intCast_mul]; exact g1
    exact_mod_cast this
  have g2' : now - s.last < ((n : Int) + 1) * p := by
    have : ((now - s.last : Int) : Rat) < ((((n : Int) + 1) * p : Int) : Rat) := by
      rw [Rat.intCast_sub, Rat.intCast_mul, Rat.intCast_add]; exact g2
    exact_mod_cast this
  rw [hl] at g1' g2'
  have e1 : ((N + n : Nat) : Int) * p = (N : Int) * p + (n : Int) * p := by rw [Int.natCast_add, Int.add_mul]
  have e2 : ((n : Int) + 1) * p = (n : Int) * p + p := by rw [Int.add_mul, Int.one_mul]
  have hp' : (0 : Int) < (p : Int) := by exact_mod_cast hp
  symm
  rw [Int.ediv_eq_iff_of_pos hp']
  omega

/-- One tick per millisecond, three samples a second. -/
def thirds : Rate := ⟨1000, 3, 10⟩

example : thirds.rate * (1000 : Nat) = 3 * thirds.ticks := by
  show (3 : Rat) * ((1000 : Nat) : Rat) = 3 * ((1000 : Nat) : Rat); rfl

example : (1000 : Rat) * ((1000000 : Nat) : Rat) = ((1000000000 : Nat) : Rat) ∧ Forward 0 [(400, 8), (500, 8), (1001, 8)] := by
  refine ⟨?_, by simp [Forward]⟩
  have h1 : ((1000000 : Nat) : Rat) = 1000000 := rfl
  have h2 : ((1000000000 : Nat) : Rat) = 1000000000 := rfl
  rw [h1, h2]; grind

/-- Dropping what is late never runs ahead. -/
theorem drop_not_ahead (c : Rate) (hT : 0 < c.ticks) (hr : 0 < c.rate) (t0 : Int) (l : List (Int × Nat)) (hf : Forward t0 l) (N : Nat) (s : Sync)
    (h : Sync.run c ⟨t0, t0⟩ true l = some (N, s)) : (N : Rat) / c.rate * c.ticks ≤ (final_ t0 l : Rat) - t0 := by
  have key : ∀ (l : List (Int × Nat)) (s s' : Sync) (N : Nat), Forward s.last l → s.run c true l = some (N, s') →
      (N : Rat) / c.rate * c.ticks ≤ (final_ s.last l : Rat) - s.last := by
    intro l
    induction l with
    | nil =>
      intro s s' N _ h
      injection h with h; injection h with h1 h2; subst h1
      have : ((0 : Nat) : Rat) = 0 := rfl
      rw [this, Rat.div_def, Rat.zero_mul, Rat.zero_mul]
      simp only [final_]; grind
    | cons x l ih =>
      obtain ⟨now, room⟩ := x
      intro s s' N hf h
      obtain ⟨n, s1, N2, hs, hrun, hN⟩ := run_step h
      obtain ⟨_, _, _, g1, _, g2, _⟩ := samples_step hT hr hf.1 hs
      have g2 := g2 rfl
      have := ih s1 s' N2 (by rw [g2]; exact hf.2) hrun
      rw [g2] at this
      have hNc : (N : Rat) = (n : Rat) + (N2 : Rat) := by rw [hN]; exact_mod_cast rfl
      have hmul : (N : Rat) / c.rate * c.ticks = (n : Rat) / c.rate * c.ticks + (N2 : Rat) / c.rate * c.ticks := by
        rw [hNc]; simp only [Rat.div_def, Rat.add_mul]
      rw [hmul]
      simp only [final_]
      grind
  exact key l _ _ _ hf h

/-- But it drops what is not late as well: called more often than there are samples, no sample ever comes. -/
theorem drop_starves (c : Rate) (hT : 0 < c.ticks) (hr : 0 < c.rate) (t0 : Int) (l : List (Int × Nat)) (hf : Forward t0 l)
    (hs : ∀ (i : Nat) (a b : Int), (t0 :: l.map (·.1))[i]? = some a → (t0 :: l.map (·.1))[i + 1]? = some b → ((b : Rat) - a) / c.ticks * c.rate < 1)
    (N : Nat) (s : Sync) (h : Sync.run c ⟨t0, t0⟩ true l = some (N, s)) : N = 0 := by
  have key : ∀ (l : List (Int × Nat)) (s s' : Sync) (N : Nat), Forward s.last l →
      (∀ (i : Nat) (a b : Int), (s.last :: l.map (·.1))[i]? = some a → (s.last :: l.map (·.1))[i + 1]? = some b → ((b : Rat) - a) / c.ticks * c.rate < 1) →
      s.run c true l = some (N, s') → N = 0 := by
    intro l
    induction l with
    | nil =>
      intro s s' N _ _ h
      injection h with h; injection h with h1 h2; exact h1.symm
    | cons x l ih =>
      obtain ⟨now, room⟩ := x
      intro s s' N hf hs h
      obtain ⟨n, s1, N2, hs1, hrun, hN⟩ := run_step h
      obtain ⟨_, _, _, g1, _, g2, _⟩ := samples_step hT hr hf.1 hs1
      have g2 := g2 rfl
      have h2 := ih s1 s' N2 (by rw [g2]; exact hf.2) (by rw [g2]; exact fun i a b ha hb => hs (i + 1) a b ha hb) hrun
      have h1 := hs 0 s.last now rfl rfl
      have hTR : (0 : Rat) < (c.ticks : Rat) := by exact_mod_cast hT
      have h3 := time_lt hTR hr h1
      have hz : n = 0 := by
        rcases Nat.eq_zero_or_pos n with h | h
        · exact h
        · exfalso
          have hn1 : (1 : Rat) ≤ (n : Rat) := by exact_mod_cast h
          have hq : (0 : Rat) < (c.rate)⁻¹ * c.ticks := Rat.mul_pos (Rat.inv_pos.2 hr) hTR
          have h4 := Rat.mul_le_mul_of_nonneg_right hn1 (Rat.le_of_lt hq)
          have e1 : (1 : Rat) * ((c.rate)⁻¹ * c.ticks) = 1 / c.rate * c.ticks := by rw [Rat.div_def]; grind
          have e2 : (n : Rat) * ((c.rate)⁻¹ * c.ticks) = (n : Rat) / c.rate * c.ticks := by rw [Rat.div_def]; grind
          rw [e1, e2] at h4
          grind
      omega
  exact key l _ _ _ hf hs h

example : ∀ k : Nat, (((k : Rat) + 1 - k) / (1000 : Nat) * 3 : Rat) < 1 := by
  intro k
  have : (((k : Rat) + 1 - k) / (1000 : Nat) * 3 : Rat) = 3 / 1000 := by
    have : ((1000 : Nat) : Rat) = 1000 := rfl
    rw [this]; grind
  rw [this]; grind

/-- A clock that goes back by a sample, as a system clock may, makes the conversion to an unsigned number undefined. -/
theorem clock_back (c : Rate) (s : Sync) (now : Int) (room : Nat) (drop : Bool) (h : ((now - s.last : Int) : Rat) / c.ticks * c.rate ≤ -1) :
    s.samples c now room drop = none := by
  unfold Sync.samples
  simp only [h, decide_true, Bool.true_or, if_true]

example : (⟨0, 1000⟩ : Sync).samples thirds 0 5 false = none := by
  apply clock_back
  show (((0 - 1000 : Int) : Int) : Rat) / ((1000 : Nat) : Rat) * 3 ≤ -1
  have h1 : (((0 - 1000 : Int) : Int) : Rat) = -1000 := rfl
  have h2 : ((1000 : Nat) : Rat) = 1000 := rfl
  rw [h1, h2]; grind

/-- With a clock in nanoseconds, 48 kHz and chunks of one sample, the time of a sample is taken as 20833 ns, and so
asked every 20833 ns a sample comes every time: 48000.77 a second. -/
theorem rate_drifts (k : Nat) (t0 : Int) : ∃ s, Sync.run ⟨1000000000, 48000, 1⟩ ⟨t0, t0⟩ false
    ((List.range k).map fun (i : Nat) => (t0 + 20833 * (i : Int) + 20834, 1)) = some (k, s) := by
  have key : ∀ (k : Nat) (j : Nat) (s : Sync), s.last = t0 + 20833 * (j : Int) → ∃ s', Sync.run ⟨1000000000, 48000, 1⟩ s false
      ((List.range' j k).map fun (i : Nat) => (t0 + 20833 * (i : Int) + 20834, 1)) = some (k, s') := by
    intro k
    induction k with
    | zero => intro j s _; exact ⟨s, rfl⟩
    | succ k ih =>
      intro j s hs
      rw [List.range'_succ, List.map_cons, Sync.run]
      have hd : t0 + 20833 * (j : Int) + 20834 - s.last = 20834 := by omega
      have hsam : s.samples ⟨1000000000, 48000, 1⟩ (t0 + 20833 * (j : Int) + 20834) 1 false =
          some (1, ⟨s.start, s.last + 20833⟩) := by
        unfold Sync.samples
        simp only [hd]
        have c1 : ((20834 : Int) : Rat) = 20834 := rfl
        have c2 : ((1000000000 : Nat) : Rat) = 1000000000 := rfl
        have c3 : ((1 : Nat) : Rat) = 1 := rfl
        rw [c1, c2]
        have f1 : (1 : Int) ≤ ((20834 : Rat) / 1000000000 * 48000).floor :=
          Rat.le_floor_iff.2 (by have : ((1 : Int) : Rat) = 1 := rfl
                                 rw [this]; grind)
        have e2 : min (min ((20834 : Rat) / 1000000000 * 48000).floor.toNat 1) 1 = 1 := by omega
        have e3 : ((1 : Rat) / 48000 * 1000000000).floor = 20833 := by
          have h1 : (20833 : Int) ≤ ((1 : Rat) / 48000 * 1000000000).floor :=
            Rat.le_floor_iff.2 (by have : ((20833 : Int) : Rat) = 20833 := rfl
                                   rw [this]; grind)
          have h2 : ((1 : Rat) / 48000 * 1000000000).floor < 20834 :=
            Rat.floor_lt_iff.2 (by rw [c1]; grind)
          omega
        have hno : ¬ ((20834 : Rat) / 1000000000 * 48000 ≤ -1 || decide ((2 ^ 64 : Rat) ≤ (20834 : Rat) / 1000000000 * 48000)) = true := by
          simp only [Bool.or_eq_true, decide_eq_true_eq, not_or]
          exact ⟨by grind, by grind⟩
        rw [if_neg hno]
        simp only [e2, c3, e3]
        rfl
      rw [hsam]
      obtain ⟨s', e⟩ := ih (j + 1) ⟨s.start, s.last + 20833⟩ (by simp only; omega)
      simp only [e]
      exact ⟨s', by simp [Nat.add_comm]⟩
  have := key k 0 ⟨t0, t0⟩ (by simp)
  rw [List.range_eq_range']
  exact this

example : Forward 5 [(5 + 20833 * 0 + 20834, 1), (5 + 20833 * 1 + 20834, 1)] ∧ (48000 : Nat) * 20833 < 1000000000 := by
  refine ⟨by simp [Forward], by decide⟩

/-- With the clock port connected, as many samples come out as went in and fit. -/
theorem clocked (c : Rate) (s : Sync) (input room : Nat) (now : Int) (drop : Bool) :
    s.syncSamples c (some input) now room drop = some (min input room, s) ∧ s.syncSamples c none now room drop = s.samples c now room drop :=
  ⟨rfl, rfl⟩

example : (⟨0, 0⟩ : Sync).syncSamples thirds (some 7) 9 5 false = some (5, ⟨0, 0⟩) := rfl

/-! ## C118: the timer thread -/

/-- There is at most one timer, and when the thread that starts and stops is not in either, `timerDone` tells whether
there is none. -/
theorem one_timer (ms : List Move) (t : Timer) (h : Timer.init.moves ms = some t) :
    live t.tasks ≤ 1 ∧ (t.owner = .idle → (t.done = true ↔ live t.tasks = 0)) := by
  have hi := moves_tinv ms init_tinv h
  exact ⟨hi.one, fun ho => hi.done (by rw [ho]; decide)⟩

example : Timer.init.moves [.own false, .own false, .own false, .own false, .task 0 true] = some ⟨.idle, true, false, [.sleep]⟩ := by decide

/-- When stop returns the timer does not use the block any more, and so it stays until the next start. -/
theorem stop_quiet (ms : List Move) (t t' : Timer) (h : Timer.init.moves ms = some t) (hw : t.owner = .waiting) (b : Bool) (ho : t.own b = some t')
    (ms' : List Move) (t'' : Timer) (h' : t'.moves ms' = some t'') (hr : t''.running = false) :
    live t'.tasks = 0 ∧ (t''.owner ≠ .waiting → live t''.tasks = 0) := by
  have hi := moves_tinv ms init_tinv h
  have hi' := own_tinv hi ho
  have hi'' := moves_tinv ms' hi' h'
  refine ⟨?_, fun hn => hi''.rest hn hr⟩
  have hd : t.done = true ∧ t'.tasks = t.tasks := by
    unfold Timer.own at ho
    rw [hw] at ho
    simp only at ho
    split at ho
    · rename_i hd; injection ho with ho; subst ho; exact ⟨hd, rfl⟩
    · cases ho
  rw [hd.2]
  exact (hi.done (by rw [hw]; decide)).1 hd.1

example : Timer.init.moves [.own false, .own false, .own false, .own false, .task 0 true, .own true, .own true, .task 0 true, .task 0 true, .task 0 true] =
    some ⟨.waiting, false, true, [.notify]⟩ := by decide

/-- Stop ends: while it waits and the timer has not finished a task can move, and in all they can move only so often. -/
theorem stop_ends (ms : List Move) (t : Timer) (h : Timer.init.moves ms = some t) (hw : t.owner = .waiting) :
    ((∃ t', t.own true = some t') ∨ ∃ i t', t.task i true = some t') ∧
    ∀ (l : List (Nat × Bool)) (t' : Timer), t.moves (l.map fun x => .task x.1 x.2) = some t' → l.length ≤ 4 * t.tasks.length ∧ t'.owner = .waiting := by
  have hi := moves_tinv ms init_tinv h
  constructor
  · by_cases hd : t.done = true
    · left; unfold Timer.own; rw [hw]; simp only [hd, if_true]; exact ⟨_, rfl⟩
    · right
      have hl : live t.tasks ≠ 0 := fun hz => hd ((hi.done (by rw [hw]; decide)).2 hz)
      cases ht : t.tasks with
      | nil => rw [ht] at hl; exact absurd rfl hl
      | cons k ts => exact ⟨0, by unfold Timer.task; rw [ht]; exact ⟨_, rfl⟩⟩
  · have key : ∀ (l : List (Nat × Bool)) (t t' : Timer), t.running = false → t.moves (l.map fun x => .task x.1 x.2) = some t' →
        l.length + leftAll t'.tasks ≤ leftAll t.tasks ∧ t'.owner = t.owner := by
      intro l
      induction l with
      | nil => intro t t' _ e; injection e with e; subst e; exact ⟨by simp, rfl⟩
      | cons x l ih =>
        intro t t' hr e
        rw [List.map_cons, Timer.moves] at e
        cases hm : t.move (.task x.1 x.2) with
        | none => rw [hm] at e; cases e
        | some t1 =>
          rw [hm] at e
          obtain ⟨a, b, d⟩ := task_left hr hm
          obtain ⟨f, g⟩ := ih t1 t' b e
          exact ⟨by rw [List.length_cons]; omega, g.trans d⟩
    intro l t' e
    obtain ⟨a, b⟩ := key l t t' (hi.waiting hw) e
    have := leftAll_le t.tasks
    exact ⟨by omega, b.trans hw⟩

example : Timer.init.moves [.own false, .own false, .own false, .own false, .task 0 true, .own true, .own true] =
    some ⟨.waiting, false, false, [.sleep]⟩ := by decide

/-- A timer that ended by itself, for the block was in no active state or the sample rate was 0, is not started
again by start: only stop makes that possible. -/
theorem not_started_again : ∃ ms t, Timer.init.moves ms = some t ∧ t.owner = .idle ∧ t.tasks = [] ∧
    ∃ t', t.moves [.own false, .own false] = some t' ∧ t'.owner = .idle ∧ t'.tasks = [] :=
  ⟨[.own false, .own false, .own false, .own false, .task 0 false, .task 0 false, .task 0 false], _, rfl, rfl, rfl, _, rfl, rfl, rfl⟩

/-- The notification can come after stop has returned, by when the block may be gone. -/
theorem notified_after_stop : ∃ ms t, Timer.init.moves ms = some t ∧ t.owner = .idle ∧ t.running = false ∧ t.tasks = [.notify] :=
  ⟨[.own false, .own false, .own false, .own false, .own true, .own true, .task 0 true, .task 0 true, .own true], _, rfl, rfl, rfl, rfl⟩

end Verif.Clock
