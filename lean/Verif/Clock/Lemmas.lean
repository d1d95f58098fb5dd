import Verif.Clock.Spec
/-! # Helper lemmas: the clock source -/
namespace Verif.Clock
open Spec

/-- The state of a source of which `N` samples, `j` tags and `m` tags by time came out. -/
structure Inv (c : Cfg) (s : Source) (N j m : Nat) : Prop where
  n : s.n = N
  le : N ≤ c.max
  tag : s.nextTag = j
  tagLe : ∀ p, c.tags[j]? = some p → N ≤ p
  idx : s.nextTime ≤ c.times.length
  begun : s.begun = false → s.first = 0
  round : ∃ r, m = r * c.times.length + s.nextTime ∧ s.first = ((r * (c.period / 1000 * 1000) : Nat) : Int) ∧
    (0 < r → c.times.getLast?.getD 0 ≤ c.period)
  timeLe : ∀ p, timeAt c m = some p → N ≤ p

theorem start_inv (c : Cfg) : Inv c .start 0 0 0 :=
  ⟨rfl, Nat.zero_le _, rfl, fun _ _ => Nat.zero_le _, Nat.zero_le _, fun _ => rfl, ⟨0, by simp [Source.start]⟩, fun _ _ => Nat.zero_le _⟩

/-- As `Inv`, with the next tag by time in place. -/
structure Ready (c : Cfg) (s : Source) (N j m : Nat) : Prop extends Inv c s N j m where
  next : c.times[s.nextTime]?.map (fun (t : Nat) => c.sampleAt (s.first + (t : Int))) = timeAt c m
  labels : s.nextTime < c.times.length → m % c.times.length = s.nextTime

theorem first_set (s : Source) (h : s.begun = false → s.first = 0) :
    ∃ b, (if s.nextTime = 0 && !s.begun then { s with first := 0, begun := true } else s) =
      (⟨s.n, s.first, b, s.nextTime, s.nextTag⟩ : Source) ∧ (b = false → s.first = 0) := by
  split
  · rename_i hc
    have hb : s.begun = false := by simp at hc; exact hc.2
    exact ⟨true, by rw [h hb], nofun⟩
  · exact ⟨s.begun, rfl, h⟩

/-- The tag by time that is next is the right one if one is. -/
theorem ready_of {c : Cfg} {s : Source} {N j m : Nat} (h : Inv c s N j m)
    (hc : s.nextTime = c.times.length → ¬ (0 < c.times.length ∧ c.times.getLast?.getD 0 ≤ c.period)) : Ready c s N j m := by
  obtain ⟨r, hm, hf, hr⟩ := h.round
  have hi := h.idx
  have hmod : s.nextTime < c.times.length → m % c.times.length = s.nextTime := by
    intro hlt
    rw [hm, Nat.mul_comm, Nat.mul_add_mod, Nat.mod_eq_of_lt hlt]
  refine { toInv := h, next := ?_, labels := hmod }
  by_cases hlt : s.nextTime < c.times.length
  · have hdiv : m / c.times.length = r := by
      rw [hm, Nat.mul_comm, Nat.mul_add_div (by omega), Nat.div_eq_of_lt hlt, Nat.add_zero]
    unfold timeAt
    rw [hmod hlt, hdiv, List.getElem?_eq_getElem hlt]
    have hcond : m < c.times.length ∨ c.times.getLast?.getD 0 ≤ c.period := by
      rcases Nat.eq_zero_or_pos r with h0 | h0
      · left; rw [hm, h0]; omega
      · exact .inr (hr h0)
    simp only [if_pos hcond, Option.map_some, hf]
    congr 2
  · have he : s.nextTime = c.times.length := by omega
    have hn : c.times[s.nextTime]? = none := List.getElem?_eq_none (by omega)
    rw [hn]
    have hnot := hc he
    unfold timeAt
    by_cases hl : 0 < c.times.length
    · have hlast : ¬ c.times.getLast?.getD 0 ≤ c.period := fun hh => hnot ⟨hl, hh⟩
      have hr0 : r = 0 := by
        rcases Nat.eq_zero_or_pos r with h0 | h0
        · exact h0
        · exact absurd (hr h0) hlast
      have hno : ¬ (m < c.times.length ∨ c.times.getLast?.getD 0 ≤ c.period) := by
        rintro (h1 | h1)
        · rw [hm, hr0] at h1; omega
        · exact hlast h1
      simp only [if_neg hno]
      cases c.times[m % c.times.length]? <;> rfl
    · have h0 : c.times = [] := List.eq_nil_of_length_eq_zero (by omega)
      rw [h0]; rfl

theorem rewind_ready {c : Cfg} {s : Source} {N j m : Nat} (h : Inv c s N j m) : Ready c (s.rewind c) N j m := by
  unfold Source.rewind
  by_cases h0 : c.times = []
  · rw [if_pos h0]
    refine ready_of h fun _ hh => ?_
    rw [h0] at hh
    exact Nat.lt_irrefl _ hh.1
  · rw [if_neg h0]
    have hl : 0 < c.times.length := List.length_pos_iff.2 h0
    obtain ⟨hn, hle, ht, htl, hi, hbg, ⟨r, hm, hf, hr⟩, hml⟩ := h
    obtain ⟨b, hb, hb0⟩ := first_set s hbg
    show Ready c (if c.times.length ≤ (if s.nextTime = 0 && !s.begun then { s with first := 0, begun := true } else s : Source).nextTime &&
      decide (c.times.getLast?.getD 0 ≤ c.period) then _ else _) N j m
    rw [hb]
    split
    · rename_i hc
      simp only [Bool.and_eq_true, decide_eq_true_eq] at hc
      refine ready_of ⟨hn, hle, ht, htl, Nat.zero_le _, nofun, ⟨r + 1, ?_, ?_, fun _ => hc.2⟩, hml⟩ ?_
      · show m = (r + 1) * c.times.length + 0
        rw [hm, Nat.add_mul]; omega
      · show s.first + _ = _
        rw [hf, Nat.add_mul, Nat.one_mul]; rfl
      · intro h1; simp only at h1; omega
    · rename_i hc
      simp only [Bool.and_eq_true, decide_eq_true_eq, not_and] at hc
      refine ready_of ⟨hn, hle, ht, htl, hi, hb0, ⟨r, hm, hf, hr⟩, hml⟩ ?_
      intro h1 h2
      simp only at h1 hc
      exact hc (by omega) h2.2

theorem toTime_eq {c : Cfg} {s : Source} {N j m : Nat} (h : Ready c s N j m) :
    s.toTime c = match timeAt c m with
      | none => w32 - 1
      | some p => p - N := by
  unfold Source.toTime
  rw [← h.next, h.n]
  cases c.times[s.nextTime]? <;> rfl

theorem toTag_eq {c : Cfg} {s : Source} {N j m : Nat} (hm : c.max < w32) (hs : ∀ p ∈ c.tags, p < 2 ^ 32) (h : Inv c s N j m) :
    s.toTag c = match c.tags[j]? with
      | none => w32 - 1
      | some p => p - N := by
  unfold Source.toTag
  rw [h.tag, h.n]
  cases hp : c.tags[j]? with
  | none => rfl
  | some p =>
    have h1 := h.tagLe p hp
    have h2 := hs p (List.mem_of_getElem? hp)
    have : w32 = 4294967296 := by decide
    simp only
    rw [Nat.mod_eq_of_lt (by omega : p < w32)]
    have : p + w32 - N = p - N + w32 := by omega
    rw [this, Nat.add_mod_right, Nat.mod_eq_of_lt (by omega)]

/-- What a call did. -/
inductive Did (c : Cfg) (N j m : Nat) (o : Out) : Nat → Nat → Prop where
  | none : o.tag = none → Did c N j m o j m
  | tag {p : Nat} : c.tags[j]? = some p → o.tag = some (p - N, .tag j) → N ≤ p ∧ p ≤ N + o.samples → Did c N j m o (j + 1) m
  | time {p : Nat} : timeAt c m = some p → o.tag = some (p - N, .time (timeLabel c m)) → N ≤ p ∧ p ≤ N + o.samples → Did c N j m o j (m + 1)

theorem label_eq {c : Cfg} {k m : Nat} {l : String} (hk : m % c.times.length = k) (h : label c k = some l) : l = timeLabel c m := by
  unfold label at h
  unfold timeLabel
  rw [hk]
  cases hv : c.values[k]? with
  | some v => rw [hv] at h; injection h with h; exact h.symm
  | none =>
    rw [hv] at h
    simp only at h ⊢
    split at h
    · rename_i hh; rw [if_pos hh, h]; rfl
    · rename_i hh; rw [if_neg hh]; injection h with h; exact h.symm

theorem produce_inv {c : Cfg} {s s' : Source} {N j m k : Nat} {o : Out} (ho : Ordered c) (hm : c.max < w32) (h : Inv c s N j m)
    (hk : 0 < k) (hk2 : k ≤ c.max - N) (hc : s.produce c k = some (o, s')) :
    ∃ j' m', Inv c s' (N + o.samples) j' m' ∧ Did c N j m o j' m' ∧ 0 < o.samples := by
  have hr := rewind_ready h
  have hle := h.le
  unfold Source.produce at hc
  generalize s.rewind c = s1 at hr hc
  simp only at hc
  have e1 := toTime_eq hr
  have e2 := toTag_eq hm ho.small hr.toInv
  have plain : ∀ (_ : ∀ p, c.tags[j]? = some p → N + k ≤ p) (_ : ∀ p, timeAt c m = some p → N + k ≤ p)
      (_ : some (s1.publish k none) = some (o, s')),
      ∃ j' m', Inv c s' (N + o.samples) j' m' ∧ Did c N j m o j' m' ∧ 0 < o.samples := by
    intro g1 g2 g3
    injection g3 with g3
    unfold Source.publish at g3
    injection g3 with g3 g4
    subst g3 g4
    refine ⟨j, m, ⟨?_, by simp only; omega, hr.tag, g1, hr.idx, hr.begun, hr.round, g2⟩, .none rfl, hk⟩
    show (s1.n + k) % w32 = N + k
    rw [hr.n, Nat.mod_eq_of_lt (by omega)]
  have hN : N < 2 ^ 64 := by have : w32 = 4294967296 := by decide
                             omega
  have hw : w32 = 4294967296 := by decide
  split at hc
  · rename_i hlt
    rw [hr.tag] at hc
    cases hp : c.tags[j]? with
    | none =>
      rw [hp] at e2
      simp only at e2
      rw [hp] at hc
      refine plain (fun p hp' => ?_) (fun p hp' => ?_) hc
      · rw [hp] at hp'; cases hp'
      · rw [hp'] at e1; simp only at e1; omega
    | some p =>
      rw [hp] at e2 hc
      simp only at e2 hc
      have hNp := hr.tagLe p hp
      have hps := ho.small p (List.mem_of_getElem? hp)
      split at hc
      · rename_i hk3
        injection hc with hc
        unfold Source.publish at hc
        injection hc with hc1 hc2
        subst hc1 hc2
        have hoff : (p + 2 ^ 64 - s1.n) % 2 ^ 64 = p - N := by
          rw [hr.n]
          have : p + 2 ^ 64 - N = p - N + 2 ^ 64 := by omega
          rw [this, Nat.add_mod_right, Nat.mod_eq_of_lt (by omega)]
        have hmx : Nat.max (s1.toTag c) 1 = max (p - N) 1 := by rw [e2]
        refine ⟨j + 1, m, ⟨?_, ?_, ?_, ?_, hr.idx, hr.begun, hr.round, ?_⟩, .tag hp ?_ ⟨hNp, by simp only [hmx]; omega⟩, ?_⟩
        · simp only [hmx, hr.n]; exact Nat.mod_eq_of_lt (by omega)
        · simp only [hmx]; omega
        · rfl
        · intro q hq
          have := ho.tags j p q hp hq
          simp only [hmx]; omega
        · intro q hq
          rw [hq] at e1; simp only at e1
          have := hr.timeLe q hq
          simp only [hmx]; omega
        · simp only [hoff]
        · simp only [hmx]; omega
      · rename_i hk3
        refine plain (fun q hq => ?_) (fun q hq => ?_) hc
        · rw [hp] at hq; injection hq with hq; omega
        · rw [hq] at e1; simp only at e1; omega
  · rename_i hlt
    split at hc
    · rename_i hk3
      simp only [Bool.and_eq_true, decide_eq_true_eq] at hk3
      cases hl : label c s1.nextTime with
      | none => rw [hl] at hc; cases hc
      | some l =>
        rw [hl] at hc
        have hp : ∃ p, timeAt c m = some p := by
          rw [← hr.next, List.getElem?_eq_getElem hk3.1]; exact ⟨_, rfl⟩
        obtain ⟨p, hp⟩ := hp
        rw [hp] at e1
        simp only at e1
        have hNp := hr.timeLe p hp
        simp only at hc
        injection hc with hc
        unfold Source.publish at hc
        injection hc with hc1 hc2
        subst hc1 hc2
        have hmx : Nat.max (s1.toTime c) 1 = max (p - N) 1 := by rw [e1]
        obtain ⟨r, hm1, hf1, hr1⟩ := hr.round
        refine ⟨j, m + 1, ⟨?_, ?_, hr.tag, ?_, hk3.1, hr.begun, ⟨r, ?_, hf1, hr1⟩, ?_⟩, .time hp ?_ ⟨hNp, by simp only [hmx]; omega⟩, ?_⟩
        · simp only [hmx, hr.n]; exact Nat.mod_eq_of_lt (by omega)
        · simp only [hmx]; omega
        · intro q hq
          rw [hq] at e2; simp only at e2
          have h1 := hr.tagLe q hq
          have h2 : q ≠ p := fun he => ho.apart m p hp (he ▸ List.mem_of_getElem? hq)
          simp only [hmx]; omega
        · simp only; omega
        · intro q hq
          have := ho.times m p q hp hq
          simp only [hmx]; omega
        · simp only [e1, label_eq (hr.labels hk3.1) hl]
        · simp only [hmx]; omega
    · rename_i hk3
      simp only [Bool.and_eq_true, decide_eq_true_eq, not_and] at hk3
      have hT : ∀ p, timeAt c m = some p → N + k ≤ p := by
        intro p hp
        have : s1.nextTime < c.times.length := by
          rcases Nat.lt_or_ge s1.nextTime c.times.length with h1 | h1
          · exact h1
          · rw [← hr.next, List.getElem?_eq_none h1] at hp; cases hp
        have := hk3 this
        rw [hp] at e1; simp only at e1; omega
      refine plain (fun p hp => ?_) hT hc
      rw [hp] at e2; simp only at e2
      cases hq : timeAt c m with
      | none => rw [hq] at e1; simp only at e1; omega
      | some q => have := hT q hq; rw [hq] at e1; simp only at e1; omega

theorem call_inv {c : Cfg} {s s' : Source} {N j m k : Nat} {o : Out} (ho : Ordered c) (h0 : 0 < c.max) (hm : c.max < w32) (h : Inv c s N j m)
    (hc : s.call c k = some (o, s')) : ∃ j' m', Inv c s' (N + o.samples) j' m' ∧ Did c N j m o j' m' := by
  unfold Source.call at hc
  split at hc
  · injection hc with hc; injection hc with h1 h2; subst h1 h2
    exact ⟨j, m, h, .none rfl⟩
  · rename_i hd
    simp only [Bool.and_eq_true, decide_eq_true_eq, not_and] at hd
    simp only [if_pos h0] at hc
    split at hc
    · injection hc with hc; injection hc with h1 h2; subst h1 h2
      exact ⟨j, m, h, .none rfl⟩
    · rename_i hk
      have hn := h.n
      have hd' := hd h0
      obtain ⟨j', m', a, b, _⟩ := produce_inv ho hm h (by omega) (by omega) hc
      exact ⟨j', m', a, b⟩

theorem run_inv {c : Cfg} (ho : Ordered c) (h0 : 0 < c.max) (hm : c.max < w32) (ks : List Nat) : ∀ {s s' : Source} {N j m : Nat} {os : List Out},
    Inv c s N j m → s.run c ks = some (os, s') → ∃ dj dm, Inv c s' (N + total os) (j + dj) (m + dm) ∧
      tagsOf (placed N os) = (List.range' j dj).map (fun i => (c.tags[i]?.getD 0, i)) ∧
      timesOf (placed N os) = (List.range' m dm).map (fun k => ((timeAt c k).getD 0, timeLabel c k)) ∧
      (∀ i, j ≤ i → i < j + dj → ∃ p, c.tags[i]? = some p ∧ p ≤ N + total os) ∧
      (∀ i, m ≤ i → i < m + dm → ∃ p, timeAt c i = some p ∧ p ≤ N + total os) ∧
      (∀ x ∈ placed N os, N ≤ x.1) := by
  induction ks with
  | nil =>
    intro s s' N j m os h hr
    injection hr with hr; injection hr with h1 h2; subst h1 h2
    exact ⟨0, 0, h, rfl, rfl, fun i _ _ => by omega, fun i _ _ => by omega, nofun⟩
  | cons k ks ih =>
    intro s s' N j m os h hr
    rw [Source.run] at hr
    cases hc : s.call c k with
    | none => rw [hc] at hr; cases hr
    | some p =>
      obtain ⟨o, s1⟩ := p
      rw [hc] at hr
      simp only at hr
      cases hr2 : s1.run c ks with
      | none => rw [hr2] at hr; cases hr
      | some p =>
        obtain ⟨os2, s2⟩ := p
        rw [hr2] at hr
        injection hr with hr; injection hr with h1 h2; subst h1 h2
        obtain ⟨j', m', hi, hd⟩ := call_inv ho h0 hm h hc
        obtain ⟨dj, dm, hi2, ht, hm2, hT, hM, hall⟩ := ih hi hr2
        have hsum : N + o.samples + total os2 = N + total (o :: os2) := by rw [total]; omega
        rw [hsum] at hi2 hT hM
        have hge : ∀ x ∈ placed (N + o.samples) os2, N ≤ x.1 := fun x hx => Nat.le_trans (Nat.le_add_right _ _) (hall x hx)
        cases hd with
        | none he =>
          refine ⟨dj, dm, hi2, ?_, ?_, fun i h1 h2 => ?_, fun i h1 h2 => ?_, ?_⟩
          · rw [placed, he]; exact ht
          · rw [placed, he]; exact hm2
          · obtain ⟨p, a, b⟩ := hT i h1 h2; exact ⟨p, a, b⟩
          · obtain ⟨p, a, b⟩ := hM i h1 h2; exact ⟨p, a, b⟩
          · rw [placed, he]; exact hge
        | tag hp he hle =>
          rename_i p
          have hpos : N + (p - N) = p := by omega
          refine ⟨dj + 1, dm, by rw [show j + (dj + 1) = j + 1 + dj by omega]; exact hi2, ?_, ?_, fun i h1 h2 => ?_, fun i h1 h2 => ?_, ?_⟩
          · rw [placed, he, List.range'_succ, List.map_cons, hp, ← ht]
            simp only [hpos]; rfl
          · rw [placed, he]; exact hm2
          · rcases Nat.eq_or_lt_of_le h1 with h3 | h3
            · subst h3; exact ⟨p, hp, by rw [total]; omega⟩
            · obtain ⟨q, a, b⟩ := hT i (by omega) (by omega); exact ⟨q, a, b⟩
          · obtain ⟨p, a, b⟩ := hM i h1 h2; exact ⟨p, a, b⟩
          · rw [placed, he]
            intro x hx
            rcases List.mem_append.1 hx with hx | hx
            · rw [List.mem_singleton.1 hx]; simp only; omega
            · exact hge x hx
        | time hp he hle =>
          rename_i p
          have hpos : N + (p - N) = p := by omega
          refine ⟨dj, dm + 1, by rw [show m + (dm + 1) = m + 1 + dm by omega]; exact hi2, ?_, ?_, fun i h1 h2 => ?_, fun i h1 h2 => ?_, ?_⟩
          · rw [placed, he]; exact ht
          · rw [placed, he, List.range'_succ, List.map_cons, hp, ← hm2]
            simp only [hpos]; rfl
          · obtain ⟨p, a, b⟩ := hT i h1 h2; exact ⟨p, a, b⟩
          · rcases Nat.eq_or_lt_of_le h1 with h3 | h3
            · subst h3; exact ⟨p, hp, by rw [total]; omega⟩
            · obtain ⟨q, a, b⟩ := hM i (by omega) (by omega); exact ⟨q, a, b⟩
          · rw [placed, he]
            intro x hx
            rcases List.mem_append.1 hx with hx | hx
            · rw [List.mem_singleton.1 hx]; simp only; omega
            · exact hge x hx

/-- How much a call publishes, whatever the tags. -/
theorem call_count {c : Cfg} {s s' : Source} {k : Nat} {o : Out} (h0 : 0 < c.max) (hm : c.max < w32) (h : s.n ≤ c.max)
    (hc : s.call c k = some (o, s')) : s'.n = s.n + o.samples ∧ s'.n ≤ c.max ∧ o.samples ≤ k ∧
      (o.status = .done ↔ s.n = c.max) ∧ (o.status = .waiting ↔ s.n < c.max ∧ k % w32 = 0) ∧
      (o.status = .ok → 0 < o.samples) ∧ (o.status ≠ .ok → o.samples = 0 ∧ o.tag = none ∧ s' = s) := by
  unfold Source.call at hc
  split at hc
  · rename_i hd
    simp only [Bool.and_eq_true, decide_eq_true_eq] at hd
    injection hc with hc; injection hc with h1 h2; subst h1 h2
    refine ⟨rfl, h, Nat.zero_le _, ⟨fun _ => by omega, fun _ => rfl⟩, ⟨nofun, fun h => by omega⟩, nofun, fun _ => ⟨rfl, rfl, rfl⟩⟩
  · rename_i hd
    simp only [Bool.and_eq_true, decide_eq_true_eq, not_and] at hd
    have hd' := hd h0
    simp only [if_pos h0] at hc
    have hkm := Nat.mod_le k w32
    split at hc
    · rename_i hk
      injection hc with hc; injection hc with h1 h2; subst h1 h2
      refine ⟨rfl, h, Nat.zero_le _, ⟨nofun, fun h => by omega⟩, ⟨fun _ => by omega, fun _ => rfl⟩, nofun, fun _ => ⟨rfl, rfl, rfl⟩⟩
    · rename_i hk
      have hn : (s.rewind c).n = s.n := by
        unfold Source.rewind
        split
        · rfl
        · simp only
          split <;> split <;> rfl
      have key : ∀ (s1 : Source) (j : Nat) (t : Option (Nat × Event)), s1.n = s.n → 0 < j → j ≤ min (c.max - s.n) (k % w32) →
          some (s1.publish j t) = some (o, s') → s'.n = s.n + o.samples ∧ s'.n ≤ c.max ∧ o.samples ≤ k ∧
          (o.status = .done ↔ s.n = c.max) ∧ (o.status = .waiting ↔ s.n < c.max ∧ k % w32 = 0) ∧
          (o.status = .ok → 0 < o.samples) ∧ (o.status ≠ .ok → o.samples = 0 ∧ o.tag = none ∧ s' = s) := by
        intro s1 j t e1 hj hj2 e
        injection e with e
        unfold Source.publish at e
        injection e with e2 e3
        subst e2 e3
        have hmod : (s1.n + j) % w32 = s.n + j := by rw [e1]; exact Nat.mod_eq_of_lt (by omega)
        refine ⟨hmod, ?_, by simp only; omega, ⟨nofun, fun h => by omega⟩, ⟨nofun, fun h => by omega⟩, fun _ => hj, fun h => absurd rfl h⟩
        simp only [hmod]; omega
      unfold Source.produce at hc
      generalize s.rewind c = s1 at hn hc
      simp only at hc
      split at hc
      · split at hc
        · split at hc
          · exact key { s1 with nextTag := s1.nextTag + 1 } _ _ hn (by show 0 < max _ _; omega) (by show max _ _ ≤ _; omega) hc
          · exact key s1 _ _ hn (by omega) (Nat.le_refl _) hc
        · exact key s1 _ _ hn (by omega) (Nat.le_refl _) hc
      · split at hc
        · rename_i hk3
          simp only [Bool.and_eq_true, decide_eq_true_eq] at hk3
          split at hc
          · cases hc
          · exact key { s1 with nextTime := s1.nextTime + 1 } _ _ hn (by show 0 < max _ _; omega) (by show max _ _ ≤ _; omega) hc
        · exact key s1 _ _ hn (by omega) (Nat.le_refl _) hc

theorem run_cons {c : Cfg} {s s' : Source} {k : Nat} {ks : List Nat} {os : List Out} (h : s.run c (k :: ks) = some (os, s')) :
    ∃ o s1 os2, s.call c k = some (o, s1) ∧ s1.run c ks = some (os2, s') ∧ os = o :: os2 := by
  rw [Source.run] at h
  cases hc : s.call c k with
  | none => rw [hc] at h; cases h
  | some p =>
    obtain ⟨o, s1⟩ := p
    rw [hc] at h
    simp only at h
    cases hr2 : s1.run c ks with
    | none => rw [hr2] at h; cases h
    | some p =>
      obtain ⟨os2, s2⟩ := p
      rw [hr2] at h
      injection h with h; injection h with h1 h2; subst h1 h2
      exact ⟨o, s1, os2, rfl, hr2, rfl⟩

theorem run_count {c : Cfg} (h0 : 0 < c.max) (hm : c.max < w32) (ks : List Nat) : ∀ {s s' : Source} {os : List Out},
    s.n ≤ c.max → s.run c ks = some (os, s') → s'.n = s.n + total os ∧ s'.n ≤ c.max ∧
      min c.max (s.n + (ks.filter (· % w32 != 0)).length) ≤ s'.n := by
  induction ks with
  | nil =>
    intro s s' os h hr
    injection hr with hr; injection hr with h1 h2; subst h1 h2
    exact ⟨rfl, h, by simp; omega⟩
  | cons k ks ih =>
    intro s s' os h hr
    obtain ⟨o, s1, os2, hc, hr2, he⟩ := run_cons hr
    subst he
    obtain ⟨e1, l1, _, hd, hw, hok, _⟩ := call_count h0 hm h hc
    obtain ⟨e2, l2, hp⟩ := ih l1 hr2
    refine ⟨by rw [total]; omega, l2, ?_⟩
    cases hst : o.status with
    | done =>
      have := hd.1 hst
      omega
    | waiting =>
      have hk := (hw.1 hst).2
      rw [List.filter_cons_of_neg (by simp [hk])]
      omega
    | ok =>
      have hpos := hok hst
      by_cases hk : k % w32 = 0
      · rw [List.filter_cons_of_neg (by simp [hk])]; omega
      · rw [List.filter_cons_of_pos (by simp [hk]), List.length_cons]; omega

theorem call_defined {c : Cfg} (h : HasText c) (s : Source) (k : Nat) : ∃ o s', s.call c k = some (o, s') := by
  have hl : ∀ i, i < c.times.length → ∃ l, label c i = some l := by
    intro i hi
    unfold label
    cases c.values[i]? with
    | some v => exact ⟨v, rfl⟩
    | none =>
      simp only
      rcases h with h | h | h
      · rw [h] at hi; exact absurd hi (Nat.not_lt_zero _)
      · rw [h]; exact ⟨_, rfl⟩
      · split
        · cases hl : c.values.getLast? with
          | none => exact absurd (List.getLast?_eq_none_iff.1 hl) h
          | some v => exact ⟨v, rfl⟩
        · exact ⟨_, rfl⟩
  have hp : ∀ k, ∃ o s', s.produce c k = some (o, s') := by
    intro k
    unfold Source.produce
    generalize s.rewind c = s1
    simp only
    split
    · split
      · split <;> exact ⟨_, _, rfl⟩
      · exact ⟨_, _, rfl⟩
    · split
      · rename_i hc
        simp only [Bool.and_eq_true, decide_eq_true_eq] at hc
        obtain ⟨l, hl⟩ := hl _ hc.1
        rw [hl]; exact ⟨_, _, rfl⟩
      · exact ⟨_, _, rfl⟩
  unfold Source.call
  split
  · exact ⟨_, _, rfl⟩
  · simp only
    generalize min (if 0 < c.max then c.max - s.n else w32 - 1) (k % w32) = j
    split
    · exact ⟨_, _, rfl⟩
    · exact hp _

theorem run_defined {c : Cfg} (h : HasText c) (ks : List Nat) : ∀ s : Source, ∃ os s', s.run c ks = some (os, s') := by
  induction ks with
  | nil => intro s; exact ⟨[], s, rfl⟩
  | cons k ks ih =>
    intro s
    obtain ⟨o, s1, e⟩ := call_defined h s k
    obtain ⟨os, s2, e2⟩ := ih s1
    exact ⟨o :: os, s2, by rw [Source.run, e]; simp only [e2]; rfl⟩

/-- Once the next tag is passed, no tag comes any more. -/
theorem call_passed {c : Cfg} {s s' : Source} {k : Nat} {o : Out} (h0 : 0 < c.max) (hm : c.max < w32) (h : s.n ≤ c.max) {i : Nat}
    (hi : c.tags[s.nextTag]? = some i) (hp : i < s.n) (hc : s.call c k = some (o, s')) :
    s'.nextTag = s.nextTag ∧ ∀ d j, o.tag ≠ some (d, .tag j) := by
  unfold Source.call at hc
  split at hc
  · injection hc with hc; injection hc with h1 h2; subst h1 h2
    exact ⟨rfl, nofun⟩
  · simp only [if_pos h0] at hc
    split at hc
    · injection hc with hc; injection hc with h1 h2; subst h1 h2
      exact ⟨rfl, nofun⟩
    · rename_i hk
      have hn : (s.rewind c).n = s.n ∧ (s.rewind c).nextTag = s.nextTag := by
        unfold Source.rewind
        split
        · exact ⟨rfl, rfl⟩
        · simp only
          split <;> split <;> exact ⟨rfl, rfl⟩
      unfold Source.produce at hc
      generalize s.rewind c = s1 at hn hc
      have key : ∀ (s2 : Source) (j : Nat) (t : Option (Nat × Event)), s2.nextTag = s.nextTag → (∀ d i, t ≠ some (d, .tag i)) →
          some (s2.publish j t) = some (o, s') → s'.nextTag = s.nextTag ∧ ∀ d j, o.tag ≠ some (d, .tag j) := by
        intro s2 j t e1 e2 e
        injection e with e
        unfold Source.publish at e
        injection e with e3 e4
        subst e3 e4
        exact ⟨e1, e2⟩
      have htag : s1.toTag c = i + w32 - s.n := by
        unfold Source.toTag
        rw [hn.2, hi, hn.1]
        simp only
        rw [Nat.mod_eq_of_lt (by omega : i < w32), Nat.mod_eq_of_lt (by omega)]
      simp only at hc
      split at hc
      · rw [hn.2, hi] at hc
        simp only at hc
        rw [if_neg (by omega)] at hc
        exact key s1 _ _ hn.2 (fun _ _ h => by cases h) hc
      · split at hc
        · split at hc
          · cases hc
          · exact key { s1 with nextTime := s1.nextTime + 1 } _ _ hn.2 (fun _ _ h => by cases h) hc
        · exact key s1 _ _ hn.2 (fun _ _ h => by cases h) hc

theorem run_passed {c : Cfg} (h0 : 0 < c.max) (hm : c.max < w32) (ks : List Nat) : ∀ {s s' : Source} {os : List Out} {i N : Nat},
    s.n ≤ c.max → c.tags[s.nextTag]? = some i → i < s.n → s.run c ks = some (os, s') → tagsOf (placed N os) = [] := by
  induction ks with
  | nil =>
    intro s s' os i N _ _ _ hr
    injection hr with hr; injection hr with h1 h2; subst h1
    rfl
  | cons k ks ih =>
    intro s s' os i N h hi hp hr
    obtain ⟨o, s1, os2, hc, hr2, he⟩ := run_cons hr
    subst he
    obtain ⟨e1, l1, _⟩ := call_count h0 hm h hc
    obtain ⟨e2, ht⟩ := call_passed h0 hm h hi hp hc
    have hrest := ih (N := N + o.samples) l1 (e2 ▸ hi) (by omega) hr2
    rw [placed]
    have hsplit : ∀ a b, tagsOf (a ++ b) = tagsOf a ++ tagsOf b := fun a b => List.filterMap_append
    rw [hsplit, hrest]
    cases hot : o.tag with
    | none => rfl
    | some p =>
      obtain ⟨d, e⟩ := p
      cases e with
      | tag j => exact absurd hot (ht d j)
      | time l => rfl

theorem ascending {f : Nat → Option Nat} (hf : ∀ k p q, f k = some p → f (k + 1) = some q → p < q)
    (hd : ∀ k, f k = none → f (k + 1) = none) {N m : Nat} (hm : ∀ p, f m = some p → N ≤ p) (d : Nat) :
    ∀ p, f (m + d) = some p → N ≤ p := by
  induction d with
  | zero => exact hm
  | succ d ih =>
    intro q hq
    cases hp : f (m + d) with
    | none => have := hd _ hp; rw [← Nat.add_assoc, this] at hq; cases hq
    | some p => exact Nat.le_trans (ih p hp) (Nat.le_of_lt (hf _ p q hp hq))

theorem timeAt_none {c : Cfg} (k : Nat) (h : timeAt c k = none) : timeAt c (k + 1) = none := by
  unfold timeAt at h ⊢
  by_cases hl : 0 < c.times.length
  · rw [List.getElem?_eq_getElem (Nat.mod_lt _ hl)] at h ⊢
    simp only at h ⊢
    split at h
    · cases h
    · rename_i hc
      rw [if_neg]
      rintro (h1 | h1)
      · exact hc (.inl (by omega))
      · exact hc (.inr h1)
  · have : c.times = [] := List.eq_nil_of_length_eq_zero (by omega)
    rw [this]; rfl

end Verif.Clock
