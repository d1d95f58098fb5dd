import Verif.Clock.Spec
/-! # Helper lemmas: wall-clock timing and the timer -/
namespace Verif.Clock
open Spec

theorem time_le {n now last T r : Rat} (hT : 0 < T) (hr : 0 < r) (h : n ≤ (now - last) / T * r) : n / r * T ≤ now - last := by
  have h1 : 0 < T / r := by rw [Rat.div_def]; exact Rat.mul_pos hT (Rat.inv_pos.2 hr)
  have := Rat.mul_le_mul_of_nonneg_right h (Rat.le_of_lt h1)
  have e1 : n * (T / r) = n / r * T := by grind
  have e2 : (now - last) / T * r * (T / r) = now - last := by grind
  grind

theorem time_lt {n now last T r : Rat} (hT : 0 < T) (hr : 0 < r) (h : (now - last) / T * r < n) : now - last < n / r * T := by
  have h1 : 0 < T / r := by rw [Rat.div_def]; exact Rat.mul_pos hT (Rat.inv_pos.2 hr)
  have := Rat.mul_lt_mul_of_pos_right h h1
  have e1 : n * (T / r) = n / r * T := by grind
  have e2 : (now - last) / T * r * (T / r) = now - last := by grind
  grind

/-- What a call takes from the time that passed. -/
theorem samples_step {c : Rate} {s s' : Sync} {now : Int} {room n : Nat} {drop : Bool} (hT : 0 < c.ticks) (hr : 0 < c.rate) (hl : s.last ≤ now)
    (h : s.samples c now room drop = some (n, s')) :
    s'.start = s.start ∧ n ≤ c.chunk ∧ n ≤ room ∧ (n : Rat) / c.rate * c.ticks ≤ (now : Rat) - s.last ∧
    (n < c.chunk → n < room → (now : Rat) - s.last < ((n : Rat) + 1) / c.rate * c.ticks) ∧
    (drop = true → s'.last = now) ∧
    (drop = false → s'.last = s.last + ((n : Rat) / c.rate * c.ticks).floor) := by
  have hTR : (0 : Rat) < (c.ticks : Rat) := by exact_mod_cast hT
  have hd : (0 : Rat) ≤ ((now - s.last : Int) : Rat) := by exact_mod_cast (Int.sub_nonneg.2 hl)
  have hcast : ((now - s.last : Int) : Rat) = (now : Rat) - (s.last : Rat) := by exact_mod_cast Rat.intCast_sub now s.last
  unfold Sync.samples at h
  simp only at h
  split at h
  · cases h
  · injection h with h; injection h with h1 h2
    rw [hcast] at h1 hd
    have hneed : (0 : Rat) ≤ ((now : Rat) - s.last) / c.ticks * c.rate := by
      have h3 : (0 : Rat) ≤ (c.ticks : Rat)⁻¹ := Rat.le_of_lt (Rat.inv_pos.2 hTR)
      rw [Rat.div_def]
      exact Rat.mul_nonneg (Rat.mul_nonneg hd h3) (Rat.le_of_lt hr)
    rw [hcast] at h2
    generalize hq : ((now : Rat) - s.last) / c.ticks * c.rate = need at h1 h2 hneed
    have hf0 : 0 ≤ need.floor := Rat.le_floor_iff.2 (by exact_mod_cast hneed)
    have hfn : ((need.floor.toNat : Nat) : Rat) = (need.floor : Rat) := by
      have : ((need.floor.toNat : Nat) : Int) = need.floor := Int.toNat_of_nonneg hf0
      rw [← this]; rfl
    have hnle : (n : Rat) ≤ need := by
      have : n ≤ need.floor.toNat := by omega
      have : (n : Rat) ≤ ((need.floor.toNat : Nat) : Rat) := by exact_mod_cast this
      have h4 := Rat.floor_le need
      rw [hfn] at this
      exact Rat.le_trans this h4
    have hst : s'.start = s.start := by
      rw [← h2]; cases drop
      · simp only [Bool.false_eq_true, if_false]; split <;> rfl
      · rfl
    refine ⟨hst, by omega, by omega, time_le hTR hr (by rw [hq]; exact hnle), fun g1 g2 => ?_, fun g => ?_, fun g => ?_⟩
    · apply time_lt hTR hr
      rw [hq]
      have : n = need.floor.toNat := by omega
      have h5 := Rat.lt_floor_add_one need
      rw [this, hfn]
      have : ((need.floor + 1 : Int) : Rat) = (need.floor : Rat) + 1 := by exact_mod_cast rfl
      rw [← this]; exact h5
    · rw [← h2, g]; rfl
    · rw [← h2, g, h1]
      simp only [Bool.false_eq_true, if_false]
      by_cases hn : 0 < n
      · rw [if_pos hn]
      · have : n = 0 := by omega
        subst this
        rw [if_neg hn]
        have hz : ((0 : Nat) : Rat) / c.rate * c.ticks = ((0 : Int) : Rat) := by
          have : ((0 : Nat) : Rat) = 0 := rfl
          rw [this, Rat.div_def, Rat.zero_mul, Rat.zero_mul]; rfl
        rw [hz, Rat.floor_intCast, Int.add_zero]

theorem run_step {c : Rate} {s : Sync} {drop : Bool} {now : Int} {room : Nat} {l : List (Int × Nat)} {N : Nat} {s' : Sync}
    (h : s.run c drop ((now, room) :: l) = some (N, s')) :
    ∃ n s1 N2, s.samples c now room drop = some (n, s1) ∧ s1.run c drop l = some (N2, s') ∧ N = n + N2 := by
  rw [Sync.run] at h
  cases hs : s.samples c now room drop with
  | none => rw [hs] at h; cases h
  | some p =>
    obtain ⟨n, s1⟩ := p
    rw [hs] at h
    simp only at h
    cases hr : s1.run c drop l with
    | none => rw [hr] at h; cases h
    | some p =>
      obtain ⟨N2, s2⟩ := p
      rw [hr] at h
      injection h with h; injection h with h1 h2; subst h1 h2
      exact ⟨n, s1, N2, rfl, hr, rfl⟩

/-- The time accounted for is that of the samples, a tick less per call at most. -/
theorem run_time {c : Rate} (hT : 0 < c.ticks) (hr : 0 < c.rate) (l : List (Int × Nat)) : ∀ {s s' : Sync} {t : Int} {N : Nat},
    s.last ≤ t → Forward t l → s.run c false l = some (N, s') →
    s'.start = s.start ∧ s'.last ≤ final_ t l ∧
    (s'.last : Rat) ≤ s.last + (N : Rat) / c.rate * c.ticks ∧
    (s.last : Rat) + (N : Rat) / c.rate * c.ticks - (l.length : Rat) ≤ s'.last := by
  induction l with
  | nil =>
    intro s s' t N h _ hrun
    injection hrun with hrun; injection hrun with h1 h2; subst h1 h2
    have : ((0 : Nat) : Rat) / c.rate * c.ticks = 0 := by
      have : ((0 : Nat) : Rat) = 0 := rfl
      rw [this, Rat.div_def, Rat.zero_mul, Rat.zero_mul]
    refine ⟨rfl, h, ?_, ?_⟩
    · rw [this]; grind
    · rw [this]
      have : (([] : List (Int × Nat)).length : Rat) = 0 := rfl
      rw [this]; grind
  | cons x l ih =>
    obtain ⟨now, room⟩ := x
    intro s s' t N h hf hrun
    obtain ⟨n, s1, N2, hs, hrun2, hN⟩ := run_step hrun
    have hnow : s.last ≤ now := Int.le_trans h hf.1
    obtain ⟨e1, _, _, h1, _, _, h2⟩ := samples_step hT hr hnow hs
    have h2 := h2 rfl
    have hfl := Rat.floor_le ((n : Rat) / c.rate * c.ticks)
    have hfl2 := Rat.lt_floor_add_one ((n : Rat) / c.rate * c.ticks)
    have hc1 : (s1.last : Rat) = (s.last : Rat) + (((n : Rat) / c.rate * c.ticks).floor : Rat) := by
      rw [h2]; exact Rat.intCast_add _ _
    have hc2 : ((((n : Rat) / c.rate * c.ticks).floor + 1 : Int) : Rat) = (((n : Rat) / c.rate * c.ticks).floor : Rat) + 1 :=
      Rat.intCast_add _ _
    rw [hc2] at hfl2
    have hle : s1.last ≤ now := by
      have : (s1.last : Rat) ≤ (now : Rat) := by rw [hc1]; grind
      exact_mod_cast this
    obtain ⟨e2, a, b, d⟩ := ih hle hf.2 hrun2
    have hNc : (N : Rat) = (n : Rat) + (N2 : Rat) := by rw [hN]; exact_mod_cast rfl
    have hmul : (N : Rat) / c.rate * c.ticks = (n : Rat) / c.rate * c.ticks + (N2 : Rat) / c.rate * c.ticks := by
      rw [hNc]; simp only [Rat.div_def, Rat.add_mul]
    have hlen : (((now, room) :: l).length : Rat) = (l.length : Rat) + 1 := by
      rw [List.length_cons]; exact_mod_cast rfl
    refine ⟨e2.trans e1, a, ?_, ?_⟩
    · rw [hmul]; grind
    · rw [hmul, hlen]; grind

/-! ## The timer -/

/-- 1 for a task that uses the block. -/
def alive (k : Task) : Nat := if k = .notify then 0 else 1

theorem live_cons (k : Task) (ts : List Task) : live (k :: ts) = alive k + live ts := by
  unfold live alive
  cases k <;> simp [Nat.add_comm]

theorem live_append (a b : List Task) : live (a ++ b) = live a + live b := by
  unfold live; rw [List.filter_append, List.length_append]

theorem live_set (ts : List Task) : ∀ (i : Nat) (a b : Task), ts[i]? = some a → live (ts.set i b) + alive a = live ts + alive b := by
  induction ts with
  | nil => intro i a b h; cases h
  | cons x ts ih =>
    intro i a b h
    cases i with
    | zero =>
      have : x = a := by simpa using h
      subst this
      rw [List.set_cons_zero, live_cons, live_cons]; omega
    | succ i =>
      have := ih i a b (by simpa using h)
      rw [List.set_cons_succ, live_cons, live_cons]; omega

theorem live_erase (ts : List Task) : ∀ (i : Nat) (a : Task), ts[i]? = some a → live (ts.eraseIdx i) + alive a = live ts := by
  induction ts with
  | nil => intro i a h; cases h
  | cons x ts ih =>
    intro i a h
    cases i with
    | zero =>
      have : x = a := by simpa using h
      subst this
      rw [List.eraseIdx_cons_zero, live_cons]; omega
    | succ i =>
      have := ih i a (by simpa using h)
      rw [List.eraseIdx_cons_succ, live_cons, live_cons]; omega

/-- What holds between the flags, the owner and the tasks. -/
structure TInv (t : Timer) : Prop where
  one : live t.tasks ≤ 1
  done : t.owner ≠ .launching → (t.done = true ↔ live t.tasks = 0)
  rest : t.owner ≠ .waiting → t.running = false → live t.tasks = 0
  starting : t.owner = .clearing ∨ t.owner = .launching → t.running = true ∧ live t.tasks = 0
  launching : t.owner = .launching → t.done = false
  waiting : t.owner = .waiting → t.running = false

theorem init_tinv : TInv .init :=
  ⟨by decide, fun _ => by decide, fun _ _ => by decide, fun h => (by rcases h with h | h <;> cases h), nofun, nofun⟩

theorem own_tinv {t t' : Timer} {b : Bool} (h : TInv t) (ho : t.own b = some t') : TInv t' := by
  obtain ⟨ow, run, dn, ts⟩ := t
  obtain ⟨h1, h2, h3, h4, h5, h6⟩ := h
  simp only at h1 h2 h3 h4 h5 h6
  cases ow with
  | idle =>
    injection ho with ho; subst ho
    have h2 := h2 (by decide); have h3 := h3 (by decide)
    cases b
    · exact ⟨h1, fun _ => h2, fun _ => h3, fun h => (by rcases h with h | h <;> cases h), nofun, nofun⟩
    · exact ⟨h1, fun _ => h2, fun _ => h3, fun h => (by rcases h with h | h <;> cases h), nofun, nofun⟩
  | starting =>
    injection ho with ho; subst ho
    have h2 := h2 (by decide); have h3 := h3 (by decide)
    cases run
    · exact ⟨h1, fun _ => h2, nofun, fun _ => ⟨rfl, h3 rfl⟩, nofun, nofun⟩
    · exact ⟨h1, fun _ => h2, nofun, fun h => (by rcases h with h | h <;> cases h), nofun, nofun⟩
  | clearing =>
    injection ho with ho; subst ho
    obtain ⟨h7, h8⟩ := h4 (.inl rfl)
    exact ⟨h1, fun h => absurd rfl h, fun _ h => (by simp only at h; rw [h7] at h; cases h), fun _ => ⟨h7, h8⟩, fun _ => rfl, nofun⟩
  | launching =>
    injection ho with ho; subst ho
    obtain ⟨h7, h8⟩ := h4 (.inr rfl)
    have h9 := h5 rfl
    have hl : live (ts ++ [.check]) = 1 := by rw [live_append, h8]; rfl
    refine ⟨by simp only; omega, fun _ => ?_, fun _ h => (by simp only at h; rw [h7] at h; cases h),
      fun h => (by rcases h with h | h <;> cases h), nofun, nofun⟩
    simp only
    rw [h9, hl]; decide
  | stopping =>
    injection ho with ho; subst ho
    exact ⟨h1, fun _ => h2 (by decide), fun h => absurd rfl h, fun h => (by rcases h with h | h <;> cases h), nofun, fun _ => rfl⟩
  | waiting =>
    unfold Timer.own at ho
    simp only at ho
    split at ho
    · rename_i hd
      injection ho with ho; subst ho
      have h2 := h2 (by decide)
      exact ⟨h1, fun _ => h2, fun _ _ => h2.1 hd, fun h => (by rcases h with h | h <;> cases h), nofun, nofun⟩
    · cases ho

theorem task_tinv {t t' : Timer} {i : Nat} {a : Bool} (h : TInv t) (ho : t.task i a = some t') :
    TInv t' ∧ t'.owner = t.owner ∧ t'.running = t.running := by
  unfold Timer.task at ho
  cases hk : t.tasks[i]? with
  | none => rw [hk] at ho; cases ho
  | some k =>
    rw [hk] at ho
    obtain ⟨ow, run, dn, ts⟩ := t
    obtain ⟨h1, h2, h3, h4, h5, h6⟩ := h
    simp only at h1 h2 h3 h4 h5 h6 hk ho
    injection ho with ho
    subst ho
    refine ⟨?_, rfl, rfl⟩
    have stays : ∀ k', step run a k = (some k', false) → alive k = 1 → alive k' = 1 →
        TInv ⟨ow, run, dn || (step run a k).2, match (step run a k).1 with
          | some k => ts.set i k
          | none => ts.eraseIdx i⟩ := by
      intro k' e e1 e2
      have hl := live_set ts i k k' hk
      have hl' : live (ts.set i k') = live ts := by omega
      rw [e]
      simp only [Bool.or_false]
      exact ⟨by rw [hl']; exact h1, by rw [hl']; exact h2, by rw [hl']; exact h3, by rw [hl']; exact h4, h5, h6⟩
    cases k with
    | check => exact stays _ rfl rfl (by cases run <;> cases a <;> rfl)
    | sleep => exact stays _ rfl rfl rfl
    | again => exact stays _ rfl rfl (by cases run <;> rfl)
    | wake => exact stays _ rfl rfl rfl
    | leave =>
      have hl := live_set ts i .leave .notify hk
      have e1 : alive .leave = 1 := rfl
      have e2 : alive .notify = 0 := rfl
      have hz : live (ts.set i .notify) = 0 := by omega
      have hne : ow ≠ .launching := fun hh => by have := (h4 (.inr hh)).2; omega
      simp only [step, Bool.or_true]
      refine ⟨by simp only [hz]; omega, fun _ => by simp only [hz], fun _ _ => hz, fun h => ?_, fun h => absurd h hne, h6⟩
      rcases h with h | h
      · have := (h4 (.inl h)).2; omega
      · exact absurd h hne
    | notify =>
      have hl := live_erase ts i .notify hk
      have e2 : alive .notify = 0 := rfl
      have hl' : live (ts.eraseIdx i) = live ts := by omega
      simp only [step, Bool.or_false]
      exact ⟨by rw [hl']; exact h1, by rw [hl']; exact h2, by rw [hl']; exact h3, by rw [hl']; exact h4, h5, h6⟩

theorem moves_tinv (ms : List Move) : ∀ {t t' : Timer}, TInv t → t.moves ms = some t' → TInv t' := by
  induction ms with
  | nil => intro t t' h e; injection e with e; subst e; exact h
  | cons m ms ih =>
    intro t t' h e
    rw [Timer.moves] at e
    cases hm : t.move m with
    | none => rw [hm] at e; cases e
    | some t1 =>
      rw [hm] at e
      refine ih ?_ e
      cases m with
      | own b => exact own_tinv h hm
      | task i a => exact (task_tinv h hm).1

/-- Steps a task has left once it has to go. -/
def left : Task → Nat
  | .check => 3
  | .sleep => 4
  | .again => 3
  | .wake => 4
  | .leave => 2
  | .notify => 1

def leftAll : List Task → Nat
  | [] => 0
  | k :: ts => left k + leftAll ts

theorem leftAll_le (ts : List Task) : leftAll ts ≤ 4 * ts.length := by
  induction ts with
  | nil => exact Nat.zero_le _
  | cons k ts ih =>
    have : left k ≤ 4 := by cases k <;> decide
    rw [leftAll, List.length_cons]; omega

theorem leftAll_set (ts : List Task) : ∀ (i : Nat) (a b : Task), ts[i]? = some a → leftAll (ts.set i b) + left a = leftAll ts + left b := by
  induction ts with
  | nil => intro i a b h; cases h
  | cons x ts ih =>
    intro i a b h
    cases i with
    | zero =>
      have : x = a := by simpa using h
      subst this
      rw [List.set_cons_zero, leftAll, leftAll]; omega
    | succ i =>
      have := ih i a b (by simpa using h)
      rw [List.set_cons_succ, leftAll, leftAll]; omega

theorem leftAll_erase (ts : List Task) : ∀ (i : Nat) (a : Task), ts[i]? = some a → leftAll (ts.eraseIdx i) + left a = leftAll ts := by
  induction ts with
  | nil => intro i a h; cases h
  | cons x ts ih =>
    intro i a h
    cases i with
    | zero =>
      have : x = a := by simpa using h
      subst this
      rw [List.eraseIdx_cons_zero, leftAll]; omega
    | succ i =>
      have := ih i a (by simpa using h)
      rw [List.eraseIdx_cons_succ, leftAll, leftAll]; omega

theorem task_left {t t' : Timer} {i : Nat} {a : Bool} (hr : t.running = false) (h : t.task i a = some t') :
    leftAll t'.tasks < leftAll t.tasks ∧ t'.running = false ∧ t'.owner = t.owner := by
  unfold Timer.task at h
  cases hk : t.tasks[i]? with
  | none => rw [hk] at h; cases h
  | some k =>
    rw [hk] at h
    injection h with h
    subst h
    refine ⟨?_, hr, rfl⟩
    rw [hr]
    have hs := fun b => leftAll_set t.tasks i k b hk
    have he := leftAll_erase t.tasks i k hk
    cases k with
    | check => have := hs .leave; simp only [step, left, Bool.false_and, Bool.false_eq_true, if_false] at this ⊢; omega
    | sleep => have := hs .again; simp only [step, left] at this ⊢; omega
    | again => have := hs .leave; simp only [step, left, Bool.false_eq_true, if_false] at this ⊢; omega
    | wake => have := hs .check; simp only [step, left] at this ⊢; omega
    | leave => have := hs .notify; simp only [step, left] at this ⊢; omega
    | notify => simp only [step, left] at he ⊢; omega

end Verif.Clock
