import Verif.Basic.Model

/-!
# Rotation of complex samples
-/

namespace Verif.Basic

/-- the phases by which the samples of a run are turned -/
def phases (tau inc : Rat) : Rat → Nat → List Rat
  | _, 0 => []
  | p, n + 1 => nextPhase tau inc p :: phases tau inc (nextPhase tau inc p) n

/-- **Processing does not depend on how the stream is cut**: each sample is turned by its own phase, and the phases go on from
chunk to chunk. -/
theorem rotator_chunks {α : Type} (tau : Rat) (turn : Rat → α → α) (xs ys : List α) : ∀ (r : Rotator),
    let a := runOne (rotStep tau turn) r xs
    runOne (rotStep tau turn) r (xs ++ ys) = ((runOne (rotStep tau turn) a.1 ys).1, a.2.1 ++ (runOne (rotStep tau turn) a.1 ys).2.1, false) ∧ a.2.2 = false := by
  have hstop : ∀ (ys : List α) (r : Rotator), (runOne (rotStep tau turn) r ys).2.2 = false := by
    intro ys
    induction ys with
    | nil => intro r; rfl
    | cons y ys ih => intro r; simp only [runOne, rotStep, Bool.false_eq_true, if_false]; exact ih _
  induction xs with
  | nil =>
    intro r
    refine ⟨?_, rfl⟩
    simp only [runOne, List.nil_append]
    rw [← hstop ys r]
  | cons x xs ih =>
    intro r
    obtain ⟨a, b⟩ := ih (rotStep tau turn r x).state
    refine ⟨?_, hstop _ _⟩
    simp only [List.cons_append, runOne]
    have hs : (rotStep tau turn r x).stop = false := rfl
    simp only [hs, Bool.false_eq_true, if_false]
    rw [a]
    simp

/-- the samples written are the input samples turned by the phases -/
theorem rotator_out {α : Type} (tau : Rat) (turn : Rat → α → α) (xs : List α) : ∀ (r : Rotator),
    (runOne (rotStep tau turn) r xs).2.1 = List.zipWith turn (phases tau r.increment r.phase xs.length) xs := by
  induction xs with
  | nil => intro r; rfl
  | cons x xs ih =>
    intro r
    simp only [runOne, rotStep, Bool.false_eq_true, if_false, List.length_cons, phases, List.zipWith_cons_cons]
    congr 1
    exact ih _

theorem nextPhase_congr (tau inc p : Rat) : ∃ k : Int, nextPhase tau inc p = p + inc + k * tau := by
  simp only [nextPhase]
  split
  · exact ⟨-1, by grind⟩
  · split
    · exact ⟨1, by grind⟩
    · exact ⟨0, by grind⟩

/-- **Sample number `i` is turned by `initial + (i + 1) · increment`**, up to full turns. -/
theorem rotator_phase (tau inc : Rat) (n : Nat) : ∀ (p : Rat) (i : Nat) (h : i < (phases tau inc p n).length),
    ∃ k : Int, (phases tau inc p n)[i] = p + ((i + 1 : Nat) : Rat) * inc + k * tau := by
  induction n with
  | zero => intro p i h; simp [phases] at h
  | succ n ih =>
    intro p i h
    obtain ⟨k, hk⟩ := nextPhase_congr tau inc p
    cases i with
    | zero => exact ⟨k, by simp only [phases, List.getElem_cons_zero, hk]; grind⟩
    | succ i =>
      simp only [phases, List.length_cons] at h
      obtain ⟨k', hk'⟩ := ih (nextPhase tau inc p) i (by omega)
      refine ⟨k + k', ?_⟩
      simp only [phases, List.getElem_cons_succ, hk']
      rw [hk]
      have e1 : ((i + 1 + 1 : Nat) : Rat) = ((i + 1 : Nat) : Rat) + 1 := by grind
      have e2 : ((k + k' : Int) : Rat) = (k : Rat) + (k' : Rat) := by grind
      rw [e1, e2]
      grind

/-- **The phase stays within one turn** if neither the increment nor the starting phase exceeds one. -/
theorem rotator_bounded (tau inc : Rat) (h1 : -tau ≤ inc) (h2 : inc ≤ tau) (n : Nat) : ∀ (p : Rat), 0 ≤ p → p ≤ tau →
    ∀ q ∈ phases tau inc p n, 0 ≤ q ∧ q ≤ tau := by
  induction n with
  | zero => intro p _ _ q hq; simp [phases] at hq
  | succ n ih =>
    intro p hp0 hp1 q hq
    have hb : 0 ≤ nextPhase tau inc p ∧ nextPhase tau inc p ≤ tau := by
      simp only [nextPhase]
      split
      · constructor <;> grind
      · split
        · constructor <;> grind
        · constructor <;> grind
    simp only [phases, List.mem_cons] at hq
    cases hq with
    | inl h => rw [h]; exact hb
    | inr h => exact ih _ hb.1 hb.2 q h

example : phases 6 4 1 5 = [5, 3, 1, 5, 3] := by decide +kernel

/-- **A larger increment makes the phase grow without bound**: only one turn is taken off per sample. -/
theorem rotator_grows (tau : Rat) (ht : 0 < tau) (n : Nat) : ∀ (p : Rat), 0 ≤ p → ∀ (i : Nat) (h : i < (phases tau (2 * tau) p n).length),
    (phases tau (2 * tau) p n)[i] = p + ((i + 1 : Nat) : Rat) * tau := by
  induction n with
  | zero => intro p _ i h; simp [phases] at h
  | succ n ih =>
    intro p hp i h
    have hn : nextPhase tau (2 * tau) p = p + tau := by
      simp only [nextPhase]
      rw [if_pos (by grind)]
      grind
    cases i with
    | zero => simp only [phases, List.getElem_cons_zero, hn]; grind
    | succ i =>
      simp only [phases, List.length_cons] at h
      have := ih (nextPhase tau (2 * tau) p) (by rw [hn]; grind) i (by omega)
      simp only [phases, List.getElem_cons_succ, this]
      have e1 : ((i + 1 + 1 : Nat) : Rat) = ((i + 1 : Nat) : Rat) + 1 := by grind
      rw [hn, e1]
      grind

/-- **After setting a frequency shift the increment is `2π · shift / sample rate`**, with the sample rate set at the same time. -/
theorem rotator_set_shift (tau : Rat) (r : Rotator) (n : RotSettings) (s : Rat) (h : n.shift = some s) (hi : n.increment = none) :
    ∃ r', r.set tau n = some r' ∧ r'.shift = s ∧ r'.sampleRate = n.sampleRate.getD r.sampleRate ∧ r'.increment = tau * (s / r'.sampleRate) ∧ r'.phase = r'.initial := by
  simp only [Rotator.set, h, hi]
  exact ⟨_, rfl, rfl, rfl, rfl, rfl⟩

/-- **After setting an increment the frequency shift is the one belonging to it.** -/
theorem rotator_set_increment (tau : Rat) (ht : tau ≠ 0) (r : Rotator) (n : RotSettings) (x : Rat) (h : n.increment = some x) (hs : n.shift = none)
    (hr : n.sampleRate.getD r.sampleRate ≠ 0) :
    ∃ r', r.set tau n = some r' ∧ r'.increment = x ∧ r'.increment = tau * (r'.shift / r'.sampleRate) ∧ r'.phase = r'.initial := by
  simp only [Rotator.set, h, hs]
  refine ⟨_, rfl, rfl, ?_, rfl⟩
  simp only [Option.getD_some]
  generalize n.sampleRate.getD r.sampleRate = w at hr
  grind

/-- Setting both at once is refused. -/
theorem rotator_set_both (tau : Rat) (r : Rotator) (n : RotSettings) : r.set tau n = none ↔ n.shift.isSome ∧ n.increment.isSome := by
  cases hs : n.shift <;> cases hi : n.increment <;> simp [Rotator.set, hs, hi]

/-- **A new sample rate alone leaves the increment as it was**, so the samples are no longer shifted by the frequency shift: after a
sample rate of 1000 has been replaced by 2000, a shift of 100 Hz has become one of 200 Hz although the setting still says 100. -/
theorem rotator_rate_stale (tau : Rat) (ht : 0 < tau) : ∃ r r' r'' : Rotator,
    r.set tau { sampleRate := some 1000, shift := some 100 } = some r' ∧ r'.set tau { sampleRate := some 2000 } = some r'' ∧
    r''.shift = 100 ∧ r''.sampleRate = 2000 ∧ r''.increment = tau * (200 / r''.sampleRate) ∧ r''.increment ≠ tau * (r''.shift / r''.sampleRate) :=
  ⟨⟨1, 0, 0, 0, 0⟩, _, _, rfl, rfl, rfl, rfl, by simp only [Option.getD]; grind, by simp only [Option.getD]; grind⟩

/-- **Any change of settings restarts the phase**, also one which does not concern it. -/
theorem rotator_set_restarts (tau : Rat) (r r' : Rotator) (n : RotSettings) (h : r.set tau n = some r') : r'.phase = n.initial.getD r.initial := by
  cases hs : n.shift <;> cases hi : n.increment <;> simp only [Rotator.set, hs, hi] at h
  · cases h; rfl
  · cases h; rfl
  · cases h; rfl
  · cases h

end Verif.Basic
