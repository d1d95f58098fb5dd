import Verif.Drift.Model
/-!
# C141–C143: clock drift
-/
namespace Verif.Drift

/-! ## C141: the estimate -/

/-- Observations, one after the other. -/
def Est.updates {σ : Type} (F : σ → Rat → Rat × σ) (e : Est σ) (obs : List (Rat × Nat)) : Est σ :=
  obs.foldl (fun e o => e.update F o.1 o.2) e

/-- **Before two observations the rate is the nominal one**, whatever the initial deviation. -/
theorem nominal_at_first {σ : Type} (F : σ → Rat → Rat × σ) (mk : Rat → σ) (ppm nominal t : Rat) (n : Nat) :
    (Est.reset mk ppm nominal).rate = nominal ∧ ((Est.reset mk ppm nominal).update F t n).rate = nominal ∧
    (Est.reset mk ppm nominal).ppm = 0 := by
  refine ⟨by simp [Est.reset, Est.rate], ?_, by simp [Est.reset, Est.ppm]⟩
  unfold Est.update
  split
  · simp [Est.reset, Est.rate]
  · simp [Est.reset, Est.rate]

/-- The initial deviation does not show: a deviation of 100 parts per million is given and the estimate is the nominal rate. -/
theorem initial_ppm_not_shown : ∃ (mk : Rat → Unit), (Est.reset mk 100 48000).rate = 48000 ∧ (Est.reset mk 100 48000).ppm = 0 :=
  ⟨fun _ => (), by decide +kernel, by decide +kernel⟩

/-- **The gap of a retune is not measured**: after `resetPhase` the next observation, at whatever time, leaves the estimate as it is. -/
theorem gap_not_measured {σ : Type} (F : σ → Rat → Rat × σ) (e : Est σ) (t : Rat) (n : Nat) :
    (e.resetPhase.update F t n).rate = e.rate ∧ (e.resetPhase.update F t n).ppm = e.ppm ∧
    (e.resetPhase.update F t n).filter = e.filter := by
  unfold Est.update Est.resetPhase
  split
  · exact ⟨rfl, rfl, rfl⟩
  · exact ⟨rfl, rfl, rfl⟩

/-- Chunks of `ns` samples which arrive at the end of the time their samples take, from `t` on. -/
def arrivals (rate : Rat) (t : Rat) : List Nat → List (Rat × Nat)
  | [] => []
  | n :: ns => (t + (n : Rat) / rate, n) :: arrivals rate (t + (n : Rat) / rate) ns

/-- What stays true as long as all chunks are on time. -/
def OnTime {σ : Type} (mk : Rat → σ) (rate t : Rat) (e : Est σ) : Prop :=
  e.nominal = rate ∧ e.filter = mk (1 / rate) ∧ (e.initialised = true → e.period = 1 / rate) ∧ (e.hasPrev = true → e.tPrev = t)

theorem OnTime.step {σ : Type} {F : σ → Rat → Rat × σ} {mk : Rat → σ} (hF : ∀ p, F (mk p) p = (p, mk p)) {rate t : Rat} (hr : 0 < rate)
    {e : Est σ} (h : OnTime mk rate t e) (n : Nat) : OnTime mk rate (t + (n : Rat) / rate) (e.update F (t + (n : Rat) / rate) n) := by
  obtain ⟨h1, h2, h3, h4⟩ := h
  by_cases hn : n = 0
  · have hz : t + ((n : Nat) : Rat) / rate = t := by
      rw [hn]
      have : ((0 : Nat) : Rat) = 0 := rfl
      rw [this]
      grind
    rw [hz]
    have hu : e.update F t n = e := by unfold Est.update; rw [if_pos (Or.inr hn)]
    rw [hu]
    exact ⟨h1, h2, h3, h4⟩
  · have hne : ¬ (e.nominal ≤ 0 ∨ n = 0) := by
      rw [h1]
      rintro (h | h)
      · grind
      · exact hn h
    unfold Est.update
    rw [if_neg hne]
    cases hp : e.hasPrev with
    | false => exact ⟨h1, h2, h3, fun _ => rfl⟩
    | true =>
      simp only [Bool.true_eq_false, if_false]
      have ht := h4 hp
      have hdt : t + (n : Rat) / rate - e.tPrev = (n : Rat) / rate := by rw [ht]; grind
      rw [hdt]
      have hnpos : (0 : Rat) < (n : Rat) := by
        have : ((0 : Nat) : Rat) < ((n : Nat) : Rat) := Rat.natCast_lt_natCast.2 (Nat.pos_of_ne_zero hn)
        exact this
      have hpos : 0 < (n : Rat) / rate := by
        rw [Rat.div_def]
        exact Rat.mul_pos hnpos (Rat.inv_pos.2 hr)
      rw [if_neg (by grind)]
      have hq : (n : Rat) / rate / (n : Rat) = 1 / rate := by
        generalize (n : Rat) = q at *
        grind
      rw [hq, h2, hF]
      exact ⟨h1, rfl, fun _ => rfl, fun _ => rfl⟩

/-- **Chunks that arrive exactly on time leave the estimate at the true rate**: with a filter which a constant keeps at rest, and with
the true rate as nominal rate, every chunk being as long as its samples take. -/
theorem on_time {σ : Type} (F : σ → Rat → Rat × σ) (mk : Rat → σ) (hF : ∀ p, F (mk p) p = (p, mk p)) (rate : Rat) (hr : 0 < rate)
    (t : Rat) (n : Nat) (ns : List Nat) :
    ((Est.reset mk 0 rate).updates F ((t, n) :: arrivals rate t ns)).rate = rate := by
  have run : ∀ (ns : List Nat) (t : Rat) (e : Est σ), OnTime mk rate t e →
      ∃ t', OnTime mk rate t' (e.updates F (arrivals rate t ns)) := by
    intro ns
    induction ns with
    | nil => intro t e h; exact ⟨t, h⟩
    | cons n ns ih => intro t e h; exact ih _ _ (h.step hF hr n)
  have h0 : OnTime mk rate t ((Est.reset mk 0 rate).update F t n) := by
    have hn : (Est.reset mk 0 rate).nominal = rate := rfl
    have hf : (Est.reset mk 0 rate).filter = mk (1 / rate) := by simp [Est.reset, hr]
    unfold Est.update
    split
    · exact ⟨hn, hf, fun h => (by cases h), fun h => (by cases h)⟩
    · rw [if_pos (show (Est.reset mk 0 rate).hasPrev = false from rfl)]
      exact ⟨hn, hf, fun h => (by cases h), fun _ => rfl⟩
  obtain ⟨t', a, -, b, -⟩ := run ns t _ h0
  have e1 : (Est.reset mk 0 rate).updates F ((t, n) :: arrivals rate t ns) =
      ((Est.reset mk 0 rate).update F t n).updates F (arrivals rate t ns) := rfl
  rw [e1]
  generalize ((Est.reset mk 0 rate).update F t n).updates F (arrivals rate t ns) = e at a b
  unfold Est.rate
  split
  · exact a
  · rename_i hc
    have hi : e.initialised = true := by
      simp only [not_or] at hc
      simpa using hc.1
    rw [b hi]
    have : rate ≠ 0 := by grind
    grind

/-- A filter that averages with its last value. -/
example : ((Est.reset (fun p => p) 0 48000).updates (fun s x => ((s + x) / 2, (s + x) / 2)) ((7, 10) :: arrivals 48000 7 [480, 96])).rate =
    48000 := by decide +kernel

/-- **A chunk with no time before it is not measured, and its samples are forgotten**: two chunks seen at one moment count as the
second. Here 100 samples a second are seen in two bursts, and the estimate is 50. -/
theorem burst_halves_rate :
    ((Est.reset (fun p => p) 0 100).updates (fun s x => (x, s)) [(0, 100), (1, 50), (1, 50), (2, 50), (2, 50)]).rate = 50 := by
  decide +kernel

/-- **A clock that stands still or goes back** leaves the estimate, and the next chunk is measured from there. -/
theorem clock_goes_back {σ : Type} (F : σ → Rat → Rat × σ) (e : Est σ) (t t' : Rat) (n n' : Nat) (hp : e.hasPrev = true)
    (hn : 0 < e.nominal) (hback : t ≤ e.tPrev) (h0 : n ≠ 0) (h1 : n' ≠ 0) (hon : t < t') :
    (e.update F t n).rate = e.rate ∧
    ((e.update F t n).update F t' n').period = (F e.filter ((t' - t) / n')).1 := by
  have hc : ¬ (e.nominal ≤ 0 ∨ n = 0) := by grind
  have hc' : ¬ (e.nominal ≤ 0 ∨ n' = 0) := by grind
  have e1 : e.update F t n = { e with tPrev := t } := by
    unfold Est.update
    rw [if_neg hc, if_neg (by simp [hp])]
    dsimp only
    rw [if_pos (by grind)]
  rw [e1]
  refine ⟨rfl, ?_⟩
  unfold Est.update
  dsimp only
  rw [if_neg hc', if_neg (by simp [hp]), if_neg (by grind)]

example : (({ nominal := 10, period := 1 / 10, tPrev := 5, hasPrev := true, initialised := true, filter := () } : Est Unit).update
    (fun s x => (x, s)) 3 10 |>.update (fun s x => (x, s)) 4 10).rate = 10 := by decide +kernel

end Verif.Drift
