import Verif.Func.Model
/-!
# C144, C145: the function generator
-/
namespace Verif.Func

/-! ## C144: the shapes -/

theorem quot_some {a b : Rat} (h : b ≠ 0) : quot a b = some (a / b) := if_neg h

/-- **A linear ramp** is the straight line from start to end, and the end afterwards. -/
theorem linear_shape (s : Shape) (t : Rat) (hd : 0 < s.duration) :
    (t ≤ s.duration → linear s t = some (s.start + (s.final - s.start) * t / s.duration)) ∧
    (s.duration < t → linear s t = some s.final) ∧ linear s 0 = some s.start ∧ linear s s.duration = some s.final := by
  have main : ∀ t, t ≤ s.duration → linear s t = some (s.start + (s.final - s.start) * t / s.duration) := by
    intro t ht
    unfold linear
    rw [if_neg (by grind), quot_some (by grind)]
    show some _ = some _
    congr 1
    grind
  refine ⟨main t, fun h => if_pos h, ?_, ?_⟩
  · rw [main 0 (by grind)]
    congr 1
    grind
  · rw [main _ (by grind)]
    congr 1
    grind

example : linear { start := 1, final := 5, duration := 2 } (1/2) = some 2 ∧ linear { start := 1, final := 5, duration := 2 } 3 = some 5 := by
  decide +kernel

/-- The weight of the end in a spline: `3 u^2 - 2 u^3`. -/
def weight (u : Rat) : Rat := 3 * u * u - 2 * u * u * u

theorem sq_nonneg (x : Rat) : 0 ≤ x * x := by
  cases Rat.le_total (a := 0) (b := x) with
  | inl h => exact Rat.mul_nonneg h h
  | inr h =>
    have h' : 0 ≤ -x := by grind
    have := Rat.mul_nonneg h' h'
    grind

theorem weight_mono {u v : Rat} (h0 : 0 ≤ u) (h1 : u ≤ v) (h2 : v ≤ 1) : weight u ≤ weight v := by
  have a : 0 ≤ u * (1 - u) := Rat.mul_nonneg h0 (by grind)
  have b : 0 ≤ v * (1 - v) := Rat.mul_nonneg (by grind) (by grind)
  have c : 0 ≤ (v - u) * (v - u) := sq_nonneg _
  -- 3 (u + v) - 2 (u^2 + u v + v^2) is 3 a + 3 b + c
  have d : 0 ≤ (v - u) * (3 * (u * (1 - u)) + 3 * (v * (1 - v)) + (v - u) * (v - u)) :=
    Rat.mul_nonneg (by grind) (by grind)
  unfold weight
  grind

/-- **A spline** starts at the start, follows the cubic which is level at both ends, ends at the end and stays there. -/
theorem spline_shape (s : Shape) (t : Rat) (hd : 0 < s.duration) :
    (t ≤ s.duration → spline s t = some (s.start + (s.final - s.start) * weight (t / s.duration))) ∧
    (s.duration < t → spline s t = some s.final) ∧ spline s 0 = some s.start ∧ spline s s.duration = some s.final := by
  have main : ∀ t, t ≤ s.duration → spline s t = some (s.start + (s.final - s.start) * weight (t / s.duration)) := by
    intro t ht
    unfold spline
    rw [if_neg (by grind), quot_some (by grind)]
    show some _ = some _
    congr 1
    unfold weight
    generalize t / s.duration = q
    grind
  refine ⟨main t, fun h => if_pos h, ?_, ?_⟩
  · rw [main 0 (by grind)]
    congr 1
    have : (0 : Rat) / s.duration = 0 := by grind
    rw [this]
    unfold weight
    grind
  · rw [main _ (by grind)]
    congr 1
    have : s.duration / s.duration = 1 := by grind
    rw [this]
    unfold weight
    grind

example : spline { start := 0, final := 32, duration := 4 } 1 = some 5 ∧ spline { start := 0, final := 32, duration := 4 } 3 = some 27 := by
  decide +kernel

theorem div_mono {a b d : Rat} (hd : 0 < d) (h : a ≤ b) : a / d ≤ b / d := by
  rw [Rat.div_def, Rat.div_def]
  exact Rat.mul_le_mul_of_nonneg_right h (Rat.le_of_lt (Rat.inv_pos.2 hd))

/-- **Ramps and splines do not turn back**: of two times the later one has the larger value if the ramp goes up. -/
theorem rising (s : Shape) (hd : 0 < s.duration) (hs : s.start ≤ s.final) (t u x y : Rat) (h0 : 0 ≤ t) (htu : t ≤ u) :
    (linear s t = some x → linear s u = some y → x ≤ y) ∧ (spline s t = some x → spline s u = some y → x ≤ y) := by
  have hst : 0 ≤ s.final - s.start := by grind
  have one : s.duration / s.duration = 1 := by grind
  have zero : (0 : Rat) / s.duration = 0 := by grind
  have ht0 : 0 ≤ t / s.duration := by have := div_mono hd h0; rwa [zero] at this
  constructor
  · intro h1 h2
    have key : ∀ t u, t ≤ u → (s.final - s.start) * t / s.duration ≤ (s.final - s.start) * u / s.duration :=
      fun t u h => div_mono hd (Rat.mul_le_mul_of_nonneg_left h hst)
    by_cases hu : u ≤ s.duration
    · rw [(linear_shape s u hd).1 hu] at h2
      rw [(linear_shape s t hd).1 (by grind)] at h1
      cases h1; cases h2
      have := key t u htu
      grind
    · rw [(linear_shape s u hd).2.1 (by grind)] at h2
      cases h2
      by_cases ht : t ≤ s.duration
      · rw [(linear_shape s t hd).1 ht] at h1
        cases h1
        have := key t s.duration ht
        have e : (s.final - s.start) * s.duration / s.duration = s.final - s.start := by grind
        rw [e] at this
        grind
      · rw [(linear_shape s t hd).2.1 (by grind)] at h1
        cases h1
        grind
  · intro h1 h2
    by_cases hu : u ≤ s.duration
    · rw [(spline_shape s u hd).1 hu] at h2
      rw [(spline_shape s t hd).1 (by grind)] at h1
      cases h1; cases h2
      have l := div_mono hd htu
      have r := div_mono hd hu
      rw [one] at r
      have := Rat.mul_le_mul_of_nonneg_left (weight_mono ht0 l r) hst
      grind
    · rw [(spline_shape s u hd).2.1 (by grind)] at h2
      cases h2
      by_cases ht : t ≤ s.duration
      · rw [(spline_shape s t hd).1 ht] at h1
        cases h1
        have r := div_mono hd ht
        rw [one] at r
        have w1 : weight 1 = 1 := by decide +kernel
        have := Rat.mul_le_mul_of_nonneg_left (weight_mono ht0 r (by grind)) hst
        rw [w1] at this
        grind
      · rw [(spline_shape s t hd).2.1 (by grind)] at h1
        cases h1
        grind

/-- The slope of the straight part of a rounded ramp. -/
def slopeOf (s : Shape) : Rat := (s.final - s.start) / (s.duration - s.roundOff)

/-- **A rounded ramp** is a parabola from the start, a straight line which continues it in value and slope, and a parabola into the
end which is the first one turned around. -/
theorem parabolic_shape_partial (s : Shape) (t : Rat) (hr : 0 < s.roundOff) (hd : 2 * s.roundOff < s.duration) :
    (t ≤ s.roundOff → parabolic s t = some (s.start + slopeOf s * t * t / (2 * s.roundOff))) ∧
    (s.roundOff ≤ t → t ≤ s.duration - s.roundOff → parabolic s t = some (s.start + slopeOf s * (t - s.roundOff / 2))) ∧
    (s.duration - s.roundOff ≤ t → t ≤ s.duration →
      parabolic s t = some (s.final - slopeOf s * (s.duration - t) * (s.duration - t) / (2 * s.roundOff))) ∧
    (s.duration < t → parabolic s t = some s.final) := by
  obtain ⟨ty, sv, fv, d, r, i0, i1, fq, ph, sd⟩ := s
  simp only at hr hd ⊢
  have n1 : d - r ≠ 0 := by grind
  have n2 : r ≠ 0 := by grind
  have n3 : d - 2 * r ≠ 0 := by grind
  have e1 : d - 2 * r + r = d - r := by grind
  have n4 : 2 * r * (d - r) ≠ 0 := by
    intro h
    rcases Rat.mul_eq_zero.1 h with h | h
    · grind
    · exact n1 h
  -- `m` is the slope, `a` and the slope of the code in terms of it
  have hm : ∃ m, (fv - sv) / (d - r) = m ∧ fv - sv = m * (d - r) := ⟨_, rfl, by grind⟩
  obtain ⟨m, hm1, hm2⟩ := hm
  have ha : (fv - sv) / (2 * r * (d - r)) = m / (2 * r) := by rw [hm2]; grind
  have hsl : (fv - sv - 2 * (m / (2 * r) * r * r)) / (d - 2 * r) = m := by
    rw [hm2]
    have : m * (d - r) - 2 * (m / (2 * r) * r * r) = m * (d - 2 * r) := by grind
    rw [this]
    grind
  have form : ∀ t, ¬ d < t → parabolic { type := ty, start := sv, final := fv, duration := d, roundOff := r, impulse0 := i0, impulse1 := i1, frequency := fq, phase := ph, seed := sd } t =
      some (if t < r then sv + m / (2 * r) * t * t else if t < d - r then sv + m / (2 * r) * r * r + m * (t - r)
        else fv - m / (2 * r) * r * r + m * (t - (d - r)) - m / (2 * r) * (t - (d - r)) * (t - (d - r))) := by
    intro t ht
    unfold parabolic
    simp only
    rw [if_neg ht, e1, quot_some n4, ha]
    by_cases h1 : t < r
    · rw [if_pos h1, if_pos h1]; rfl
    · rw [if_neg h1, if_neg h1]
      show (do let slope ← quot (fv - sv - 2 * (m / (2 * r) * r * r)) (d - 2 * r); _) = _
      rw [quot_some n3, hsl]
      show (if t < d - r then _ else _) = _
      by_cases h2 : t < d - r
      · rw [if_pos h2, if_pos h2]; rfl
      · rw [if_neg h2, if_neg h2]; rfl
  have hf : fv = sv + m * (d - r) := by grind
  have hsl2 : slopeOf { type := ty, start := sv, final := fv, duration := d, roundOff := r, impulse0 := i0, impulse1 := i1, frequency := fq, phase := ph, seed := sd } = m := hm1
  refine ⟨fun h => ?_, fun h1 h2 => ?_, fun h1 h2 => ?_, fun h => ?_⟩
  · rw [form t (by grind), hsl2]
    congr 1
    by_cases ht : t < r
    · rw [if_pos ht]; grind
    · have : t = r := by grind
      subst this
      rw [if_neg ht, if_pos (by grind)]
      grind
  · rw [form t (by grind), hsl2]
    congr 1
    rw [if_neg (by grind)]
    by_cases ht : t < d - r
    · rw [if_pos ht]; grind
    · have : t = d - r := by grind
      rw [if_neg ht, this]
      grind
  · rw [form t (by grind), hsl2]
    congr 1
    rw [if_neg (by grind), if_neg (by grind)]
    grind
  · unfold parabolic
    simp only
    rw [if_pos h]

example : parabolic { start := 0, final := 8, duration := 10, roundOff := 2 } 5 = some 4 := by decide +kernel

/-- A ramp with no rounding, which is the default, gives no numbers until it is over; nor does one that is all rounding, in its second
half. -/
theorem parabolic_undefined (s : Shape) (t : Rat) (h0 : 0 ≤ t) (ht : t ≤ s.duration) :
    (s.roundOff = 0 → parabolic s t = none) ∧
    (0 < s.roundOff → s.duration = 2 * s.roundOff → s.roundOff ≤ t → parabolic s t = none) := by
  constructor
  · intro hr
    unfold parabolic
    dsimp only
    rw [if_neg (by grind), hr, if_neg (by grind)]
    have e : 2 * (0 : Rat) * (s.duration - 2 * 0 + 0) = 0 := by grind
    rw [e]
    rfl
  · intro hr hd h1
    unfold parabolic
    dsimp only
    rw [if_neg (by grind), if_neg (by grind), hd]
    have e : 2 * s.roundOff - 2 * s.roundOff = 0 := by grind
    rw [e]
    cases quot (s.final - s.start) (2 * s.roundOff * (0 + s.roundOff)) <;> rfl

example : parabolic { start := 0, final := 1, duration := 10 } 3 = none ∧ parabolic { start := 0, final := 1, duration := 10, roundOff := 5 } 6 = none := by
  decide +kernel

/-- The first sample of a ramp or spline of no duration is no number. -/
theorem no_duration (s : Shape) (hd : s.duration = 0) : linear s 0 = none ∧ spline s 0 = none := by
  unfold linear spline
  rw [hd]
  exact ⟨rfl, rfl⟩

/-- **An impulse** is at its second value exactly during its length after its delay. -/
theorem impulse_shape (s : Shape) (t : Rat) :
    (s.impulse0 ≤ t ∧ t ≤ s.impulse0 + s.impulse1 → impulse s t = s.final) ∧
    (t < s.impulse0 ∨ s.impulse0 + s.impulse1 < t → impulse s t = s.start) := by
  unfold impulse
  refine ⟨fun h => if_neg (by grind), fun h => if_pos h⟩

example : [0, 1, 2, 3, 4].map (impulse { start := 0, final := 9, impulse0 := 1, impulse1 := 2 }) = [0, 9, 9, 9, 0] := by decide +kernel

/-- The value at a time of the shapes that depend on nothing else. -/
def valueAt (s : Shape) (t : Rat) : Option Rat :=
  match s.type with
  | .const => some s.start
  | .linear => linear s t
  | .parabolic => parabolic s t
  | .spline => spline s t
  | .impulse => some (impulse s t)
  | _ => none

/-- Samples one after the other, and what is left of the generator; `none` if one of them is no number. -/
def take (A : Verif.Tone.Arith Rat) (e : Verif.Rng.Env) : Nat → Gen → Option (List Rat × Gen)
  | 0, g => some ([], g)
  | n + 1, g =>
    match g.sample A e with
    | none => none
    | some (x, g') =>
      match take A e n g' with
      | none => none
      | some (xs, g'') => some (x :: xs, g'')

theorem sample_value (A : Verif.Tone.Arith Rat) (e : Verif.Rng.Env) (g : Gen) (hn : ∀ t, g.shape.type ≠ .noise t)
    (ht : g.shape.type.tone? = none) :
    g.sample A e = (valueAt g.shape g.time).map (·, { g with time := g.time + g.tick }) := by
  unfold Gen.sample valueAt
  cases h : g.shape.type <;> simp_all [Sig.tone?]

/-- **Sample `i` is the value of the shape at time `i` over the sample rate**, for all shapes but noise and tones. -/
theorem samples_exact (A : Verif.Tone.Arith Rat) (e : Verif.Rng.Env) (n : Nat) (g g' : Gen) (xs : List Rat)
    (hn : ∀ t, g.shape.type ≠ .noise t) (ht : g.shape.type.tone? = none) (h : take A e n g = some (xs, g')) :
    xs.length = n ∧ (∀ i, i < n → xs[i]? = valueAt g.shape (g.time + i * g.tick)) ∧ g' = { g with time := g.time + n * g.tick } := by
  induction n generalizing g xs g' with
  | zero =>
    simp only [take] at h
    cases h
    refine ⟨rfl, fun i hi => absurd hi (by omega), ?_⟩
    have : g.time + ((0 : Nat) : Rat) * g.tick = g.time := by
      have : ((0 : Nat) : Rat) = 0 := rfl
      rw [this]; grind
    rw [this]
  | succ n ih =>
    simp only [take, sample_value A e g hn ht] at h
    cases hv : valueAt g.shape g.time with
    | none => rw [hv] at h; cases h
    | some x =>
      rw [hv] at h
      simp only [Option.map_some] at h
      cases hr : take A e n { g with time := g.time + g.tick } with
      | none => rw [hr] at h; cases h
      | some w =>
        obtain ⟨ys, g1⟩ := w
        rw [hr] at h
        cases h
        obtain ⟨a, b, c⟩ := ih { g with time := g.time + g.tick } _ _ hn ht hr
        have cast : ∀ k : Nat, g.time + g.tick + (k : Rat) * g.tick = g.time + ((k + 1 : Nat) : Rat) * g.tick := by
          intro k
          have : ((k + 1 : Nat) : Rat) = (k : Rat) + 1 := by rw [Rat.natCast_add]; rfl
          rw [this]; grind
        refine ⟨by simp [a], fun i hi => ?_, ?_⟩
        · cases i with
          | zero =>
            have : g.time + ((0 : Nat) : Rat) * g.tick = g.time := by
              have : ((0 : Nat) : Rat) = 0 := rfl
              rw [this]; grind
            rw [this, hv]
            rfl
          | succ i =>
            rw [List.getElem?_cons_succ, b i (by omega)]
            show valueAt g.shape (g.time + g.tick + (i : Rat) * g.tick) = _
            rw [cast i]
        · rw [c]
          show ({ g with time := g.time + g.tick + (n : Rat) * g.tick } : Gen) = _
          rw [cast n]

example (A : Verif.Tone.Arith Rat) (e : Verif.Rng.Env) : ∃ g', take A e 2 { shape := { type := .const, start := 7 } } = some ([7, 7], g') :=
  ⟨_, rfl⟩

/-- **After the start the first sample is the start of the ramp.** -/
theorem begin_time (A : Verif.Tone.Arith Rat) (g : Gen) :
    (g.begin A).time = 0 ∧ (g.begin A).tick = 1 / g.rate ∧ (g.begin A).shape = g.shape := by
  unfold Gen.begin Gen.configure
  dsimp only
  split
  · exact ⟨rfl, rfl, rfl⟩
  · split <;> exact ⟨rfl, rfl, rfl⟩

/-- **A tone with a duration ends in its offset**; before that, and with no duration for ever, it is the tone. -/
theorem tone_duration (A : Verif.Tone.Arith Rat) (e : Verif.Rng.Env) (g : Gen) (k : Verif.Tone.Kind) (h : g.shape.type.tone? = some k) :
    (0 < g.shape.duration → g.shape.duration < g.time →
      g.sample A e = some (g.shape.start, { g with time := g.time + g.tick })) ∧
    (g.shape.duration ≤ 0 ∨ g.time ≤ g.shape.duration →
      g.sample A e = some ((g.tone.sample A).1, { g with time := g.time + g.tick, tone := (g.tone.sample A).2 })) := by
  have main : g.sample A e = if 0 < g.shape.duration ∧ g.shape.duration < g.time then
      some (g.shape.start, { g with time := g.time + g.tick })
      else some ((g.tone.sample A).1, { g with time := g.time + g.tick, tone := (g.tone.sample A).2 }) := by
    unfold Gen.sample
    cases hs : g.shape.type <;> rw [hs] at h <;> first | (cases h; rfl) | cases h
  refine ⟨fun h1 h2 => ?_, fun h1 => ?_⟩
  · rw [main, if_pos ⟨h1, h2⟩]
  · rw [main, if_neg (by grind)]

/-! ## C145: triggers -/

theorem configure_keeps (A : Verif.Tone.Arith Rat) (g : Gen) :
    (g.configure A).shape = g.shape ∧ (g.configure A).time = g.time ∧ (g.configure A).tick = g.tick ∧ (g.configure A).rate = g.rate ∧
      (g.configure A).trigger = g.trigger := by
  unfold Gen.configure
  split
  · exact ⟨rfl, rfl, rfl, rfl, rfl⟩
  · split <;> exact ⟨rfl, rfl, rfl, rfl, rfl⟩

/-- **Without a required trigger, or with the right one, a new signal starts at once at its beginning.** -/
theorem new_signal (A : Verif.Tone.Arith Rat) (g : Gen) (c : Change) (ht : c.hasType = true)
    (h : c.trigger = "" ∨ c.name = some c.trigger) :
    (g.change A c).shape = c.shape ∧ (g.change A c).time = 0 ∧ (g.change A c).tick = 1 / c.rate := by
  unfold Gen.change
  dsimp only
  rw [if_pos ht]
  by_cases he : c.trigger = ""
  · rw [if_pos he]
    obtain ⟨a, b, d, -, -⟩ := configure_keeps A ({ g with shape := c.shape, rate := c.rate, trigger := c.trigger, time := 0, tick := 1 / c.rate } : Gen)
    exact ⟨a, b, d⟩
  · rw [if_neg he]
    rcases h with h | h
    · exact absurd h he
    · rw [h]
      dsimp only
      rw [if_pos rfl]
      obtain ⟨a, b, d, -, -⟩ := configure_keeps A ({ g with shape := c.shape, rate := c.rate, trigger := c.trigger, time := 0, tick := 1 / c.rate } : Gen)
      exact ⟨a, b, d⟩

/-- **A wrong trigger leaves signal and time as they were**, except that a new sample rate and trigger name are kept. -/
theorem wrong_trigger (A : Verif.Tone.Arith Rat) (g : Gen) (c : Change) (ht : c.hasType = true) (name : String)
    (hn : c.name = some name) (h1 : c.trigger ≠ "") (h2 : name ≠ c.trigger) :
    (g.change A c).shape = g.shape ∧ (g.change A c).time = g.time ∧ (g.change A c).tick = 1 / c.rate := by
  unfold Gen.change
  dsimp only
  rw [if_pos ht, if_neg h1, hn]
  dsimp only
  rw [if_neg h2]
  obtain ⟨a, b, d, -, -⟩ := configure_keeps A ({ g with rate := c.rate, trigger := c.trigger, tick := 1 / c.rate } : Gen)
  exact ⟨a, b, d⟩

example (A : Verif.Tone.Arith Rat) :
    let g : Gen := { shape := { type := .linear, final := 4, duration := 4 }, time := 3, trigger := "go" }
    let c : Change := { shape := { type := .spline, final := 9 }, rate := 1000, trigger := "go", hasType := true, name := some "stop" }
    (g.change A c).shape = g.shape ∧ (g.change A c).time = 3 ∧ (g.change A { c with name := some "go" }).shape = c.shape ∧
      (g.change A { c with name := some "go" }).time = 0 :=
  ⟨(wrong_trigger A _ _ rfl "stop" rfl (by decide) (by decide)).1, (wrong_trigger A _ _ rfl "stop" rfl (by decide) (by decide)).2.1,
    (new_signal A _ _ rfl (.inr rfl)).1, (new_signal A _ _ rfl (.inr rfl)).2.1⟩

/-- So the samples of ramps and impulses go on as if nothing had happened. -/
theorem wrong_trigger_samples (A : Verif.Tone.Arith Rat) (e : Verif.Rng.Env) (g : Gen) (c : Change) (ht : c.hasType = true)
    (name : String) (hn : c.name = some name) (h1 : c.trigger ≠ "") (h2 : name ≠ c.trigger) (hr : g.tick = 1 / c.rate)
    (hno : ∀ t, g.shape.type ≠ .noise t) (hto : g.shape.type.tone? = none) (n : Nat) :
    (take A e n (g.change A c)).map Prod.fst = (take A e n g).map Prod.fst := by
  obtain ⟨a, b, d⟩ := wrong_trigger A g c ht name hn h1 h2
  rw [← hr] at d
  have key : ∀ (n : Nat) (p q : Gen), p.shape = q.shape → p.time = q.time → p.tick = q.tick → (∀ t, q.shape.type ≠ .noise t) →
      q.shape.type.tone? = none → (take A e n p).map Prod.fst = (take A e n q).map Prod.fst := by
    intro n
    induction n with
    | zero => intros; rfl
    | succ n ih =>
      intro p q e1 e2 e3 e4 e5
      simp only [take]
      rw [sample_value A e p (by rw [e1]; exact e4) (by rw [e1]; exact e5), sample_value A e q e4 e5, e1, e2]
      cases valueAt q.shape q.time with
      | none => rfl
      | some x =>
        have := ih { p with time := p.time + p.tick } { q with time := q.time + q.tick } e1 (by show p.time + p.tick = q.time + q.tick; rw [e2, e3]) e3 e4 e5
        have pull : ∀ w : Option (List Rat × Gen), ((match w with | none => none | some (xs, g'') => some (x :: xs, g'')) :
            Option (List Rat × Gen)).map Prod.fst = (w.map Prod.fst).map (x :: ·) := by
          intro w
          cases w <;> rfl
        rw [e1, e2] at this
        show ((match take A e n { p with shape := q.shape, time := q.time + p.tick } with | none => none | some (xs, g'') => some (x :: xs, g'')) :
            Option (List Rat × Gen)).map Prod.fst = ((match take A e n { q with time := q.time + q.tick } with | none => none | some (xs, g'') => some (x :: xs, g'')) :
            Option (List Rat × Gen)).map Prod.fst
        rw [pull, pull, this]
  exact key n _ _ a b d hno hto

/-- But a tone starts over, although the trigger was not the right one. -/
theorem wrong_trigger_restarts_tone (A : Verif.Tone.Arith Rat) (g : Gen) (c : Change) (ht : c.hasType = true) (name : String)
    (hn : c.name = some name) (h1 : c.trigger ≠ "") (h2 : name ≠ c.trigger) (hk : g.shape.type = .sin) :
    (g.change A c).tone.time = 0 := by
  unfold Gen.change
  dsimp only
  rw [if_pos ht, if_neg h1, hn]
  dsimp only
  rw [if_neg h2]
  unfold Gen.configure
  simp only [hk]
  rfl

/-- And without any trigger in the message the new signal is taken although one is required, in the middle of its course. -/
theorem missing_trigger (A : Verif.Tone.Arith Rat) (g : Gen) (c : Change) (hn : c.name = none) (h1 : c.trigger ≠ "") :
    (g.change A c).shape = c.shape ∧ (g.change A c).time = g.time := by
  unfold Gen.change
  dsimp only
  rw [if_neg h1, hn]
  obtain ⟨a, b, -, -, -⟩ := configure_keeps A ({ g with shape := c.shape, rate := c.rate, trigger := c.trigger, tick := 1 / c.rate } : Gen)
  cases c.hasType <;> exact ⟨a, b⟩

/-- Settings other than the type are taken at once, whatever the trigger. -/
theorem values_not_guarded (A : Verif.Tone.Arith Rat) (g : Gen) (c : Change) (ht : c.hasType = false) :
    (g.change A c).shape = c.shape ∧ (g.change A c).time = g.time := by
  unfold Gen.change
  dsimp only
  rw [ht]
  obtain ⟨a, b, -, -, -⟩ := configure_keeps A ({ g with shape := c.shape, rate := c.rate, trigger := c.trigger, tick := 1 / c.rate } : Gen)
  exact ⟨a, b⟩

/-- **What the settings mean for a tone**: the final value is the amplitude and the start value the offset, and it starts at time 0. -/
theorem tone_settings (A : Verif.Tone.Arith Rat) (g : Gen) (k : Verif.Tone.Kind) (h : g.shape.type.tone? = some k) :
    (g.configure A).tone.amplitude = g.shape.final ∧ (g.configure A).tone.offset = g.shape.start ∧
    (g.configure A).tone.frequency = g.shape.frequency ∧ (g.configure A).tone.phase = g.shape.phase ∧
    (g.configure A).tone.tick = A.div 1 g.rate ∧ (g.configure A).tone.time = 0 := by
  have e : g.configure A =
      { g with tone := (g.tone.configure A k g.shape.frequency g.rate g.shape.phase g.shape.final g.shape.start).reset A } := by
    unfold Gen.configure
    cases ht : g.shape.type <;> simp_all [Sig.tone?]
  rw [e]
  exact ⟨rfl, rfl, rfl, rfl, rfl, rfl⟩

/-- **… and for noise**: the start value is the amplitude, and there is no offset. -/
theorem noise_settings (A : Verif.Tone.Arith Rat) (g : Gen) (t : Verif.Rng.Noise) (h : g.shape.type = .noise t) :
    (g.configure A).noise.type = t ∧ (g.configure A).noise.amp = g.shape.start ∧ (g.configure A).noise.off = 0 ∧
    (g.configure A).noise.gauss = ⟨Verif.Rng.seed g.shape.seed, none⟩ := by
  have e : g.configure A = { g with noise := g.noise.configure t g.shape.start 0 g.shape.seed } := by
    unfold Gen.configure
    rw [h]
  rw [e]
  exact ⟨rfl, rfl, rfl, rfl⟩

end Verif.Func
