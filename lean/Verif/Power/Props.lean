import Verif.Power.Model
import Mathlib.Algebra.Order.BigOperators.Ring.List
import Mathlib.Tactic.Linarith
import Mathlib.Tactic.Ring

/-!
# C152, C153: electrical power
-/

namespace Verif.Power

/-! ## Specification -/

/-- The weighted sum of what a filter has seen. -/
def weighted : List ℝ → List ℝ → ℝ
  | w :: ws, x :: xs => w * x + weighted ws xs
  | _, _ => 0

/-! ## C152: active, reactive and apparent power -/

/-- The values are real numbers exactly if the averaged squares are not negative; then the voltage and current are
the roots of the averages, the apparent power is their product, none of them is negative, and the powers form a right
triangle whenever the active power does not exceed the apparent power; otherwise the reactive power is 0. -/
theorem power_triangle (p u2 i2 : ℝ) (hu : 0 ≤ u2) (hi : 0 ≤ i2) :
    ∃ q s u i, row p u2 i2 = { P := p, Q := some q, S := some s, Urms := some u, Irms := some i } ∧
      0 ≤ u ∧ u * u = u2 ∧ 0 ≤ i ∧ i * i = i2 ∧ s = u * i ∧ 0 ≤ q ∧
      (|p| ≤ s → p * p + q * q = s * s) ∧ (s ≤ |p| → q = 0) := by
  have hu' : ¬ u2 < 0 := not_lt.2 hu
  have hi' : ¬ i2 < 0 := not_lt.2 hi
  set s := Real.sqrt u2 * Real.sqrt i2 with hs
  have hs0 : 0 ≤ s := mul_nonneg (Real.sqrt_nonneg _) (Real.sqrt_nonneg _)
  have hm : ¬ max (s * s - p * p) 0 < 0 := not_lt.2 (le_max_right _ _)
  refine ⟨Real.sqrt (max (s * s - p * p) 0), s, Real.sqrt u2, Real.sqrt i2, ?_, Real.sqrt_nonneg _,
    Real.mul_self_sqrt hu, Real.sqrt_nonneg _, Real.mul_self_sqrt hi, rfl, Real.sqrt_nonneg _, fun h => ?_, fun h => ?_⟩
  · simp only [row, sqrtF, if_neg hu', if_neg hi', Option.bind_some, Option.map_some, ← hs, if_neg hm]
  · have h1 : p * p ≤ s * s := by
      rw [← abs_mul_abs_self p]; exact mul_self_le_mul_self (abs_nonneg p) h
    rw [Real.mul_self_sqrt (le_max_right _ _), max_eq_left (by linarith)]; ring
  · have h1 : s * s ≤ p * p := by
      rw [← abs_mul_abs_self p]; exact mul_self_le_mul_self hs0 h
    rw [max_eq_right (by linarith), Real.sqrt_zero]

/-- A negative average gives no apparent and no reactive power. -/
theorem negative_average (p u2 i2 : ℝ) (h : u2 < 0 ∨ i2 < 0) :
    (row p u2 i2).S = none ∧ (row p u2 i2).Q = none ∧ (row p u2 i2).P = p := by
  rcases h with h | h
  · simp [row, sqrtF, h]
  · by_cases hu : u2 < 0 <;> simp [row, sqrtF, h, hu]

example : (row 1 4 (-1)).S = none := (negative_average 1 4 (-1) (.inr (by norm_num))).1

/-- Three, four, five. -/
example : ∃ q, (row 3 25 1).Q = some q ∧ q * q = 16 := by
  obtain ⟨q, s, u, i, h, h1, h2, h3, h4, h5, h6, h7, _⟩ := power_triangle 3 25 1 (by norm_num) (by norm_num)
  refine ⟨q, by rw [h], ?_⟩
  have hs : s * s = 25 := by rw [h5]; calc u * i * (u * i) = (u * u) * (i * i) := by ring
    _ = 25 := by rw [h2, h4]; norm_num
  have h3 : |(3 : ℝ)| ≤ s := by
    rw [abs_of_pos (by norm_num)]
    by_contra hlt
    have hlt := not_le.1 hlt
    have hs0 : 0 ≤ s := by rw [h5]; exact mul_nonneg h1 h3
    have := mul_self_lt_mul_self hs0 hlt
    linarith
  have := h7 h3
  linarith

theorem weighted_nonneg (ws xs : List ℝ) (h : ∀ w ∈ ws, 0 ≤ w) (hx : ∀ x ∈ xs, 0 ≤ x) : 0 ≤ weighted ws xs := by
  induction ws generalizing xs with
  | nil => simp [weighted]
  | cons w ws ih =>
    cases xs with
    | nil => simp [weighted]
    | cons x xs =>
      simp only [weighted]
      exact add_nonneg (mul_nonneg (h w (by simp)) (hx x (by simp)))
        (ih xs (fun w hw => h w (by simp [hw])) (fun x hx' => hx x (by simp [hx'])))

theorem weighted_quadratic (ws : List ℝ) (vs : List (ℝ × ℝ)) (t : ℝ) :
    weighted ws (vs.map fun v => (v.1 + t * v.2) * (v.1 + t * v.2)) =
      weighted ws (vs.map fun v => v.1 * v.1) + 2 * t * weighted ws (vs.map fun v => v.1 * v.2) +
        t * t * weighted ws (vs.map fun v => v.2 * v.2) := by
  induction ws generalizing vs with
  | nil => simp [weighted]
  | cons w ws ih =>
    cases vs with
    | nil => simp [weighted]
    | cons v vs => simp only [List.map_cons, weighted, ih]; ring

/-- **Active power never exceeds apparent power** as long as the low-pass filter is an average with weights that are
not negative: the Cauchy-Schwarz inequality for the filtered products.  Then the powers form a right triangle. -/
theorem active_le_apparent (ws : List ℝ) (hw : ∀ w ∈ ws, 0 ≤ w) (vs : List (ℝ × ℝ)) :
    ∃ q s, (row (weighted ws (vs.map fun v => v.1 * v.2)) (weighted ws (vs.map fun v => v.1 * v.1))
        (weighted ws (vs.map fun v => v.2 * v.2))).Q = some q ∧
      (row (weighted ws (vs.map fun v => v.1 * v.2)) (weighted ws (vs.map fun v => v.1 * v.1))
        (weighted ws (vs.map fun v => v.2 * v.2))).S = some s ∧
      |weighted ws (vs.map fun v => v.1 * v.2)| ≤ s ∧
      weighted ws (vs.map fun v => v.1 * v.2) * weighted ws (vs.map fun v => v.1 * v.2) + q * q = s * s := by
  have hA := weighted_nonneg ws (vs.map fun v => v.1 * v.1) hw
    (by simp only [List.mem_map]; rintro x ⟨v, _, rfl⟩; exact mul_self_nonneg _)
  have hB := weighted_nonneg ws (vs.map fun v => v.2 * v.2) hw
    (by simp only [List.mem_map]; rintro x ⟨v, _, rfl⟩; exact mul_self_nonneg _)
  have hq : ∀ t, 0 ≤ weighted ws (vs.map fun v => v.1 * v.1) + 2 * t * weighted ws (vs.map fun v => v.1 * v.2) +
      t * t * weighted ws (vs.map fun v => v.2 * v.2) := by
    intro t
    rw [← weighted_quadratic]
    exact weighted_nonneg _ _ hw
      (by simp only [List.mem_map]; rintro x ⟨v, _, rfl⟩; exact mul_self_nonneg _)
  obtain ⟨q, s, u, i, h, h1, h2, h3, h4, h5, h6, h7, _⟩ :=
    power_triangle (weighted ws (vs.map fun v => v.1 * v.2)) _ _ hA hB
  rw [h]
  generalize weighted ws (vs.map fun v => v.1 * v.1) = A at *
  generalize weighted ws (vs.map fun v => v.2 * v.2) = B at *
  generalize weighted ws (vs.map fun v => v.1 * v.2) = C at *
  have hCS : C * C ≤ A * B := by
    by_cases hB0 : B = 0
    · have hC : C = 0 := by
        by_contra hne
        have := hq (-(A + 1) / (2 * C))
        rw [hB0] at this
        have e : 2 * (-(A + 1) / (2 * C)) * C = -(A + 1) := by field_simp
        rw [e] at this
        linarith
      rw [hC, hB0]; simp
    · have hBp : 0 < B := lt_of_le_of_ne hB (Ne.symm hB0)
      have := hq (-C / B)
      have e : A + 2 * (-C / B) * C + -C / B * (-C / B) * B = A - C * C / B := by field_simp; ring
      rw [e] at this
      have h' : C * C / B ≤ A := by linarith
      rwa [div_le_iff₀ hBp] at h'
  have hs0 : 0 ≤ s := by rw [h5]; exact mul_nonneg h1 h3
  have hss : s * s = A * B := by rw [h5, ← h2, ← h4]; ring
  have habs : |C| ≤ s := by
    apply abs_le_of_sq_le_sq _ hs0
    · rw [sq, sq, hss]; exact hCS
  exact ⟨q, s, rfl, rfl, habs, h7 habs⟩

example : weighted [1/2, 1/4] ([((1 : ℝ), (2 : ℝ)), (3, 4)].map fun v => v.1 * v.2) = 4 := by
  norm_num [weighted]

/-- Without that (a second-order low-pass filter rings, its response changes sign) the result may be "not a number":
the average over the weights `-1/2, 3/2` of the squares of 0 and 2 is negative. -/
theorem ringing_filter :
    (∑ w ∈ ({-1/2, 3/2} : Finset ℝ), w) = 1 ∧
    (row 0 (weighted [-1/2, 3/2] [2 * 2, 0 * 0]) 1).S = none := by
  constructor
  · rw [Finset.sum_insert (by norm_num), Finset.sum_singleton]; norm_num
  · exact (negative_average _ _ _ (.inl (by norm_num [weighted]))).1

/-! ### decimation -/

theorem loop_append {σ : Type} (hp lp : Flt σ) (dec : Nat) (xs ys : List (ℝ × ℝ)) (i : Nat) (f : Filters σ) :
    loop hp lp dec i f (xs ++ ys) =
      ((loop hp lp dec (i + xs.length) (loop hp lp dec i f xs).1 ys).1,
        (loop hp lp dec i f xs).2 ++ (loop hp lp dec (i + xs.length) (loop hp lp dec i f xs).1 ys).2) := by
  induction xs generalizing i f with
  | nil => simp [loop]
  | cons x xs ih =>
    obtain ⟨u, c⟩ := x
    simp only [List.cons_append, loop, ih, List.length_cons]
    have : i + 1 + xs.length = i + (xs.length + 1) := by omega
    rw [this]
    split <;> simp

theorem loop_shift {σ : Type} (hp lp : Flt σ) (dec : Nat) (xs : List (ℝ × ℝ)) (i m : Nat) (f : Filters σ) :
    loop hp lp dec (m * dec + i) f xs = loop hp lp dec i f xs := by
  induction xs generalizing i f with
  | nil => rfl
  | cons x xs ih =>
    obtain ⟨u, c⟩ := x
    simp only [loop, Nat.add_assoc, ih]
    have : (m * dec + i) % dec = i % dec := by rw [Nat.add_comm, Nat.add_mul_mod_self_right]
    rw [this]

/-- **Chunks do not matter** as long as they are multiples of the decimation factor (which the block asks for): the
values for a stream handed over in two calls are those for one call. -/
theorem chunks {σ : Type} (hp lp : Flt σ) (dec : Nat) (f : Filters σ) (xs ys : List (ℝ × ℝ))
    (h : dec ∣ xs.length) :
    (metrics hp lp dec f (xs ++ ys)).2 =
      (metrics hp lp dec f xs).2 ++ (metrics hp lp dec (metrics hp lp dec f xs).1 ys).2 ∧
    (metrics hp lp dec f (xs ++ ys)).1 = (metrics hp lp dec (metrics hp lp dec f xs).1 ys).1 := by
  obtain ⟨m, hm⟩ := h
  unfold metrics
  rw [loop_append]
  have := loop_shift hp lp dec ys 0 m (loop hp lp dec 0 f xs).1
  rw [Nat.zero_add, hm, Nat.mul_comm, ← Nat.add_zero (m * dec), this]
  exact ⟨rfl, rfl⟩

theorem loop_count {σ : Type} (hp lp : Flt σ) (dec : Nat) (hd : dec ≠ 0) (xs : List (ℝ × ℝ)) (i : Nat) (f : Filters σ) :
    (loop hp lp dec i f xs).2.length = (i + xs.length + dec - 1) / dec - (i + dec - 1) / dec := by
  induction xs generalizing i f with
  | nil => simp [loop]
  | cons x xs ih =>
    obtain ⟨u, c⟩ := x
    simp only [loop, List.length_cons]
    have key : (i + 1 + dec - 1) / dec = (i + dec - 1) / dec + if i % dec = 0 then 1 else 0 := by
      have hdp : 0 < dec := Nat.pos_of_ne_zero hd
      have hdm := Nat.div_add_mod i dec
      have hlt := Nat.mod_lt i hdp
      have e1 : (i + 1 + dec - 1) / dec = i / dec + 1 := by
        rw [show i + 1 + dec - 1 = i + dec by omega, Nat.add_div_right _ hdp]
      rw [e1]
      split
      · rename_i h0
        have : i + dec - 1 = (dec - 1) + dec * (i / dec) := by omega
        have hz : (dec - 1) / dec = 0 := Nat.div_eq_of_lt (by omega)
        rw [this, Nat.add_mul_div_left _ _ hdp, hz]; omega
      · rename_i h0
        have : i + dec - 1 = (i % dec - 1) + dec * (i / dec + 1) := by rw [Nat.mul_add]; omega
        have hz : (i % dec - 1) / dec = 0 := Nat.div_eq_of_lt (by omega)
        rw [this, Nat.add_mul_div_left _ _ hdp, hz]; omega
    have mono : (i + 1 + dec - 1) / dec ≤ (i + 1 + xs.length + dec - 1) / dec := Nat.div_le_div_right (by omega)
    have hi := ih (i + 1) (sample hp lp f u c).1
    rw [key] at hi mono
    have e2 : i + (xs.length + 1) + dec - 1 = i + 1 + xs.length + dec - 1 := by omega
    split
    · rename_i h0
      rw [if_pos h0] at hi mono
      rw [List.length_cons, hi, e2]; omega
    · rename_i h0
      rw [if_neg h0] at hi
      rw [hi, e2]; omega

/-- One set of values for every `decimate` samples. -/
theorem decimates {σ : Type} (hp lp : Flt σ) (dec : Nat) (hd : dec ≠ 0) (f : Filters σ) (xs : List (ℝ × ℝ))
    (h : dec ∣ xs.length) : (metrics hp lp dec f xs).2.length = xs.length / dec := by
  obtain ⟨m, hm⟩ := h
  have hdp : 0 < dec := Nat.pos_of_ne_zero hd
  unfold metrics
  rw [loop_count _ _ _ hd, hm, Nat.mul_div_cancel_left _ hdp]
  have e1 : 0 + dec * m + dec - 1 = (dec - 1) + dec * m := by omega
  have e2 : 0 + dec - 1 = dec - 1 := by omega
  rw [e1, e2, Nat.add_mul_div_left _ _ hdp, Nat.div_eq_of_lt (by omega)]
  omega

/-- The value handed out belongs to the first sample of each group: with pass-through filters it is the instantaneous
power of samples `0, decimate, 2 decimate, …`. -/
theorem first_of_group (dec : Nat) (hd : dec ≠ 0) (xs : List (ℝ × ℝ)) (j : Nat) (hj : j * dec < xs.length) :
    ((metrics (σ := Unit) ⟨fun s x => (s, x)⟩ ⟨fun s x => (s, x)⟩ dec ⟨(), (), (), (), ()⟩ xs).2.map Row.P)[j]? =
      some ((xs.getD (j * dec) (0, 0)).1 * (xs.getD (j * dec) (0, 0)).2) := by
  induction j generalizing xs with
  | zero =>
    cases xs with
    | nil => simp at hj
    | cons x xs =>
      obtain ⟨u, c⟩ := x
      simp [metrics, loop, sample, row]
  | succ j ih =>
    have hdp : 0 < dec := Nat.pos_of_ne_zero hd
    have hmul : (j + 1) * dec = j * dec + dec := by ring
    have hsplit : xs = xs.take dec ++ xs.drop dec := (List.take_append_drop dec xs).symm
    have hl : (xs.take dec).length = dec := by rw [List.length_take]; omega
    have hc := (chunks (σ := Unit) ⟨fun s x => (s, x)⟩ ⟨fun s x => (s, x)⟩ dec ⟨(), (), (), (), ()⟩
      (xs.take dec) (xs.drop dec) (by rw [hl])).1
    rw [← hsplit] at hc
    have h1 := decimates (σ := Unit) ⟨fun s x => (s, x)⟩ ⟨fun s x => (s, x)⟩ dec hd ⟨(), (), (), (), ()⟩
      (xs.take dec) (by rw [hl])
    rw [hl, Nat.div_self hdp] at h1
    rw [hc, List.map_append, List.getElem?_append_right (by rw [List.length_map, h1]; omega), List.length_map, h1]
    have := ih (xs.drop dec) (by rw [List.length_drop]; omega)
    have hg : ((xs.drop dec).getD (j * dec) (0, 0)) = xs.getD ((j + 1) * dec) (0, 0) := by
      simp only [List.getD_eq_getElem?_getD, List.getElem?_drop]
      congr 2; rw [hmul]; omega
    rw [hg] at this
    exact this

/-! ## C153: power factor and unbalance -/

/-- The power factor lies between -1 and 1, is the quotient of active and apparent power whenever that does, is 0
without apparent power, and is the cosine of the reported angle, which lies between 0 and π. -/
theorem power_factor_range (p s : ℝ) :
    -1 ≤ (powerFactor p s).1 ∧ (powerFactor p s).1 ≤ 1 ∧
    (0 < s → |p| ≤ s → (powerFactor p s).1 = p / s) ∧
    (0 < s → s ≤ p → (powerFactor p s).1 = 1) ∧ (0 < s → s ≤ -p → (powerFactor p s).1 = -1) ∧
    (s = 0 → (powerFactor p s).1 = 0) ∧
    Real.cos (powerFactor p s).2 = (powerFactor p s).1 ∧ 0 ≤ (powerFactor p s).2 ∧ (powerFactor p s).2 ≤ Real.pi := by
  have range : -1 ≤ (powerFactor p s).1 ∧ (powerFactor p s).1 ≤ 1 := by
    unfold powerFactor
    simp only
    generalize (if s ≠ 0 then p / s else 0) = c
    split
    · norm_num
    · split
      · norm_num
      · rename_i h1 h2; exact ⟨not_lt.1 h1, not_lt.1 h2⟩
  refine ⟨range.1, range.2, fun hs h => ?_, fun hs h => ?_, fun hs h => ?_, fun hs => ?_,
    Real.cos_arccos range.1 range.2, Real.arccos_nonneg _, Real.arccos_le_pi _⟩
  · have hl := abs_le.1 h
    have h1 : ¬ p / s < -1 := not_lt.2 (by rw [le_div_iff₀ hs]; linarith)
    have h2 : ¬ 1 < p / s := not_lt.2 (by rw [div_le_one hs]; linarith)
    unfold powerFactor
    simp only [if_pos hs.ne', if_neg h1, if_neg h2]
  · have h0 : 1 ≤ p / s := by rw [le_div_iff₀ hs]; linarith
    have h1 : ¬ p / s < -1 := not_lt.2 (by linarith)
    unfold powerFactor
    simp only [if_pos hs.ne', if_neg h1]
    split
    · rfl
    · rename_i h2; exact le_antisymm (not_lt.1 h2) h0
  · have h0 : p / s ≤ -1 := by rw [div_le_iff₀ hs]; linarith
    unfold powerFactor
    simp only [if_pos hs.ne']
    split
    · rfl
    · rename_i h1
      rw [if_neg (by linarith)]; exact le_antisymm h0 (not_lt.1 h1)
  · unfold powerFactor
    norm_num [hs]

example : (powerFactor 3 5).1 = 3 / 5 := (power_factor_range 3 5).2.2.1 (by norm_num) (by norm_num [abs_of_pos])

theorem foldl_max (avg : ℝ) (xs : List ℝ) (m : ℝ) :
    m ≤ xs.foldl (fun m x => max m |x - avg|) m ∧
    (∀ x ∈ xs, |x - avg| ≤ xs.foldl (fun m x => max m |x - avg|) m) ∧
    (xs.foldl (fun m x => max m |x - avg|) m = m ∨ ∃ x ∈ xs, xs.foldl (fun m x => max m |x - avg|) m = |x - avg|) := by
  induction xs generalizing m with
  | nil => simp
  | cons x xs ih =>
    obtain ⟨h1, h2, h3⟩ := ih (max m |x - avg|)
    simp only [List.foldl_cons]
    refine ⟨le_trans (le_max_left _ _) h1, ?_, ?_⟩
    · intro y hy
      rcases List.mem_cons.1 hy with rfl | hy
      · exact le_trans (le_max_right _ _) h1
      · exact h2 y hy
    · rcases h3 with h3 | ⟨y, hy, h3⟩
      · rcases le_total m |x - avg| with hm | hm
        · right; exact ⟨x, by simp, by rw [h3, max_eq_right hm]⟩
        · left; rw [h3, max_eq_left hm]
      · right; exact ⟨y, by simp [hy], h3⟩

theorem maxElement_spec (avg : ℝ) (xs : List ℝ) (b : ℝ) :
    maxElement avg b xs ∈ b :: xs ∧ ∀ x ∈ b :: xs, |x - avg| ≤ |maxElement avg b xs - avg| := by
  induction xs generalizing b with
  | nil => simp [maxElement]
  | cons x xs ih =>
    rw [maxElement]
    by_cases h : |b - avg| < |x - avg|
    · rw [if_pos h]
      obtain ⟨h1, h2⟩ := ih x
      refine ⟨List.mem_cons_of_mem _ h1, fun y hy => ?_⟩
      rcases List.mem_cons.1 hy with rfl | hy
      · exact le_trans h.le (h2 x (by simp))
      · exact h2 y hy
    · rw [if_neg h]
      obtain ⟨h1, h2⟩ := ih b
      refine ⟨?_, fun y hy => ?_⟩
      · rcases List.mem_cons.1 h1 with h1 | h1
        · rw [h1]; simp
        · simp [h1]
      · rcases List.mem_cons.1 hy with rfl | hy
        · exact h2 y (by simp)
        · rcases List.mem_cons.1 hy with rfl | hy
          · exact le_trans (not_lt.1 h) (h2 b (by simp))
          · exact h2 y (by simp [hy])

theorem deviationMax_spec (avg : ℝ) (xs : List ℝ) (h : xs ≠ []) :
    (∃ x ∈ xs, deviationMax avg xs = |x - avg|) ∧ ∀ x ∈ xs, |x - avg| ≤ deviationMax avg xs := by
  cases xs with
  | nil => exact absurd rfl h
  | cons b xs => exact ⟨⟨_, (maxElement_spec avg xs b).1, rfl⟩, (maxElement_spec avg xs b).2⟩

/-- The two ways of finding the greatest deviation agree. -/
theorem deviations_agree (avg : ℝ) (xs : List ℝ) (h : xs ≠ []) : deviationReduce avg xs = deviationMax avg xs := by
  obtain ⟨⟨y, hy, e⟩, hle⟩ := deviationMax_spec avg xs h
  obtain ⟨h1, h2, h3⟩ := foldl_max avg xs 0
  apply le_antisymm
  · unfold deviationReduce
    rcases h3 with h3 | ⟨x, hx, h3⟩
    · rw [h3, e]; exact abs_nonneg _
    · rw [h3]; exact hle x hx
  · rw [e]; exact h2 y hy

/-- **Unbalance**, of voltages and currents alike: the greatest distance of a phase from the mean of all phases, in
percent of that mean; 0 if the mean is not positive. -/
theorem unbalance_value (xs : List ℝ) (h : xs ≠ []) :
    voltageUnbalance xs = currentUnbalance xs ∧
    (0 < xs.sum → ∃ x ∈ xs, voltageUnbalance xs = 100 * (|x - xs.sum / xs.length| / (xs.sum / xs.length)) ∧
      ∀ y ∈ xs, |y - xs.sum / xs.length| ≤ |x - xs.sum / xs.length|) ∧
    (xs.sum ≤ 0 → voltageUnbalance xs = 0) := by
  have hav : average xs = xs.sum / xs.length := by unfold average; rw [List.sum_eq_foldl]
  have hl : (0 : ℝ) < xs.length := by
    have := List.length_pos_of_ne_nil h
    exact_mod_cast this
  refine ⟨?_, fun hs => ?_, fun hs => ?_⟩
  · unfold voltageUnbalance currentUnbalance
    simp only [deviations_agree _ xs h]
  · have hp : 0 < average xs := by rw [hav]; exact div_pos hs hl
    obtain ⟨⟨x, hx, e⟩, hle⟩ := deviationMax_spec (average xs) xs h
    refine ⟨x, hx, ?_, fun y hy => ?_⟩
    · unfold voltageUnbalance
      simp only [if_pos hp, deviations_agree _ xs h, e]
      rw [hav]; ring
    · rw [← hav, ← e]; exact hle y hy
  · have hp : ¬ 0 < average xs := by rw [hav]; exact not_lt.2 (div_nonpos_of_nonpos_of_nonneg hs hl.le)
    unfold voltageUnbalance
    simp only [if_neg hp]

/-- It is never negative, and 0 exactly if all phases are equal. -/
theorem balanced_iff (xs : List ℝ) (h : xs ≠ []) (hs : 0 < xs.sum) :
    0 ≤ voltageUnbalance xs ∧ (voltageUnbalance xs = 0 ↔ ∀ x ∈ xs, ∀ y ∈ xs, x = y) := by
  obtain ⟨_, h2, _⟩ := unbalance_value xs h
  obtain ⟨x, hx, e, hle⟩ := h2 hs
  have hl : (0 : ℝ) < xs.length := by
    have := List.length_pos_of_ne_nil h
    exact_mod_cast this
  have hm : 0 < xs.sum / xs.length := div_pos hs hl
  refine ⟨by rw [e]; exact mul_nonneg (by norm_num) (div_nonneg (abs_nonneg _) hm.le), ?_, ?_⟩
  · intro h0
    rw [e] at h0
    have hx0 : |x - xs.sum / xs.length| = 0 := by
      rcases mul_eq_zero.1 h0 with h | h
      · norm_num at h
      · rcases div_eq_zero_iff.1 h with h | h
        · exact h
        · exact absurd h hm.ne'
    have all : ∀ y ∈ xs, y = xs.sum / xs.length := by
      intro y hy
      have := hle y hy
      rw [hx0] at this
      have := abs_nonpos_iff.1 this
      linarith
    intro y hy z hz
    rw [all y hy, all z hz]
  · intro heq
    have hsum : xs.sum = xs.length * x := by
      have : xs = List.replicate xs.length x := List.eq_replicate_iff.2 ⟨rfl, fun y hy => heq y hy x hx⟩
      rw [this, List.sum_replicate]; simp
    have : xs.sum / xs.length = x := by rw [hsum]; field_simp
    rw [e, this]; simp

/-- It does not depend on the unit: scaling all phases by the same positive factor leaves it. -/
theorem unbalance_scale (c : ℝ) (hc : 0 < c) (xs : List ℝ) :
    voltageUnbalance (xs.map (c * ·)) = voltageUnbalance xs := by
  by_cases h : xs = []
  · subst h; rfl
  have hav : average (xs.map (c * ·)) = c * average xs := by
    unfold average
    rw [← List.sum_eq_foldl, ← List.sum_eq_foldl, List.sum_map_mul_left, List.length_map]
    simp only [List.map_id']
    ring
  have hdev : ∀ (ys : List ℝ) (m a : ℝ), (ys.map (c * ·)).foldl (fun m x => max m |x - c * a|) (c * m) =
      c * ys.foldl (fun m x => max m |x - a|) m := by
    intro ys
    induction ys with
    | nil => intro m a; rfl
    | cons y ys ih =>
      intro m a
      simp only [List.map_cons, List.foldl_cons]
      rw [← ih]
      congr 1
      rw [← mul_sub, abs_mul, abs_of_pos hc, mul_max_of_nonneg _ _ hc.le]
  have hd := hdev xs 0 (average xs)
  rw [mul_zero] at hd
  unfold voltageUnbalance
  simp only [hav, deviationReduce, hd]
  by_cases hp : 0 < average xs
  · rw [if_pos (mul_pos hc hp), if_pos hp, mul_div_mul_left _ _ hc.ne']
  · rw [if_neg hp, if_neg (by rw [mul_pos_iff_of_pos_left hc]; exact hp)]

/-- Three phases at 230, 230 and 260: 240 on average, 20 off at most. -/
example : ∃ x ∈ [(230 : ℝ), 230, 260], voltageUnbalance [230, 230, 260] =
    100 * (|x - [(230 : ℝ), 230, 260].sum / 3| / ([(230 : ℝ), 230, 260].sum / 3)) := by
  obtain ⟨x, hx, e, _⟩ := (unbalance_value [230, 230, 260] (by simp)).2.1 (by norm_num)
  exact ⟨x, hx, by simpa using e⟩

/-- The total power is the sum over the phases, and each result depends on its own inputs only. -/
theorem total_power (us cs ps : List ℝ) :
    (unbalance us cs ps).1 = ps.sum ∧ (unbalance us cs ps).2.1 = voltageUnbalance us ∧
    (unbalance us cs ps).2.2 = currentUnbalance cs :=
  ⟨by unfold unbalance; rw [List.sum_eq_foldl], rfl, rfl⟩

/-- What a filter makes of a whole signal. -/
def Flt.out {σ : Type} (F : Flt σ) : σ → List ℝ → List ℝ
  | _, [] => []
  | s, x :: xs => (F.step s x).2 :: F.out (F.step s x).1 xs

theorem loop_signals {σ : Type} (hp lp : Flt σ) (n : Nat) (f : Filters σ) (xs : List (ℝ × ℝ)) :
    let U := hp.out f.hpU (xs.map (·.1))
    let I := hp.out f.hpI (xs.map (·.2))
    let rows := (loop hp lp 1 n f xs).2
    rows.map (·.P) = lp.out f.lpP (List.zipWith (· * ·) U I) ∧
    rows.map (·.Urms) = (lp.out f.lpU (U.map fun u => u * u)).map sqrtF ∧
    rows.map (·.Irms) = (lp.out f.lpI (I.map fun i => i * i)).map sqrtF := by
  induction xs generalizing n f with
  | nil => exact ⟨rfl, rfl, rfl⟩
  | cons p xs ih =>
    obtain ⟨u, c⟩ := p
    have h := ih (n + 1) (sample hp lp f u c).1
    dsimp only at h ⊢
    obtain ⟨h1, h2, h3⟩ := h
    rw [loop]
    dsimp only
    rw [if_pos (Nat.mod_one n)]
    refine ⟨?_, ?_, ?_⟩
    · rw [List.map_cons, h1]; rfl
    · rw [List.map_cons, h2]; rfl
    · rw [List.map_cons, h3]; rfl

/-- **What is averaged**: voltage and current go through a high pass each; the power is the low-passed product of the two, and the
effective values are the roots of the low-passed squares, each filter keeping its own history over the whole signal. -/
theorem averages_of_signals {σ : Type} (hp lp : Flt σ) (f : Filters σ) (xs : List (ℝ × ℝ)) :
    let U := hp.out f.hpU (xs.map (·.1))
    let I := hp.out f.hpI (xs.map (·.2))
    let rows := (metrics hp lp 1 f xs).2
    rows.map (·.P) = lp.out f.lpP (List.zipWith (· * ·) U I) ∧
    rows.map (·.Urms) = (lp.out f.lpU (U.map fun u => u * u)).map sqrtF ∧
    rows.map (·.Irms) = (lp.out f.lpI (I.map fun i => i * i)).map sqrtF := loop_signals hp lp 0 f xs

example : (Flt.out ⟨fun s x => (s + x, s + x)⟩ (0 : ℝ) [1, 2, 3]) = [0 + 1, 0 + 1 + 2, 0 + 1 + 2 + 3] := rfl

end Verif.Power
